import Verif.Model.Authority
import Verif.Spec.Role
import Verif.Spec.Access

/-! # Specification: authorization calls -/

namespace Athenz
namespace Spec

/-- The token of the request is valid at time `t` under these keys, and the principal reports what the token says. -/
def TokenSays (cfg : AuthCfg) (t : Int) (keys : Option KeyProvider) (jwkp : Option JwkProvider) (q : AReq) (p : Principal) : Prop :=
  match q.mode with
  | .roleToken => ∃ ks rt, keys = some ks ∧ parseAndValidateRoleToken ks (clock t) q.tok = .ok rt ∧
      p.name = rt.principal ∧ p.roles = rt.roles ∧ p.domain = rt.domain ∧ p.issueTime = rt.timeStamp.unix ∧
      p.expiryTime = rt.expiryTime.unix ∧ p.clientID = none
  | .accessToken => ∃ ks c, jwkp = some ks ∧ parseAndValidateAccessToken { cfg.access with jwkp := ks } (clock t) q.tok q.cert = .ok c ∧
      p.name = c.subject ∧ p.roles = c.scope ∧ p.domain = c.audience ∧ p.issueTime = c.issuedAt ∧
      p.expiryTime = c.expiresAt ∧ p.clientID = some c.clientID

/-- What the translator makes of the request; without translator it stays as it is. -/
def Translates (cfg : AuthCfg) (seed : Nat) (domain : Str) (q : AReq) (act res : Str) : Prop :=
  (cfg.translator = none → act = q.act ∧ res = q.res) ∧ ∀ t, cfg.translator = some t → t seed domain q.act q.res q.query = .ok (act, res)

/-- The policy check for the principal's domain and roles, on the translated action and the prefixed translated resource, grants exactly the
authorized roles. -/
def PolicyAllows (cfg : AuthCfg) (seed : Nat) (view : PolicyView) (sched : List CheckAct) (q : AReq) (p : Principal) : Prop :=
  ∃ act res, Translates cfg seed p.domain q act res ∧
    CheckReturns cfg.U ⟨p.domain, p.roles, act, cfg.resourcePrefix ++ res⟩ view sched (.ok p.authorizedRoles)

/-- Call `j`, begun at `tb` for the request `q`, validated the token at `tv` and passed the policy check, with result `p`. -/
structure FullCheck (cfg : AuthCfg) (log : List AEvent) (j : Nat) (q : AReq) (p : Principal) (tb tv : Int) : Prop where
  begun : .begun j tb ∈ log
  order : tb ≤ tv
  token : ∃ keys jwkp, .validated j tv keys jwkp ∈ log ∧ TokenSays cfg tv keys jwkp q p
  policy : cfg.disablePolicyd = false →
    q.act ≠ [] ∧ q.res ≠ [] ∧ ∃ seed view sched, .translated j seed ∈ log ∧ .checked j view sched ∈ log ∧ PolicyAllows cfg seed view sched q p
  noPolicy : cfg.disablePolicyd = true → p.authorizedRoles = []

/-- The cache lifetime: an entry stored at `ts` may be used at `th`.  (A lifetime that is not positive, or that leads beyond the year 2262,
means forever.) -/
def Fresh (cacheExp ts th : Int) : Prop := ts ≤ th ∧ (0 < cacheExp → ts + cacheExp < 2 ^ 63 → th ≤ ts + cacheExp)

/-- `r` is an error. -/
def Failed (r : Res Principal) : Prop := ∃ e, r = .err e

/-- What must hold between the authorizers of a request, what was tried and the outcome: they are tried in order until one does not
fail. -/
def Combined (all : List AuthCall) (tried : List (AuthCall × Option Nat × Res Principal)) : Option (Res Principal) → Prop
  | none => (∀ x ∈ tried, Failed x.2.2) ∧ ∃ c rest, all = tried.map (·.1) ++ c :: rest
  | some (.err e) => e = .invalidCredentials ∧ (∀ x ∈ tried, Failed x.2.2) ∧ tried.map (·.1) = all
  | some r => ∃ pre c i rest, tried = pre ++ [(c, i, r)] ∧ (∀ x ∈ pre, Failed x.2.2) ∧ all = pre.map (·.1) ++ c :: rest

/-- The three kinds of credentials. -/
inductive Credential
  | roleCert | access | role
deriving DecidableEq, Repr

def Credential.enabled (cfg : AuthCfg) : Credential → Bool
  | .roleCert => cfg.enableRoleCert
  | .access => cfg.enableAccessToken
  | .role => cfg.enableRoleToken

/-- Element by element. -/
def Aligned {α β : Type} (R : α → β → Prop) : List α → List β → Prop
  | [], [] => True
  | a :: as, b :: bs => R a b ∧ Aligned R as bs
  | _, _ => False

/-- `h` is the word "Bearer" in any case, a space, and the token. -/
def BearerText (h tok : Str) : Prop := ∃ b, h = b ++ tok ∧ b.map Char.toUpper = "BEARER ".toList

/-- The first certificate of the peer. -/
def peerCert (r : HReq) : Option Cert := r.tls.bind List.head?

/-- What the authorizer of a credential does with a request: the access token is taken from the header Authorization, without the word
Bearer, together with the first peer certificate; the role token from its own header, without a certificate. -/
def Asks (cfg : AuthCfg) (r : HReq) (act res : Str) : Credential → AuthCall → Prop
  | .roleCert, c => ∃ e, c = .fails e
  | .access, c =>
    (r.header "Authorization".toList = [] ∧ ∃ e, c = .fails e) ∨
    (r.header "Authorization".toList ≠ [] ∧ ∃ tok, c = .token ⟨.accessToken, tok, act, res, r.rawQuery, peerCert r⟩ ∧
      (BearerText (r.header "Authorization".toList) tok ∨
        (tok = r.header "Authorization".toList ∧ ∀ t, ¬ BearerText (r.header "Authorization".toList) t)))
  | .role, c => c = .token ⟨.roleToken, r.header cfg.roleAuthHeader, act, res, r.rawQuery, none⟩

/-- The identity under which a certificate enters the cache key. -/
def certNames (c : Option Cert) : Option (Str × Str) := c.map fun x => (x.issuerCN, x.subjectCN)

/-- No part of the request contains the delimiter of the cache key. -/
def NoColon (q : AReq) : Prop :=
  ':' ∉ q.tok ∧ ':' ∉ q.act ∧ ':' ∉ q.res ∧ ':' ∉ q.query ∧ ∀ x, q.cert = some x → ':' ∉ x.issuerCN ∧ ':' ∉ x.subjectCN

/-- The requests agree in everything that can matter: token, certificate names and, as far as policies are checked, action and resource and,
as far as there is a translator, query. -/
def SameRequest (cfg : AuthCfg) (q q' : AReq) : Prop :=
  q.tok = q'.tok ∧ certNames q.cert = certNames q'.cert ∧
    (cfg.disablePolicyd = false → q.act = q'.act ∧ q.res = q'.res ∧ (cfg.translator.isSome = true → q.query = q'.query))

/-- The expiry that the token of the request states, in Unix seconds. -/
def ExpiryOf (cfg : AuthCfg) (q : AReq) (e : Int) : Prop :=
  match q.mode with
  | .roleToken => ∃ unsigned sig kvs v, RoleText q.tok unsigned sig kvs ∧ lastValue "e" kvs = some v ∧ Numeral v e
  | .accessToken => ∃ h p s c, Segments q.tok h p s ∧ cfg.access.lib.claims p = some c ∧ c.expiresAt = e

/-- The claims in the text of the token. -/
def ClaimsOf (cfg : AuthCfg) (q : AReq) (c : Claims) : Prop :=
  ∃ h p s, Segments q.tok h p s ∧ cfg.access.lib.claims p = some c

/-- The certificate is the one to which the token is bound, or may stand for it. -/
def MayUse (cfg : AuthCfg) (x : Cert) (c : Claims) : Prop :=
  BoundTo cfg.access.thumb x c ∨ Rotated machineAdd cfg.access.goBack cfg.access.offset x c ∨ ProxyOf x c

/-! ### Role certificates -/

/-- The certificates name the role of the domain: by a common name `domain:role.role`, or by a URI `prefix domain/role`; the domain ends at
the first delimiter. -/
def NamesRole (pre : Str) (certs : List Cert) (domain role : Str) : Prop :=
  ∃ x ∈ certs, Str.cut ":role.".toList x.subjectCN = some (domain, role) ∨
    ∃ u ∈ x.uris, ∃ rest, u = pre ++ rest ∧ Str.cut "/".toList rest = some (domain, role)

/-- `rs` are the roles named for the domain, each once. -/
def RolesOf (pre : Str) (certs : List Cert) (domain : Str) (rs : List Str) : Prop :=
  rs ≠ [] ∧ rs.Nodup ∧ ∀ r, r ∈ rs ↔ NamesRole pre certs domain r

/-- No two different roles named by the certificates have the same text when domain and role are put together without delimiter. -/
def NoClash (pre : Str) (certs : List Cert) : Prop :=
  ∀ d r d' r', NamesRole pre certs d r → NamesRole pre certs d' r' → d ++ r = d' ++ r' → d = d' ∧ r = r'

end Spec
end Athenz
