import Verif.Model.Jwkd

/-! # Specification: access tokens and JSON web keys -/

namespace Athenz
namespace Spec

/-- `tok` consists of three parts between dots. -/
def Segments (tok h p s : Str) : Prop := tok = h ++ '.' :: (p ++ '.' :: s) ∧ '.' ∉ h ∧ '.' ∉ p ∧ '.' ∉ s

/-- `k` is the key that the header asks for: the one with the string `kid`, from the set with the string `jku` or, without `jku`, from the
default set (asked for by the empty URL). -/
def HeaderKey (keys : JwkProvider) (hdr : Str → Option Json) (k : JKey) : Prop :=
  ∃ kid, hdr "kid".toList = some (.str kid) ∧
    ((hdr "jku".toList = none ∧ keys kid [] = some k) ∨ ∃ url, hdr "jku".toList = some (.str url) ∧ keys kid url = some k)

/-- The signature of the algorithm named in the header over the first two parts is right for the key. -/
def Signed (L : JwtLib) (hdr : Str → Option Json) (h p s : Str) (k : JKey) : Prop :=
  ∃ alg, hdr "alg".toList = some (.str alg) ∧ signingMethod alg = some (some k.kind) ∧ L.crypto alg (h ++ '.' :: p) s k = true

/-- Seconds from which on `time.Unix` wraps around: about 292 billion years from now. -/
def unixLimit : Int := 2 ^ 63 - unixToInternal

/-- `exp` is present and in the future. -/
def InFuture (now exp : Int) : Prop := exp ≠ 0 ∧ now < exp ∧ exp < unixLimit

/-- `t` is absent or not in the future. -/
def NotFuture (now t : Int) : Prop := t = 0 ∨ t ≤ now

/-- What is checked: `t` is absent, not in the future, or wraps around. -/
def NotFutureOrHuge (now t : Int) : Prop := NotFuture now t ∨ unixLimit ≤ t

/-- The certificate's common name is configured for the client id. -/
def ClientAllowed (authorized : Str → List Str) (x : Cert) (c : Claims) : Prop := c.clientID ∈ authorized x.subjectCN

/-- The token is bound to this very certificate. -/
def BoundTo (thumb : Str → Str) (x : Cert) (c : Claims) : Prop := c.confirm "x5t#S256".toList = some (.str (thumb x.raw))

/-- The token is bound to some certificate. -/
def BoundToSome (c : Claims) : Prop := ∃ t, c.confirm "x5t#S256".toList = some (.str t)

/-- One of the token's proxy principals is a URI of the certificate. -/
def ProxyOf (x : Cert) (c : Claims) : Prop :=
  ∃ l u, c.confirm "proxy-principals#spiffe".toList = some (.arr l) ∧ Json.str u ∈ l ∧ u ∈ x.uris

/-- Window enabled, names equal and not empty. -/
def RotationNames (offset : Int) (x : Cert) (c : Claims) : Prop := offset ≠ 0 ∧ x.subjectCN ≠ [] ∧ x.subjectCN = c.clientID

/-- The certificate's issue time (corrected by the backdate) lies between the token's issue time and that plus the window, with sums
taken by `add`. -/
def InWindow (add : Int → Int → Int) (goBack offset notBefore issuedAt : Int) : Prop :=
  issuedAt ≤ add notBefore goBack ∧ add notBefore goBack ≤ add issuedAt offset

/-- Addition of `int64`. -/
def machineAdd (a b : Int) : Int := wrap64 (a + b)

/-- The certificate is a rotation of the one that the token is bound to. -/
def Rotated (add : Int → Int → Int) (goBack offset : Int) (x : Cert) (c : Claims) : Prop :=
  BoundToSome c ∧ RotationNames offset x c ∧ InWindow add goBack offset x.notBefore.unix c.issuedAt

/-- The claims in the decoded tokens are Go integers. -/
def WfClaims (L : JwtLib) : Prop :=
  ∀ p c, L.claims p = some c → IsInt64 c.expiresAt ∧ IsInt64 c.issuedAt ∧ IsInt64 c.notBefore

/-- The enabled checks of the client certificate pass. -/
def Bound (cfg : AtpCfg) (cert : Option Cert) (c : Claims) : Prop :=
  (cfg.verifyClientID = true → ∃ x, cert = some x ∧ ClientAllowed cfg.authorized x c) ∧
  (cfg.mtlsBound = true → ∃ x, cert = some x ∧
    (BoundTo cfg.thumb x c ∨ Rotated machineAdd cfg.goBack cfg.offset x c ∨ ProxyOf x c))

/-! ### JSON web keys -/

/-- The last value of a URL in a history. -/
def latest {α : Type} (url : Str) : List (Str × α) → Option α
  | [] => none
  | p :: l => (latest url l).or (if p.1 = url then some p.2 else none)

/-- The requests of job `j` with their outcomes. -/
def fetchesOf (j : Nat) : List JwkEvent → List (Str × Option JwkSet)
  | [] => []
  | .fetched i url out :: l => if i = j then (url, out) :: fetchesOf j l else fetchesOf j l
  | .stored _ _ _ :: l => fetchesOf j l

/-- The successful requests. -/
def okFetches : List JwkEvent → List (Str × JwkSet)
  | [] => []
  | .fetched _ url (some set) :: l => (url, set) :: okFetches l
  | _ :: l => okFetches l

/-- The stores. -/
def stores : List JwkEvent → List (Str × JwkSet)
  | [] => []
  | .stored _ url set :: l => (url, set) :: stores l
  | _ :: l => stores l

/-- No update is running. -/
def Idle (s : JwkState) : Prop := ∀ b ∈ s.jobs, b.todo = []

/-- The updates do not overlap. -/
def SeqUpdates (cfg : JwkCfg) : JwkState → List JwkAct → Prop
  | _, [] => True
  | s, a :: as => (match a with | .update => Idle s | _ => True) ∧ ∀ s', jwkStep cfg s a = some s' → SeqUpdates cfg s' as

/-- The URL whose set answers a lookup. -/
def lookupURL (cfg : JwkCfg) (jku : Str) : Str := if jku = [] then cfg.athenzURL else jku

/-- The URL is one of the configured ones: that of the Athenz server or one of `WithURLs`. -/
def ConfiguredURL (cfg : JwkCfg) (url : Str) : Prop := url = cfg.athenzURL ∨ url ∈ cfg.urls

/-- `k` is the key of the first entry with the id. -/
def KeyIn (set : JwkSet) (kid : Str) (k : JKey) : Prop :=
  ∃ pre e post, set = pre ++ e :: post ∧ (∀ x ∈ pre, x.kid ≠ kid) ∧ e.kid = kid ∧ e.raw = some k

/-- The successful outcomes of a list of requests. -/
def succeeded : List (Str × Option JwkSet) → List (Str × JwkSet)
  | [] => []
  | (url, some set) :: l => (url, set) :: succeeded l
  | (_, none) :: l => succeeded l

end Spec
end Athenz
