import Verif.Model.Access
import Verif.Model.Role
import Verif.Model.CheckPolicy
import Verif.Go.Gache

/-!
# authorizerd.go: the authorization calls

Any number of calls run at the same time.  They share the result cache, the clock and the keys; a schedule is an arbitrary list of steps of
the calls and of the environment.
-/

namespace Athenz

/-- principal.go:34-82 `principal`, `oAuthAccessToken` (the latter has a client id), and their getters, which are the fields.  Everything but the authorized roles is fixed when the
value is made, and the authorized roles are set before it is published. -/
structure Principal where
  name : Str
  roles : List Str
  domain : Str
  issueTime : Int
  expiryTime : Int
  authorizedRoles : List Str
  clientID : Option Str
deriving DecidableEq, Repr

/-- authorizerd.go:118-125 `mode`. -/
inductive Mode
  | roleToken | accessToken
deriving DecidableEq, Repr

/-- The arguments of authorizerd.go:367 `authorize` (the context is part of the schedule of the policy check). -/
structure AReq where
  mode : Mode
  tok : Str
  act : Str
  res : Str
  query : Str
  cert : Option Cert
deriving DecidableEq, Repr

/-- translator.go:29 `Translator`: domain, action, resource and query give action and resource.  The first argument stands for everything
that an implementation may do differently from call to call, like iterating over a map. -/
abbrev Translator := Nat → Str → Str → Str → Str → Res (Str × Str)

/-- The parts of authorizerd.go:60-116 `authority` that the calls read.  The access token processor's key provider is not taken from
`access` but from the state.  A processor that is not enabled is the nil interface. -/
structure AuthCfg where
  disablePolicyd : Bool
  translator : Option Translator
  resourcePrefix : Str
  cacheExp : Int
  enableRoleToken : Bool
  enableAccessToken : Bool
  enableRoleCert : Bool
  roleAuthHeader : Str
  roleCertURIPrefix : Str
  access : AtpCfg
  U : CaseFns

/-- authorizerd.go:368-376. -/
def certKey (tok : Str) : Option Cert → Str
  | none => tok
  | some x => tok ++ ':' :: x.issuerCN ++ ':' :: x.subjectCN

/-- authorizerd.go:368-390, the key of the result cache. -/
def cacheKey (cfg : AuthCfg) (q : AReq) : Str :=
  if cfg.disablePolicyd then certKey q.tok q.cert
  else certKey q.tok q.cert ++ ':' :: q.act ++ ':' :: q.res ++
    (if q.query ≠ [] ∧ cfg.translator.isSome then ':' :: q.query else [])

/-- role/token.go:87-89, access/claim.go:31-56.  A clock reading of `n` nanoseconds since 1970 as a Go time. -/
def clock (n : Int) : GoTime := ⟨n / 1000000000 + unixToInternal, (n % 1000000000).toNat⟩

/-- The library asks the key function for a key and that gets as far as calling the key provider
(access/processor.go:192-213 inside `ParseWithClaims`). -/
def keyAsked (L : JwtLib) (tok : Str) : Bool :=
  match Str.split '.' tok with
  | [h, p, _] =>
    match L.header h, L.claims p with
    | some hdr, some _ =>
      match hdr "alg".toList with
      | some (.str alg) =>
        (signingMethod alg).isSome &&
        (match getAsStringFromHeader hdr "kid".toList with
          | .value _ => (match getAsStringFromHeader hdr "jku".toList with | .notString => false | _ => true)
          | _ => false)
      | _ => false
    | _, _ => false
  | _ => false

/-- authorizerd.go:409-422: role/processor.go:47 with a provider that may be the nil function, which panics when it is called. -/
def validateRole (cfg : AuthCfg) (keys : Option KeyProvider) (now : GoTime) (tok : Str) : Res RoleToken :=
  if cfg.enableRoleToken then
    match keys with
    | some ks => parseAndValidateRoleToken ks now tok
    | none => match parseRoleToken tok with
      | .ok rt => if rt.expired now then .err .roleTokenExpired else .panic
      | .err e => .err e
      | .panic => .panic
  else .panic

/-- authorizerd.go:424-440: access/processor.go:71 with a provider that may be the nil function. -/
def validateAccess (cfg : AuthCfg) (jwkp : Option JwkProvider) (now : GoTime) (tok : Str) (cert : Option Cert) : Res Claims :=
  if cfg.enableAccessToken then
    match jwkp with
    | some ks => parseAndValidateAccessToken { cfg.access with jwkp := ks } now tok cert
    | none => if keyAsked cfg.access.lib tok then .panic else .err (.other "access token")
  else .panic

/-- authorizerd.go:416-422. -/
def principalOfRole (rt : RoleToken) : Principal :=
  { name := rt.principal, roles := rt.roles, domain := rt.domain, issueTime := rt.timeStamp.unix, expiryTime := rt.expiryTime.unix,
    authorizedRoles := [], clientID := none }

/-- authorizerd.go:431-440. -/
def principalOfAccess (c : Claims) : Principal :=
  { name := c.subject, roles := c.scope, domain := c.audience, issueTime := c.issuedAt, expiryTime := c.expiresAt,
    authorizedRoles := [], clientID := some c.clientID }

/-- authorizerd.go:407-441; the domain and the roles are those of the principal. -/
def validateToken (cfg : AuthCfg) (keys : Option KeyProvider) (jwkp : Option JwkProvider) (now : GoTime) (q : AReq) : Res Principal :=
  match q.mode with
  | .roleToken => match validateRole cfg keys now q.tok with
    | .ok rt => .ok (principalOfRole rt)
    | .err e => .err e
    | .panic => .panic
  | .accessToken => match validateAccess cfg jwkp now q.tok q.cert with
    | .ok c => .ok (principalOfAccess c)
    | .err e => .err e
    | .panic => .panic

/-- authorizerd.go:444-451. -/
def translate (cfg : AuthCfg) (seed : Nat) (domain : Str) (q : AReq) : Res (Str × Str) :=
  match cfg.translator with
  | none => .ok (q.act, q.res)
  | some t => t seed domain q.act q.res q.query

/-- policy/daemon.go:224-290.  The outcome of one `CheckPolicyRoles` under a schedule, `none` if the schedule is impossible or does not lead
to the return. -/
def checkResult (U : CaseFns) (q : CheckReq) (view : PolicyView) (sched : List CheckAct) : Option (Res (List Str)) :=
  match checkRun U q (q.init view) sched with
  | some s => match s.coll with
    | .ret r => some r
    | .loop _ => none
  | none => none

/-- authorizerd.go:367-473.  How far a call of `authorize` is. -/
inductive Pc where
  /-- at line 368 -/
  | start
  /-- at line 401, not found in the cache -/
  | miss
  /-- at line 443, with the token's principal -/
  | validated (p : Principal)
  /-- at line 453, with the translated action and resource -/
  | translated (p : Principal) (act res : Str)
  /-- at line 468, nothing left but the store -/
  | checked (p : Principal)
  | done (r : Res Principal)
deriving DecidableEq, Repr

/-- authorizerd.go:367, the parameters of `authorize` and how far it is. -/
structure Call where
  req : AReq
  pc : Pc
deriving DecidableEq, Repr

/-- authorizerd.go:222-250.  The parts of an HTTP request that the authorizers read: the peer certificates if the request came over TLS, the
header values by name (`Header.Get`, empty if missing), the raw query. -/
structure HReq where
  tls : Option (List Cert)
  header : Str → Str
  rawQuery : Str

/-- authorizerd.go:222-251.  One element of `authority.authorizers` applied to a request: either it fails on its own or it calls `authorize`. -/
inductive AuthCall
  | fails (e : Err)
  | token (q : AReq)
deriving DecidableEq, Repr

/-- authorizerd.go:234.  golang-jwt request/oauth2.go `stripBearerPrefixFromTokenString`. -/
def stripBearer (h : Str) : Str := if (h.take 7).map Char.toUpper = "BEARER ".toList then h.drop 7 else h

/-- authorizerd.go:217-263 `initAuthorizers`, applied to a request.  Lines 222-227 with 551-554: `AuthorizeRoleCert` always fails.
Line 234: `AuthorizationHeaderExtractor` fails if the header is missing or empty. -/
def authorizers (cfg : AuthCfg) (r : HReq) (act res : Str) : List AuthCall :=
  (if cfg.enableRoleCert then [.fails (.other "AuthorizeRoleCert has not yet been implemented")] else []) ++
  (if cfg.enableAccessToken then
    [if r.header "Authorization".toList = [] then .fails (.other "no token present in request")
     else .token ⟨.accessToken, stripBearer (r.header "Authorization".toList), act, res, r.rawQuery,
       match r.tls with
       | some (x :: _) => some x
       | _ => none⟩] else []) ++
  (if cfg.enableRoleToken then [.token ⟨.roleToken, r.header cfg.roleAuthHeader, act, res, r.rawQuery, none⟩] else [])

/-- authorizerd.go:476-499.  A call of `Verify` or `Authorize` (they differ only in what they return on success): the authorizers still to
try, the running `authorize`, the result.  `tried` is for the proofs only. -/
structure Sess where
  todo : List AuthCall
  cur : Option Nat
  result : Option (Res Principal)
  tried : List (AuthCall × Option Nat × Res Principal)

/-- authorizerd.go:367-473.  For the proofs: what happened. -/
inductive AEvent
  | begun (i : Nat) (at_ : Int)
  | hit (i : Nat) (at_ : Int)
  | validated (i : Nat) (at_ : Int) (keys : Option KeyProvider) (jwkp : Option JwkProvider)
  | translated (i : Nat) (seed : Nat)
  | checked (i : Nat) (view : PolicyView) (sched : List CheckAct)
  | stored (i : Nat) (at_ : Int) (key : Str) (p : Principal)
  | opened (k : Nat) (r : HReq) (act res : Str)

/-- authorizerd.go:60-75, the parts that calls share, and the calls. -/
structure AState where
  /-- Unix nanoseconds -/
  now : Int
  keys : Option KeyProvider
  jwkp : Option JwkProvider
  cache : Gache Principal
  calls : Nat → Option Call
  sess : Nat → Option Sess
  log : List AEvent

/-- authorizerd.go:367-499.  A step of a call, or of the environment. -/
inductive AAct where
  /-- `VerifyRoleToken` and so on: a call begins -/
  | call (i : Nat) (q : AReq)
  | get (i : Nat)
  | validate (i : Nat)
  | translate (i : Nat) (seed : Nat)
  | check (i : Nat) (view : PolicyView) (sched : List CheckAct)
  | store (i : Nat)
  /-- `Verify` or `Authorize` begins -/
  | opened (k : Nat) (r : HReq) (act res : Str)
  /-- its next authorizer calls `authorize` as call `i` -/
  | sub (k i : Nat)
  /-- its current authorizer has returned -/
  | fin (k : Nat)
  | tick (d : Nat)
  | setKeys (keys : Option KeyProvider)
  | setJwkp (jwkp : Option JwkProvider)
  | sweep (sel : Str → Bool)
  | clear

/-- authorizerd.go:128-215, the state after `New`. -/
def aInit (now : Int) (keys : Option KeyProvider) (jwkp : Option JwkProvider) : AState :=
  { now := now, keys := keys, jwkp := jwkp, cache := Gache.empty, calls := fun _ => none, sess := fun _ => none, log := [] }

/-- authorizerd.go:367-473, a call goes on. -/
def AState.setPc (s : AState) (i : Nat) (q : AReq) (pc : Pc) : AState :=
  { s with calls := fun j => if j = i then some ⟨q, pc⟩ else s.calls j }

/-- authorizerd.go:476-499, `Verify` or `Authorize` goes on. -/
def AState.setSess (s : AState) (k : Nat) (x : Sess) : AState :=
  { s with sess := fun j => if j = k then some x else s.sess j }

/-- Not in the program: adds to the list of events of the proofs (authorizerd.go:367-473). -/
def AState.note (s : AState) (e : AEvent) : AState := { s with log := s.log ++ [e] }

/-- authorizerd.go:477-485, 490-498: what the loop does with the result of one authorizer. -/
def Sess.next (x : Sess) (c : AuthCall) (rest : List AuthCall) (i : Option Nat) (r : Res Principal) : Sess :=
  { todo := match r with | .err _ => rest | _ => c :: rest
    cur := none
    result := match r with
      | .ok p => some (.ok p)
      | .err _ => if rest = [] then some (.err .invalidCredentials) else none
      | .panic => some .panic
    tried := x.tried ++ [(c, i, r)] }

/-- authorizerd.go:367-473 `authorize`, 476-499 `Verify`, `Authorize`.  The lookup (368-399), the validation (407-441), the translation
(444-451), the policy check (453-466) and the store (471) are one step each; the clock, the keys and the cache may change in between. -/
def aStep (cfg : AuthCfg) (s : AState) : AAct → Option AState
  | .call i q =>
    match s.calls i with
    | none => some ((s.setPc i q .start).note (.begun i s.now))
    | some _ => none
  | .get i =>
    match s.calls i with
    | some ⟨q, .start⟩ =>
      if cfg.disablePolicyd = false ∧ (q.act = [] ∨ q.res = []) then some (s.setPc i q (.done (.err .invalidParameters)))
      else match s.cache.get s.now (cacheKey cfg q) with
        | some p => some ((s.setPc i q (.done (.ok p))).note (.hit i s.now))
        | none => some (s.setPc i q .miss)
    | _ => none
  | .validate i =>
    match s.calls i with
    | some ⟨q, .miss⟩ =>
      let s' := s.note (.validated i s.now s.keys s.jwkp)
      match validateToken cfg s.keys s.jwkp (clock s.now) q with
      | .ok p => some (s'.setPc i q (if cfg.disablePolicyd then .checked p else .validated p))
      | .err e => some (s'.setPc i q (.done (.err e)))
      | .panic => some (s'.setPc i q (.done .panic))
    | _ => none
  | .translate i seed =>
    match s.calls i with
    | some ⟨q, .validated p⟩ =>
      let s' := s.note (.translated i seed)
      match translate cfg seed p.domain q with
      | .ok ar => some (s'.setPc i q (.translated p ar.1 ar.2))
      | .err e => some (s'.setPc i q (.done (.err e)))
      | .panic => some (s'.setPc i q (.done .panic))
    | _ => none
  | .check i view sched =>
    match s.calls i with
    | some ⟨q, .translated p act res⟩ =>
      let s' := s.note (.checked i view sched)
      match checkResult cfg.U ⟨p.domain, p.roles, act, cfg.resourcePrefix ++ res⟩ view sched with
      | some (.ok rs) => some (s'.setPc i q (.checked { p with authorizedRoles := rs }))
      | some (.err e) => some (s'.setPc i q (.done (.err e)))
      | some .panic => some (s'.setPc i q (.done .panic))
      | none => none
    | _ => none
  | .store i =>
    match s.calls i with
    | some ⟨q, .checked p⟩ =>
      some (({ s with cache := s.cache.set s.now (cacheKey cfg q) p cfg.cacheExp }.setPc i q (.done (.ok p))).note
        (.stored i s.now (cacheKey cfg q) p))
    | _ => none
  | .opened k r act res =>
    match s.sess k with
    | none => some ((s.setSess k
        { todo := authorizers cfg r act res, cur := none, tried := [],
          result := if authorizers cfg r act res = [] then some (.err .invalidCredentials) else none }).note (.opened k r act res))
    | some _ => none
  | .sub k i =>
    match s.sess k, s.calls i with
    | some ⟨.token q :: rest, none, none, tried⟩, none =>
      some (((s.setPc i q .start).setSess k ⟨.token q :: rest, some i, none, tried⟩).note (.begun i s.now))
    | _, _ => none
  | .fin k =>
    match s.sess k with
    | some ⟨.fails e :: rest, none, none, tried⟩ =>
      some (s.setSess k (Sess.next ⟨.fails e :: rest, none, none, tried⟩ (.fails e) rest none (.err e)))
    | some ⟨c :: rest, some i, none, tried⟩ =>
      match s.calls i with
      | some ⟨_, .done r⟩ => some (s.setSess k (Sess.next ⟨c :: rest, some i, none, tried⟩ c rest (some i) r))
      | _ => none
    | _ => none
  | .tick d => some { s with now := s.now + d }
  | .setKeys ks => some { s with keys := ks }
  | .setJwkp ks => some { s with jwkp := ks }
  | .sweep sel => some { s with cache := s.cache.sweep s.now sel }
  | .clear => some { s with cache := Gache.empty }

/-- authorizerd.go:367-499, any interleaving of calls. -/
def aRun (cfg : AuthCfg) (s : AState) : List AAct → Option AState
  | [] => some s
  | a :: as => match aStep cfg s a with
    | some s' => aRun cfg s' as
    | none => none

/-! ### authorizerd.go:502-548 `VerifyRoleCert` -/

/-- authorizerd.go:507-508.  `drcheck` and `domainRoles`; the map from domains to roles in order of first insertion. -/
structure RoleMaps where
  seen : List Str
  roles : List (Str × List Str)
deriving DecidableEq, Repr

/-- authorizerd.go:516.  `domainRoles[domain] = append(domainRoles[domain], roleName)`. -/
def appendRole (domain role : Str) : List (Str × List Str) → List (Str × List Str)
  | [] => [(domain, [role])]
  | (d, rs) :: l => if d = domain then (d, rs ++ [role]) :: l else (d, rs) :: appendRole domain role l

/-- authorizerd.go:509-519 `addDomainRoles`; `none` is a split into one part. -/
def addDomainRoles (m : RoleMaps) : Option (Str × Str) → RoleMaps
  | none => m
  | some (domain, role) =>
    if m.seen.contains (domain ++ role) then m
    else ⟨(domain ++ role) :: m.seen, appendRole domain role m.roles⟩

/-- authorizerd.go:527-532. -/
def addUris (pre : Str) (m : RoleMaps) (uris : List Str) : RoleMaps :=
  uris.foldl (fun m u => if Str.hasPrefix u pre then addDomainRoles m (Str.cut "/".toList (Str.trimPrefix u pre)) else m) m

/-- authorizerd.go:507-533. -/
def certRoles (pre : Str) (certs : List Cert) : RoleMaps :=
  certs.foldl (fun m x => addUris pre (addDomainRoles m (Str.cut ":role.".toList x.subjectCN)) x.uris) ⟨[], []⟩

/-- authorizerd.go:539-547, for a given iteration order; every policy check has its own view and schedule. -/
def checkDomains (U : CaseFns) (act res : Str) : List (Str × List Str) → List (PolicyView × List CheckAct) → Res Unit → Option (Res Unit)
  | [], _, last => some last
  | (d, rs) :: l, (view, sched) :: o, _ =>
    match checkResult U ⟨d, rs, act, res⟩ view sched with
    | some (.ok _) => some (.ok ())
    | some (.err e) => checkDomains U act res l o (.err e)
    | some .panic => some .panic
    | none => none
  | _ :: _, [], _ => none

/-- authorizerd.go:502-548; `order` is the order in which the map is iterated. -/
def VerifyRoleCertReturns (cfg : AuthCfg) (certs : List Cert) (act res : Str) (order : List (Str × List Str))
    (oracle : List (PolicyView × List CheckAct)) (r : Res Unit) : Prop :=
  if cfg.disablePolicyd then r = .ok ()
  else order.Perm (certRoles cfg.roleCertURIPrefix certs).roles ∧
    (if order = [] then r = .err (.other "invalid role certificate")
     else checkDomains cfg.U act res order oracle (.ok ()) = some r)

end Athenz
