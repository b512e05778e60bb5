import Verif.Go.Dur
import Verif.Model.Mask
import Verif.Model.Boot
import Verif.Model.Jwkd
import Verif.Model.Pubkeyd

/-!
# option.go, authorizerd.go:128-263: the options and New

A nil `Option` in an option list is not modelled.
-/

namespace Athenz

/-- policy/option.go:75-133, access/option.go:66-93, jwk/option.go:86-100.  What the constructors need from libraries: the rounding in
`time.ParseDuration`, `int64(d.Seconds())`, and `url.ParseRequestURI` with the scheme of the result. -/
structure NewFns where
  frac : Nat → Nat → Nat → Nat
  seconds : Int → Int
  uriScheme : Str → Option Str

/-- An `*http.Client` other than nil: the one with 30 s timeout of option.go:81, `&http.Client{}`, `http.DefaultClient`, or one of the user. -/
inductive HClient
  | timeout30 | zero | goDefault | given (n : Nat)
deriving DecidableEq, Repr

/-- policy/option.go:75-133, pubkey/option.go:65-127, jwk/option.go:56-84.  `time.ParseDuration` as the options use it: the empty string
leaves the setting as it is. -/
def setDur (F : NewFns) (s : Str) (old : Int) (what : String) : Res Int :=
  if s = [] then .ok old
  else match parseDuration F.frac s with
    | some d => .ok d
    | none => .err (.other what)

/-- authorizerd.go:138-142, policy/daemon.go:82-86, pubkey/daemon.go:94-98, jwk/daemon.go:57-62.  `for _, opt := range
append(defaultOptions, opts...)`: the options in turn, up to the first error. -/
def applyAll {O S : Type} (f : O → S → Res S) : List O → S → Res S
  | [], s => .ok s
  | o :: os, s => match f o s with
    | .ok s' => applyAll f os s'
    | .err e => .err e
    | .panic => .panic

/-! ## pubkey -/

/-- pubkey/daemon.go:43-57 `pubkeyd`, the settings. -/
structure PkSettings where
  athenzURL : Str
  sysAuthDomain : Str
  refreshPeriod : Int
  retryDelay : Int
  client : Option HClient
  eTagExpiry : Int
  eTagPurgePeriod : Int
deriving DecidableEq, Repr

/-- pubkey/option.go:42-136. -/
inductive PkOpt
  | athenzURL (url : Str)
  | sysAuthDomain (d : Str)
  | refreshPeriod (t : Str)
  | retryDelay (t : Str)
  | eTagExpiry (t : Str)
  | eTagPurgePeriod (t : Str)
  | httpClient (c : Option HClient)
deriving DecidableEq, Repr

/-- pubkey/option.go:42-136; line 131 tests the daemon instead of the client, so that nil is stored, too. -/
def PkOpt.apply (F : NewFns) : PkOpt → PkSettings → Res PkSettings
  | .athenzURL url, p => (Athenz.athenzURL url).bind fun u => .ok { p with athenzURL := u }
  | .sysAuthDomain d, p => if d = [] then .ok p else .ok { p with sysAuthDomain := d }
  | .refreshPeriod t, p => (setDur F t p.refreshPeriod "invalid refresh period").bind fun d => .ok { p with refreshPeriod := d }
  | .retryDelay t, p => (setDur F t p.retryDelay "invalid retry delay").bind fun d => .ok { p with retryDelay := d }
  | .eTagExpiry t, p => (setDur F t p.eTagExpiry "invalid ETag expiry time").bind fun d => .ok { p with eTagExpiry := d }
  | .eTagPurgePeriod t, p => (setDur F t p.eTagPurgePeriod "invalid ETag purge period").bind fun d => .ok { p with eTagPurgePeriod := d }
  | .httpClient c, p => .ok { p with client := c }

/-- pubkey/option.go:28-35. -/
def pkDefaults : List PkOpt :=
  [.sysAuthDomain "sys.auth".toList, .refreshPeriod "24h".toList, .eTagExpiry "168h".toList, .eTagPurgePeriod "84h".toList,
    .retryDelay "1m".toList, .httpClient (some .zero)]

/-- pubkey/daemon.go:85-101 `New`. -/
def pkNew (F : NewFns) (opts : List PkOpt) : Res PkSettings :=
  applyAll (PkOpt.apply F) (pkDefaults ++ opts) ⟨[], [], 0, 0, none, 0, 0⟩

/-! ## policy -/

/-- policy/daemon.go:47-72 `policyd`, the settings; `pkp` says whether the key provider is other than nil. -/
structure PdSettings where
  athenzURL : Str
  athenzDomains : List Str
  expiryMargin : Int
  refreshPeriod : Int
  purgePeriod : Int
  retryDelay : Int
  retryAttempts : Int
  client : Option HClient
  pkp : Bool
deriving DecidableEq, Repr

/-- policy/option.go:43-154. -/
inductive PdOpt
  | pubKeyProvider (set : Bool)
  | athenzURL (url : Str)
  | athenzDomains (ds : Option (List Str))
  | expiryMargin (t : Str)
  | refreshPeriod (t : Str)
  | purgePeriod (t : Str)
  | retryDelay (t : Str)
  | retryAttempts (c : Int)
  | httpClient (c : Option HClient)
deriving DecidableEq, Repr

/-- policy/option.go:43-154. -/
def PdOpt.apply (F : NewFns) : PdOpt → PdSettings → Res PdSettings
  | .pubKeyProvider set, p => if set then .ok { p with pkp := true } else .ok p
  | .athenzURL url, p => (Athenz.athenzURL url).bind fun u => .ok { p with athenzURL := u }
  | .athenzDomains ds, p => match ds with
    | none => .ok p
    | some ds => .ok { p with athenzDomains := ds }
  | .expiryMargin t, p => (setDur F t p.expiryMargin "invalid expiry margin").bind fun d => .ok { p with expiryMargin := d }
  | .refreshPeriod t, p => (setDur F t p.refreshPeriod "invalid refresh period").bind fun d => .ok { p with refreshPeriod := d }
  | .purgePeriod t, p => (setDur F t p.purgePeriod "invalid purge period").bind fun d => .ok { p with purgePeriod := d }
  | .retryDelay t, p => (setDur F t p.retryDelay "invalid retry delay").bind fun d => .ok { p with retryDelay := d }
  | .retryAttempts c, p => if c = 0 then .ok p else .ok { p with retryAttempts := c }
  | .httpClient c, p => match c with
    | some c => .ok { p with client := some c }
    | none => .ok p

/-- policy/option.go:29-36. -/
def pdDefaults : List PdOpt :=
  [.expiryMargin "3h".toList, .refreshPeriod "30m".toList, .purgePeriod "1h".toList, .retryDelay "1m".toList, .retryAttempts 2,
    .httpClient (some .goDefault)]

/-- policy/daemon.go:76-106 `New`; the fetchers are determined by the settings. -/
def pdNew (F : NewFns) (opts : List PdOpt) : Res PdSettings :=
  applyAll (PdOpt.apply F) (pdDefaults ++ opts) ⟨[], [], 0, 0, 0, 0, 0, none, false⟩

/-! ## jwk -/

/-- jwk/daemon.go:37-47 `jwkd`, the settings. -/
structure JwSettings where
  athenzJwksURL : Str
  urls : List Str
  refreshPeriod : Int
  retryDelay : Int
  client : Option HClient
deriving DecidableEq, Repr

/-- jwk/option.go:41-108. -/
inductive JwOpt
  | athenzJwksURL (url : Str)
  | refreshPeriod (t : Str)
  | retryDelay (t : Str)
  | urls (us : List Str)
  | httpClient (c : Option HClient)
deriving DecidableEq, Repr

/-- jwk/option.go:88-97, the loop. -/
def checkURLs (F : NewFns) : List Str → Res Unit
  | [] => .ok ()
  | u :: us => match F.uriScheme u with
    | none => .err (.other "parse URL")
    | some sch => if sch ≠ "http".toList ∧ sch ≠ "https".toList then .err .unsupportedScheme else checkURLs F us

/-- jwk/option.go:41-108. -/
def JwOpt.apply (F : NewFns) : JwOpt → JwSettings → Res JwSettings
  | .athenzJwksURL url, j => (Athenz.athenzJwksURL url).bind fun u => .ok { j with athenzJwksURL := u }
  | .refreshPeriod t, j => (setDur F t j.refreshPeriod "invalid refresh period").bind fun d => .ok { j with refreshPeriod := d }
  | .retryDelay t, j => (setDur F t j.retryDelay "invalid retry delay").bind fun d => .ok { j with retryDelay := d }
  | .urls us, j => (checkURLs F us).bind fun _ => .ok { j with urls := us }
  | .httpClient c, j => .ok { j with client := c }

/-- jwk/option.go:30-34. -/
def jwDefaults : List JwOpt := [.refreshPeriod "24h".toList, .retryDelay "1m".toList, .httpClient (some .goDefault)]

/-- jwk/daemon.go:53-65 `New`. -/
def jwNew (F : NewFns) (opts : List JwOpt) : Res JwSettings :=
  applyAll (JwOpt.apply F) (jwDefaults ++ opts) ⟨[], [], 0, 0, none⟩

/-! ## access -/

/-- access/processor.go:49-58 `atp`, the settings; `jwkp` says whether the key provider is other than nil. -/
structure AtSettings where
  jwkp : Bool
  mtlsBound : Bool
  verifyClientID : Bool
  authorized : Str → List Str
  goBack : Int
  offset : Int

/-- access/option.go:34-93. -/
inductive AtOpt
  | jwkProvider (set : Bool)
  | mtlsBound (b : Bool)
  | verifyClientID (b : Bool)
  | authorized (m : Str → List Str)
  | goBack (t : Str)
  | offset (t : Str)

/-- access/option.go:34-93. -/
def AtOpt.apply (F : NewFns) : AtOpt → AtSettings → Res AtSettings
  | .jwkProvider set, a => .ok { a with jwkp := set }
  | .mtlsBound b, a => .ok { a with mtlsBound := b }
  | .verifyClientID b, a => .ok { a with verifyClientID := b }
  | .authorized m, a => .ok { a with authorized := m }
  | .goBack t, a =>
    if t = [] then .ok a
    else match parseDuration F.frac t with
      | some d => .ok { a with goBack := F.seconds d }
      | none => .err (.other "invalid refresh period")
  | .offset t, a =>
    if t = [] then .ok a
    else match parseDuration F.frac t with
      | some d => .ok { a with offset := F.seconds d }
      | none => .err (.other "invalid offset duration")

/-- access/processor.go:61-69 `New`. -/
def atNew (F : NewFns) (opts : List AtOpt) : Res AtSettings := applyAll (AtOpt.apply F) opts ⟨false, false, false, fun _ => [], 0, 0⟩

/-! ## authorizerd -/

/-- option.go:45-52 `AccessTokenParam`. -/
structure AccessTokenParam where
  enable : Bool
  verifyCertThumbprint : Bool
  certBackdateDur : Str
  certOffsetDur : Str
  verifyClientID : Bool
  authorizedClientIDs : Str → List Str

/-- authorizerd.go:60-116 `authority`, the settings. -/
structure Settings where
  athenzURL : Str
  client : Option HClient
  cacheExp : Int
  roleCertURIPrefix : Str
  disablePubkeyd : Bool
  pubkeyRefreshPeriod : Str
  pubkeyRetryDelay : Str
  pubkeySysAuthDomain : Str
  pubkeyETagExpiry : Str
  pubkeyETagPurgePeriod : Str
  disablePolicyd : Bool
  athenzDomains : Option (List Str)
  policyExpiryMargin : Str
  policyRefreshPeriod : Str
  policyPurgePeriod : Str
  policyRetryDelay : Str
  policyRetryAttempts : Int
  disableJwkd : Bool
  jwkRefreshPeriod : Str
  jwkRetryDelay : Str
  jwkURLs : List Str
  accessTokenParam : AccessTokenParam
  enableRoleToken : Bool
  roleAuthHeader : Str
  enableRoleCert : Bool
  translator : Option Translator
  resourcePrefix : Str

/-- option.go:59-365. -/
inductive Opt
  | athenzURL (url : Str)
  | athenzDomains (ds : Option (List Str))
  | httpClient (c : Option HClient)
  | cacheExp (d : Int)
  | enablePubkeyd
  | disablePubkeyd
  | pubkeyRefreshPeriod (t : Str)
  | pubkeyRetryDelay (t : Str)
  | pubkeySysAuthDomain (d : Str)
  | pubkeyETagExpiry (t : Str)
  | pubkeyETagPurgePeriod (t : Str)
  | enablePolicyd
  | disablePolicyd
  | policyRefreshPeriod (t : Str)
  | policyExpiryMargin (t : Str)
  | policyPurgePeriod (t : Str)
  | policyRetryDelay (t : Str)
  | policyRetryAttempts (c : Int)
  | enableJwkd
  | disableJwkd
  | jwkRefreshPeriod (t : Str)
  | jwkRetryDelay (t : Str)
  | jwkURLs (us : List Str)
  | accessTokenParam (p : AccessTokenParam)
  | enableRoleToken
  | disableRoleToken
  | roleAuthHeader (h : Str)
  | enableRoleCert
  | disableRoleCert
  | roleCertURIPrefix (p : Str)
  | translator (t : Option Translator)
  | resourcePrefix (p : Str)

/-- option.go:59-365. -/
def Opt.apply : Opt → Settings → Res Settings
  | .athenzURL url, a => match Athenz.athenzURL url with
    | .ok u => .ok { a with athenzURL := u }
    | .err e => .err e
    | .panic => .panic
  | .athenzDomains ds, a => .ok { a with athenzDomains := ds }
  | .httpClient c, a => match c with
    | none => .ok { a with client := some .timeout30 }
    | some c => .ok { a with client := some c }
  | .cacheExp d, a => .ok { a with cacheExp := d }
  | .enablePubkeyd, a => .ok { a with disablePubkeyd := false }
  | .disablePubkeyd, a => .ok { a with disablePubkeyd := true }
  | .pubkeyRefreshPeriod t, a => .ok { a with pubkeyRefreshPeriod := t }
  | .pubkeyRetryDelay t, a => .ok { a with pubkeyRetryDelay := t }
  | .pubkeySysAuthDomain d, a => .ok { a with pubkeySysAuthDomain := d }
  | .pubkeyETagExpiry t, a => .ok { a with pubkeyETagExpiry := t }
  | .pubkeyETagPurgePeriod t, a => .ok { a with pubkeyETagPurgePeriod := t }
  | .enablePolicyd, a => .ok { a with disablePolicyd := false }
  | .disablePolicyd, a => .ok { a with disablePolicyd := true }
  | .policyRefreshPeriod t, a => .ok { a with policyRefreshPeriod := t }
  | .policyExpiryMargin t, a => .ok { a with policyExpiryMargin := t }
  | .policyPurgePeriod t, a => .ok { a with policyPurgePeriod := t }
  | .policyRetryDelay t, a => .ok { a with policyRetryDelay := t }
  | .policyRetryAttempts c, a => .ok { a with policyRetryAttempts := c }
  | .enableJwkd, a => .ok { a with disableJwkd := false }
  | .disableJwkd, a => .ok { a with disableJwkd := true }
  | .jwkRefreshPeriod t, a => .ok { a with jwkRefreshPeriod := t }
  | .jwkRetryDelay t, a => .ok { a with jwkRetryDelay := t }
  | .jwkURLs us, a => .ok { a with jwkURLs := us }
  | .accessTokenParam p, a => .ok { a with accessTokenParam := p }
  | .enableRoleToken, a => .ok { a with enableRoleToken := true }
  | .disableRoleToken, a => .ok { a with enableRoleToken := false }
  | .roleAuthHeader h, a => .ok { a with roleAuthHeader := h }
  | .enableRoleCert, a => .ok { a with enableRoleCert := true }
  | .disableRoleCert, a => .ok { a with enableRoleCert := false }
  | .roleCertURIPrefix p, a => .ok { a with roleCertURIPrefix := p }
  | .translator t, a => .ok { a with translator := t }
  | .resourcePrefix p, a => .ok { a with resourcePrefix := p }

/-- option.go:31-43. -/
def defaultOpts : List Opt :=
  [.athenzURL "athenz.io/zts/v1".toList, .httpClient none, .cacheExp 60000000000, .enablePubkeyd, .enablePolicyd, .enableJwkd,
    .accessTokenParam ⟨true, true, "1h".toList, "1h".toList, false, fun _ => []⟩, .enableRoleToken, .roleAuthHeader "Athenz-Role-Auth".toList,
    .enableRoleCert, .roleCertURIPrefix "athenz://role/".toList]

/-- authorizerd.go:130-132, before the options: the zero values. -/
def zeroSettings : Settings :=
  { athenzURL := [], client := none, cacheExp := 0, roleCertURIPrefix := [], disablePubkeyd := false, pubkeyRefreshPeriod := [],
    pubkeyRetryDelay := [], pubkeySysAuthDomain := [], pubkeyETagExpiry := [], pubkeyETagPurgePeriod := [], disablePolicyd := false,
    athenzDomains := none, policyExpiryMargin := [], policyRefreshPeriod := [], policyPurgePeriod := [], policyRetryDelay := [],
    policyRetryAttempts := 0, disableJwkd := false, jwkRefreshPeriod := [], jwkRetryDelay := [], jwkURLs := [],
    accessTokenParam := ⟨false, false, [], [], false, fun _ => []⟩, enableRoleToken := false, roleAuthHeader := [], enableRoleCert := false,
    translator := none, resourcePrefix := [] }

/-- authorizerd.go:138-142. -/
def settings (opts : List Opt) : Res Settings := applyAll Opt.apply (defaultOpts ++ opts) zeroSettings

/-- authorizerd.go:60-116.  What `New` returns: the settings, the daemons and the processors; `none` is the nil interface.  Of a role token
processor only matters whether it has a key provider. -/
structure Built where
  set : Settings
  pubkeyd : Option PkSettings
  policyd : Option PdSettings
  jwkd : Option JwSettings
  role : Option Bool
  access : Option AtSettings

/-- authorizerd.go:144, 159, 175, 188, 196.  Lines that are skipped if the part is not wanted. -/
def Res.when {α : Type} (b : Bool) (r : Res α) : Res (Option α) :=
  if b then match r with
    | .ok a => .ok (some a)
    | .err e => .err e
    | .panic => .panic
  else .ok none

/-- authorizerd.go:144-157. -/
def Settings.pkOpts (a : Settings) : List PkOpt :=
  [.athenzURL a.athenzURL, .sysAuthDomain a.pubkeySysAuthDomain, .eTagExpiry a.pubkeyETagExpiry, .eTagPurgePeriod a.pubkeyETagPurgePeriod,
    .refreshPeriod a.pubkeyRefreshPeriod, .retryDelay a.pubkeyRetryDelay, .httpClient a.client]

/-- authorizerd.go:159-173; `pkp` says whether `pkPro` is other than nil. -/
def Settings.pdOpts (a : Settings) (pkp : Bool) : List PdOpt :=
  [.athenzURL a.athenzURL, .athenzDomains a.athenzDomains, .expiryMargin a.policyExpiryMargin, .refreshPeriod a.policyRefreshPeriod,
    .purgePeriod a.policyPurgePeriod, .retryDelay a.policyRetryDelay, .retryAttempts a.policyRetryAttempts, .httpClient a.client,
    .pubKeyProvider pkp]

/-- authorizerd.go:175-186. -/
def Settings.jwOpts (a : Settings) : List JwOpt :=
  [.athenzJwksURL a.athenzURL, .refreshPeriod a.jwkRefreshPeriod, .retryDelay a.jwkRetryDelay, .urls a.jwkURLs, .httpClient a.client]

/-- authorizerd.go:196-207. -/
def Settings.atOpts (a : Settings) (jwkp : Bool) : List AtOpt :=
  [.jwkProvider jwkp, .mtlsBound a.accessTokenParam.verifyCertThumbprint, .verifyClientID a.accessTokenParam.verifyClientID,
    .authorized a.accessTokenParam.authorizedClientIDs, .goBack a.accessTokenParam.certBackdateDur, .offset a.accessTokenParam.certOffsetDur]

/-- authorizerd.go:128-215 `New`, with 257-259 of `initAuthorizers`. -/
def newAuthority (F : NewFns) (opts : List Opt) : Res Built := do
  let a ← settings opts
  let pk ← Res.when (!a.disablePubkeyd) (pkNew F a.pkOpts)
  let pd ← Res.when (!a.disablePolicyd) (pdNew F (a.pdOpts pk.isSome))
  let jw ← Res.when (!a.disableJwkd) (jwNew F a.jwOpts)
  let rt ← Res.when a.enableRoleToken (.ok pk.isSome)
  let at_ ← Res.when a.accessTokenParam.enable (atNew F (a.atOpts jw.isSome))
  if a.enableRoleCert = false ∧ a.accessTokenParam.enable = false ∧ a.enableRoleToken = false then .err (.other "error no authorizers")
  else .ok ⟨a, pk, pd, jw, rt, at_⟩

/-- authorizerd.go:60-116.  The parts that the calls read.  `lib`, `thumb` and `U` are libraries; the key provider of the access token
processor is read from the state. -/
def Built.cfg (b : Built) (lib : JwtLib) (thumb : Str → Str) (U : CaseFns) : AuthCfg :=
  { disablePolicyd := b.set.disablePolicyd, translator := b.set.translator, resourcePrefix := b.set.resourcePrefix, cacheExp := b.set.cacheExp,
    enableRoleToken := b.role.isSome, enableAccessToken := b.access.isSome, enableRoleCert := b.set.enableRoleCert,
    roleAuthHeader := b.set.roleAuthHeader, roleCertURIPrefix := b.set.roleCertURIPrefix,
    access := match b.access with
      | some t => ⟨fun _ _ => none, t.mtlsBound, t.goBack, t.offset, t.verifyClientID, t.authorized, lib, thumb⟩
      | none => ⟨fun _ _ => none, false, 0, 0, false, fun _ => [], lib, thumb⟩
    U := U }

/-- Which tickers `Start` makes, in nanoseconds: authorizerd.go:303 with gache's `StartExpired`, pubkey/daemon.go:114-115,
policy/daemon.go:118, jwk/daemon.go:75. -/
def Built.startTickers (b : Built) : List Int :=
  [b.set.cacheExp.tdiv 2] ++
  (match b.pubkeyd with | some p => [p.eTagPurgePeriod, p.refreshPeriod] | none => []) ++
  (match b.policyd with | some p => [p.refreshPeriod] | none => []) ++
  (match b.jwkd with | some p => [p.refreshPeriod] | none => [])

/-- policy/daemon.go:187: a successful policy update makes a ticker, too. -/
def Built.updateTickers (b : Built) : List Int := match b.policyd with | some p => [p.purgePeriod] | none => []

/-- policy/daemon.go:118, 186, pubkey/daemon.go:114-115, jwk/daemon.go:75, authorizerd.go:303.  `time.NewTicker` panics for a duration that
is not positive. -/
def tickerPanics (d : Int) : Bool := decide (d ≤ 0)

/-- policy/signed_policy.go:36-78 with a key provider that may be the nil function, which is called at line 52. -/
def verifyPolicyWith (C : Codec) (keys : Option KeyProvider) (now : Int) (sp : Option SignedPolicy) : Res Unit :=
  match keys with
  | some ks => verifyPolicy C ks now sp
  | none => match sp with
    | none => .panic
    | some s => match s.data with
      | none => .err (.other "no policy data")
      | some d => match d.expires with
        | none => .err (.other "policy without expiry")
        | some e => if satSub e now ≤ 0 then .err (.other "policy already expired") else .panic

end Athenz
