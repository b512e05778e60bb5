import Verif.Model.Options
import Verif.Props.Mask

/-! # What option lists mean -/

namespace Athenz.Spec

/-- The last value that the list gives, `d` if there is none. -/
def lastSet {O α : Type} (f : O → Option α) (opts : List O) (d : α) : α := ((opts.filterMap f).getLast?).getD d

/-- The setting an option is about. -/
inductive Setting
  | athenzURL | athenzDomains | client | cacheExp | pubkeyd | pubkeyRefreshPeriod | pubkeyRetryDelay | pubkeySysAuthDomain | pubkeyETagExpiry
  | pubkeyETagPurgePeriod | policyd | policyRefreshPeriod | policyExpiryMargin | policyPurgePeriod | policyRetryDelay | policyRetryAttempts
  | jwkd | jwkRefreshPeriod | jwkRetryDelay | jwkURLs | accessToken | roleToken | roleAuthHeader | roleCert | roleCertURIPrefix | translator
  | resourcePrefix
deriving DecidableEq, Repr

def about : Opt → Setting
  | .athenzURL _ => .athenzURL
  | .athenzDomains _ => .athenzDomains
  | .httpClient _ => .client
  | .cacheExp _ => .cacheExp
  | .enablePubkeyd => .pubkeyd
  | .disablePubkeyd => .pubkeyd
  | .pubkeyRefreshPeriod _ => .pubkeyRefreshPeriod
  | .pubkeyRetryDelay _ => .pubkeyRetryDelay
  | .pubkeySysAuthDomain _ => .pubkeySysAuthDomain
  | .pubkeyETagExpiry _ => .pubkeyETagExpiry
  | .pubkeyETagPurgePeriod _ => .pubkeyETagPurgePeriod
  | .enablePolicyd => .policyd
  | .disablePolicyd => .policyd
  | .policyRefreshPeriod _ => .policyRefreshPeriod
  | .policyExpiryMargin _ => .policyExpiryMargin
  | .policyPurgePeriod _ => .policyPurgePeriod
  | .policyRetryDelay _ => .policyRetryDelay
  | .policyRetryAttempts _ => .policyRetryAttempts
  | .enableJwkd => .jwkd
  | .disableJwkd => .jwkd
  | .jwkRefreshPeriod _ => .jwkRefreshPeriod
  | .jwkRetryDelay _ => .jwkRetryDelay
  | .jwkURLs _ => .jwkURLs
  | .accessTokenParam _ => .accessToken
  | .enableRoleToken => .roleToken
  | .disableRoleToken => .roleToken
  | .roleAuthHeader _ => .roleAuthHeader
  | .enableRoleCert => .roleCert
  | .disableRoleCert => .roleCert
  | .roleCertURIPrefix _ => .roleCertURIPrefix
  | .translator _ => .translator
  | .resourcePrefix _ => .resourcePrefix

def urlOf : Opt → Option Str | .athenzURL u => some u | _ => none
def domainsOf : Opt → Option (Option (List Str)) | .athenzDomains d => some d | _ => none
/-- No client means one with a timeout. -/
def clientOf : Opt → Option HClient | .httpClient c => some (c.getD .timeout30) | _ => none
def cacheExpOf : Opt → Option Int | .cacheExp d => some d | _ => none
/-- Is the daemon disabled? -/
def pubkeydOf : Opt → Option Bool | .enablePubkeyd => some false | .disablePubkeyd => some true | _ => none
def policydOf : Opt → Option Bool | .enablePolicyd => some false | .disablePolicyd => some true | _ => none
def jwkdOf : Opt → Option Bool | .enableJwkd => some false | .disableJwkd => some true | _ => none
/-- Is it enabled? -/
def roleTokenOf : Opt → Option Bool | .enableRoleToken => some true | .disableRoleToken => some false | _ => none
def roleCertOf : Opt → Option Bool | .enableRoleCert => some true | .disableRoleCert => some false | _ => none
def pubkeyRefreshOf : Opt → Option Str | .pubkeyRefreshPeriod t => some t | _ => none
def pubkeyRetryOf : Opt → Option Str | .pubkeyRetryDelay t => some t | _ => none
def sysAuthOf : Opt → Option Str | .pubkeySysAuthDomain t => some t | _ => none
def eTagExpiryOf : Opt → Option Str | .pubkeyETagExpiry t => some t | _ => none
def eTagPurgeOf : Opt → Option Str | .pubkeyETagPurgePeriod t => some t | _ => none
def policyRefreshOf : Opt → Option Str | .policyRefreshPeriod t => some t | _ => none
def policyMarginOf : Opt → Option Str | .policyExpiryMargin t => some t | _ => none
def policyPurgeOf : Opt → Option Str | .policyPurgePeriod t => some t | _ => none
def policyRetryOf : Opt → Option Str | .policyRetryDelay t => some t | _ => none
def policyAttemptsOf : Opt → Option Int | .policyRetryAttempts c => some c | _ => none
def jwkRefreshOf : Opt → Option Str | .jwkRefreshPeriod t => some t | _ => none
def jwkRetryOf : Opt → Option Str | .jwkRetryDelay t => some t | _ => none
def jwkURLsOf : Opt → Option (List Str) | .jwkURLs t => some t | _ => none
def accessTokenOf : Opt → Option AccessTokenParam | .accessTokenParam p => some p | _ => none
def roleHeaderOf : Opt → Option Str | .roleAuthHeader t => some t | _ => none
def rolePrefixOf : Opt → Option Str | .roleCertURIPrefix t => some t | _ => none
def translatorOf : Opt → Option (Option Translator) | .translator t => some t | _ => none
def resourcePrefixOf : Opt → Option Str | .resourcePrefix t => some t | _ => none

/-- A duration given as text: the default if the text is empty. -/
def durOf (F : NewFns) (s : Str) (dflt : Int) : Int := if s = [] then dflt else (parseDuration F.frac s).getD dflt

/-- The text is empty or a duration. -/
def DurOk (F : NewFns) (s : Str) : Prop := s = [] ∨ ∃ d, parseDuration F.frac s = some d

/-- The same in whole seconds. -/
def secondsOf (F : NewFns) (s : Str) : Int := if s = [] then 0 else match parseDuration F.frac s with | some d => F.seconds d | none => 0

/-- A URL of the list of other key servers. -/
def KeyURL (F : NewFns) (u : Str) : Prop := F.uriScheme u = some "http".toList ∨ F.uriScheme u = some "https".toList

def second : Int := 1000000000
def minute : Int := 60 * second
def hour : Int := 60 * minute

/-- The defaults, and what the options say instead. -/
def settingsOf (opts : List Opt) : Settings :=
  { athenzURL := trimHTTPScheme (lastSet urlOf opts "athenz.io/zts/v1".toList)
    client := some (lastSet clientOf opts .timeout30)
    cacheExp := lastSet cacheExpOf opts minute
    roleCertURIPrefix := lastSet rolePrefixOf opts "athenz://role/".toList
    disablePubkeyd := lastSet pubkeydOf opts false
    pubkeyRefreshPeriod := lastSet pubkeyRefreshOf opts []
    pubkeyRetryDelay := lastSet pubkeyRetryOf opts []
    pubkeySysAuthDomain := lastSet sysAuthOf opts []
    pubkeyETagExpiry := lastSet eTagExpiryOf opts []
    pubkeyETagPurgePeriod := lastSet eTagPurgeOf opts []
    disablePolicyd := lastSet policydOf opts false
    athenzDomains := lastSet domainsOf opts none
    policyExpiryMargin := lastSet policyMarginOf opts []
    policyRefreshPeriod := lastSet policyRefreshOf opts []
    policyPurgePeriod := lastSet policyPurgeOf opts []
    policyRetryDelay := lastSet policyRetryOf opts []
    policyRetryAttempts := lastSet policyAttemptsOf opts 0
    disableJwkd := lastSet jwkdOf opts false
    jwkRefreshPeriod := lastSet jwkRefreshOf opts []
    jwkRetryDelay := lastSet jwkRetryOf opts []
    jwkURLs := lastSet jwkURLsOf opts []
    accessTokenParam := lastSet accessTokenOf opts ⟨true, true, "1h".toList, "1h".toList, false, fun _ => []⟩
    enableRoleToken := lastSet roleTokenOf opts true
    roleAuthHeader := lastSet roleHeaderOf opts "Athenz-Role-Auth".toList
    enableRoleCert := lastSet roleCertOf opts true
    translator := lastSet translatorOf opts none
    resourcePrefix := lastSet resourcePrefixOf opts [] }

/-- Every Athenz URL that is given is an acceptable one, also if a later one replaces it. -/
def URLsOk (opts : List Opt) : Prop := ∀ url, Opt.athenzURL url ∈ opts → ∃ u, Trimmed url u ∧ ¬ Scheme u

/-- The rest of what `New` asks for. -/
structure Acceptable (F : NewFns) (a : Settings) : Prop where
  pubkeyd : a.disablePubkeyd = false → DurOk F a.pubkeyRefreshPeriod ∧ DurOk F a.pubkeyRetryDelay ∧ DurOk F a.pubkeyETagExpiry ∧
    DurOk F a.pubkeyETagPurgePeriod
  policyd : a.disablePolicyd = false → DurOk F a.policyExpiryMargin ∧ DurOk F a.policyRefreshPeriod ∧ DurOk F a.policyPurgePeriod ∧
    DurOk F a.policyRetryDelay
  jwkd : a.disableJwkd = false → a.athenzURL ≠ [] ∧ DurOk F a.jwkRefreshPeriod ∧ DurOk F a.jwkRetryDelay ∧ ∀ u ∈ a.jwkURLs, KeyURL F u
  access : a.accessTokenParam.enable = true → DurOk F a.accessTokenParam.certBackdateDur ∧ DurOk F a.accessTokenParam.certOffsetDur
  authorizer : a.enableRoleCert = true ∨ a.accessTokenParam.enable = true ∨ a.enableRoleToken = true

/-- What `New` builds. -/
def builtOf (F : NewFns) (a : Settings) : Built :=
  { set := a
    pubkeyd := if a.disablePubkeyd then none else some
      { athenzURL := a.athenzURL
        sysAuthDomain := if a.pubkeySysAuthDomain = [] then "sys.auth".toList else a.pubkeySysAuthDomain
        refreshPeriod := durOf F a.pubkeyRefreshPeriod (24 * hour)
        retryDelay := durOf F a.pubkeyRetryDelay minute
        client := a.client
        eTagExpiry := durOf F a.pubkeyETagExpiry (7 * 24 * hour)
        eTagPurgePeriod := durOf F a.pubkeyETagPurgePeriod (84 * hour) }
    policyd := if a.disablePolicyd then none else some
      { athenzURL := a.athenzURL
        athenzDomains := a.athenzDomains.getD []
        expiryMargin := durOf F a.policyExpiryMargin (3 * hour)
        refreshPeriod := durOf F a.policyRefreshPeriod (30 * minute)
        purgePeriod := durOf F a.policyPurgePeriod hour
        retryDelay := durOf F a.policyRetryDelay minute
        retryAttempts := if a.policyRetryAttempts = 0 then 2 else a.policyRetryAttempts
        client := a.client
        pkp := !a.disablePubkeyd }
    jwkd := if a.disableJwkd then none else some
      { athenzJwksURL := "https://".toList ++ a.athenzURL ++ "/oauth2/keys?rfc=true".toList
        urls := a.jwkURLs
        refreshPeriod := durOf F a.jwkRefreshPeriod (24 * hour)
        retryDelay := durOf F a.jwkRetryDelay minute
        client := a.client }
    role := if a.enableRoleToken then some (!a.disablePubkeyd) else none
    access := if a.accessTokenParam.enable then some
      { jwkp := !a.disableJwkd
        mtlsBound := a.accessTokenParam.verifyCertThumbprint
        verifyClientID := a.accessTokenParam.verifyClientID
        authorized := a.accessTokenParam.authorizedClientIDs
        goBack := secondsOf F a.accessTokenParam.certBackdateDur
        offset := secondsOf F a.accessTokenParam.certOffsetDur } else none }

end Athenz.Spec
