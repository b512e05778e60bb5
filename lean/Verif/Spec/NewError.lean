import Verif.Spec.Options

/-! # What New asks for, in the order in which it looks -/

namespace Athenz.Spec

/-- What is asked for, with the error if it is not so. -/
abbrev Demand := Prop × Err

/-- The error of the first demand that is not met. -/
def FirstUnmet (l : List Demand) (e : Err) : Prop := ∃ pre p post, l = pre ++ (p, e) :: post ∧ (∀ d ∈ pre, d.1) ∧ ¬ p

/-- A duration given as text. -/
def aDur (F : NewFns) (t : Str) (what : String) : Demand := (DurOk F t, .other what)

/-- A URL of another key server can be parsed, and its scheme is one of the two. -/
def keyURLs (F : NewFns) (u : Str) : List Demand :=
  [(F.uriScheme u ≠ none, .other "parse URL"), (KeyURL F u, .unsupportedScheme)]

/-- The demands of `New`: each daemon that is not disabled asks for its settings, in the order of the calls in `New`. -/
def demands (F : NewFns) (opts : List Opt) : List Demand :=
  let a := settingsOf opts
  [(URLsOk opts, .unsupportedScheme)] ++
  (if a.disablePubkeyd then [] else [aDur F a.pubkeyETagExpiry "invalid ETag expiry time", aDur F a.pubkeyETagPurgePeriod "invalid ETag purge period",
    aDur F a.pubkeyRefreshPeriod "invalid refresh period", aDur F a.pubkeyRetryDelay "invalid retry delay"]) ++
  (if a.disablePolicyd then [] else [aDur F a.policyExpiryMargin "invalid expiry margin", aDur F a.policyRefreshPeriod "invalid refresh period",
    aDur F a.policyPurgePeriod "invalid purge period", aDur F a.policyRetryDelay "invalid retry delay"]) ++
  (if a.disableJwkd then [] else [(a.athenzURL ≠ [], .emptyAthenzJwksURL), aDur F a.jwkRefreshPeriod "invalid refresh period",
    aDur F a.jwkRetryDelay "invalid retry delay"] ++ a.jwkURLs.flatMap (keyURLs F)) ++
  (if a.accessTokenParam.enable then [aDur F a.accessTokenParam.certBackdateDur "invalid refresh period",
    aDur F a.accessTokenParam.certOffsetDur "invalid offset duration"] else []) ++
  [(a.enableRoleCert = true ∨ a.accessTokenParam.enable = true ∨ a.enableRoleToken = true, .other "error no authorizers")]

end Athenz.Spec
