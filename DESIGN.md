# A Lean 4 model of yahoojapan/athenz-authorizer v5

Nothing of the Go code is run. `/repo` was read as text; every model definition cites the file and lines it models.

## Layout (`lean/Verif/`)

| directory | contents |
| --- | --- |
| `Go/` | the Go library behaviour the code relies on: strings, int64 arithmetic and `time`, `strconv.ParseInt`, `time.ParseDuration`, a fragment of `regexp`, the TTL cache `gache`, `sync.Map`, golang-jwt |
| `Model/` | the code of the repository, function by function, total and computable |
| `Spec/` | small specifications, written without looking at the model's helpers |
| `Proofs/` | helper lemmas |
| `Props/` | the property theorems `Cxx_…`, each followed by `example`s that meet its hypotheses |

`properties.jsonl` has the properties, `MANIFEST.json` the theorems for each, `seeded/LOG.jsonl` the attempts to break the model.

## Naming

* `Cxx_name`: a theorem that says all or a part of property Cxx without extra hypotheses that weaken it.
* `Cxx_name_partial`: extra hypotheses or a weaker conclusion. The note in `MANIFEST.json` says what is missing.
* `Cxx_statement` and `Cxx_refuted`: the full statement as a `def … : Prop` and a proof of its negation, by a concrete execution of the model. The
  code does not have the property as stated; the `_partial` theorem says for which inputs it does.
* "proved" in the manifest means the full statement is proved for the model.

## Modelling conventions

* A Go string is `Str := List Char`, a list of runes. All separators used by the code are ASCII, so splitting by runes and by
  bytes is the same; strings that are not valid UTF-8 are not represented.
* Errors are values of `Err` (wrapping with `errors.Wrap` keeps the cause, so it is dropped, except in the loops of the daemons, where the
  text itself is what is observed); a nil dereference, a call of a nil function or a failed type assertion is the explicit outcome `panic`.
* Go maps that are only looked up are association lists with functional lookup; where the code iterates over a map the model takes
  the iteration order as a parameter and the theorems quantify over it.
* Goroutines, channels and contexts become small-step transition systems `step : State → Act → Option State`: one step per shared-memory or
  channel operation, an arbitrary schedule chooses the next step. Theorems are inductions over schedules. Liveness (`C51_fair`,
  `C52_jwkd_fair_partial`, `C58_fair`, `C65_returns`, C69, `C70_returns`, C72, `C73_takes_effect_partial`) is about infinite executions with weak fairness.
  For C72 this includes that HTTP requests end. A call of `Update` is given in advance what its fetchers are going to return; a step that does not
  fit is not possible, so that safety is not affected; C72 assumes that what was said is what happens (`Spec.Foretold`).
* The environment (network answers, clock, cancellation, purging of caches) acts by steps of the same system, with arbitrary values.
* int64 arithmetic that can overflow is modelled with wrap-around (`wrap64`), `time.Time.Sub` saturates, `time.Unix` wraps.
* `strings.ToLower` and `strings.EqualFold` are parametrised by the rune functions (`CaseFns`); theorems hold for every choice.
* Signature verification, SHA-256, JSON and base64 decoding, `url.ParseQuery` (but for C87), floating point rounding and HTTP transport are parameters:
  arbitrary functions or arbitrary answers. The pauses of the retrying transport (`newExpRt`, C85) are computed exactly instead of in floating point; C96 computes them in floating point (`Go/Float`) and bounds the difference.
* Principals are values in all models but `Model/Shared.lean` (C86), where they are pointers to records with slices in a memory that callers share.

## Trusted base

1. The Lean 4.33.0 kernel and the axioms below. No axioms are added, there is no `sorry`, no `native_decide` and no `bv_decide`. Concrete
   examples use `decide +kernel` (kernel evaluation, no extra axiom) and `rfl`.
2. That the definitions of `Model/` say what the Go code says. They were transcribed by hand with the line numbers in their comments. The
   simplifications are noted in those comments and listed below.
3. That the definitions of `Go/` say what the libraries do. The sources of the libraries are not in the sandbox; what is stated there is recalled from
   * Go: `strings`, `strconv.ParseInt`, `time` (`Unix`, `Sub`, `Add`, `After`, `ParseDuration`, `NewTicker` panics for durations that are not positive),
     `regexp` (leftmost matching of the fragment used here), `sync.Map`, channels, `context`, `encoding/json` leaving a pointer nil for `null`;
   * gache v1.2.8: entries with a lifetime that is not positive never expire; `Get` of an expired entry deletes it and calls the hook; the purging goroutine
     makes a ticker of the given period;
   * golang-jwt v4.4.1: order of the checks of `ParseWithClaims`, which keys each algorithm accepts, `AuthorizationHeaderExtractor`;
   * lestrrat-go/jwx v1.2.25: `Fetch`, `LookupKeyID` gives the first key with the id, `Raw`;
   * gache v1.2.8, for C89-C91: the goroutine of `StartExpired` takes keys from a channel with a buffer and calls the hook for each, until the context is done
     or `Stop` is called; `Get` and the sweep, when they find an expired entry and a hook is enabled, delete the entry and send its key on that channel, which
     blocks while the buffer is full. The capacity is a parameter.
   * errgroup: `Wait` gives the first error and cancels the context of `WithContext` when it returns, `WithContext` cancels with the first error; pkg/errors: text of `Wrap`.
4. That the statements of `Props/` and the definitions of `Spec/` say what `properties.jsonl` says.

### Axioms

`#print axioms` for the theorems of the manifest (all are standard axioms of Lean):

* no axioms: `C95_refuted`
* `[propext]`: `C41_or`, `C41_refusal`, `C74_pubkey_read`, `C85_refuted`, `C93_done`
* `[propext, Quot.sound]`: `C06_glob`, `C27_overflow`, `C30_tries_all`, `C49_key`, `C54_disabled`, `C54_error`, `C54_first`, `C54_joined`, `C54_nil`, `C54_order`, `C54_returns`, `C55_zero`, `C74_fetch_partial`, `C74_transport_exact`, `C90_hit`, `C92_sees`, `C93_agrees`, `C93_success`, `C93_waits`
* `[propext, Classical.choice, Quot.sound]`: the other 460


## What is modelled

| code | model | properties |
| --- | --- | --- |
| `policy/assertion.go` | `Model/Assertion`, `Go/Regexp` | C06, C07, C09 |
| `policy/daemon.go` `CheckPolicy(Roles)` | `Model/CheckPolicy`: workers, channel, closer, collector, cancellation, a cache that changes meanwhile | C01–C05, C07, C08 |
| `policy/daemon.go` `simplifyAndCachePolicy`, `fetchAndCachePolicy`, `Update` | `Model/Simplify`: one goroutine per policy with separate `Load` and `Store`, filling of the shared cache, one goroutine per domain | C01, C02, C08, C10, C11 |
| `policy/daemon.go` `Update`, expired hook, swap of the cache | `Model/Policyd` | C12–C14, C65, C82 |
| `policy/daemon.go` lines 248-268, 359-381, with slices that share arrays | `Model/Slices` | C66 |
| `policy/daemon.go:292-297`, `authorizerd.go:556-562` (GetPolicyCache), with arrays of pointers to records, and callers who write to what they got | `Model/Handed` | C92 |
| `policy/fetcher.go:153-175`, `policy/daemon.go:163-182`: how long requests and pauses take | `Model/Timing` | C93; `C93_agrees` ties it to `Model/Fetcher` for a call that is not interleaved with others |
| `policy/daemon.go:108-153`, `pubkey/daemon.go:103-150`, `jwk/daemon.go:67-118`: when the loops of `Start` call `Update` | `Model/Pace` | C94, C95; with `Model/Authority` C97, C99; with `Model/System` C101, C102, C103, C104, C105. That runs of the step model `Model/Loop` which go on without delay (`Spec/LoopTime`) call `Update` at these times is C94_agrees, that all these times occur C94_reached, and for the assembled `Model/SystemLoop` (`Spec/InTime`) C101_paced, for `Model/Running` and the JWK daemon (`Spec/InTimeJwk`) C102_paced, and the public key daemon (`Spec/PacedPk`) C103_paced, and the policy daemon (`Spec/InTimeAll`) C105_paced |
| `authorizerd.go:303`: sweeps of the cache of results | `Model/Authority` (`sweep`), `Go/Gache` | C98 |
| `client/exp_rt.go:44-56`, `93-96` in floating point arithmetic | `Go/Float`, `Model/ClientFloat` | C96 |
| `policy/daemon.go:149-214` (Update), `authorizerd.go:266-297` (Init), the channel of expired keys and the goroutine that calls the hook | `Model/Expiry` | C89-C91 |
| `policy/daemon.go` and `policy/fetcher.go`, the accesses to pointers that goroutines share | `Model/Races`: the events, `Spec/Races`: happens-before | C88 |
| `policy/signed_policy.go`, `policy/fetcher.go` | `Model/Fetcher` | C15–C19 |
| `role/*.go` | `Model/Role` | C20–C23 |
| `access/*.go` and the parser of golang-jwt | `Model/Access`, `Go/Jwt` | C24–C28, C59 |
| `jwk/daemon.go` | `Model/Jwkd` | C28–C30, C77 |
| `pubkey/daemon.go` | `Model/Pubkeyd` | C19, C31–C34, C76 |
| `authorizerd.go` `authorize`, `Verify…`, `Authorize…`, `initAuthorizers`, `VerifyRoleCert` | `Model/Authority` | C35–C45, C56, C64 |
| the principals that `authorizerd.go` gives to its callers, `principal.go` | `Model/Shared`: principals as pointers | C86 |
| `translator.go` | `Model/Translator`, `Go/Query` | C46–C48, C87 |
| `mask.go`, `internal/url` and the URL options | `Model/Mask` | C49, C50 |
| the `Start` loops of the three daemons | `Model/Loop` | C51–C53 |
| the `Start` loop of the policy daemon in the assembled authorizer: its calls are the `Update`s of `Model/System` | `Model/SystemLoop` | C75 |
| `Start` of `authorizerd.go` in the assembled authorizer: the goroutines of the three daemons with their `Update`s, and the one that passes their errors on | `Model/Running` | C79, C80 |
| `authorizerd.go` `Init`, `Start` | `Model/Boot` | C54, C58 |
| `client/exp_rt.go` | `Model/Client` | C55, C85 |
| `flushAndClose` of `policy/fetcher.go`, and what becomes of the bodies of responses in `pubkey/daemon.go` and `client/exp_rt.go` | `Model/Body` | C74 |
| the daemons, fetchers and calls that `New` of `authorizerd.go` wires together | `Model/System`: all of the above models at once, with the answers that they leave open tied together | C62, C63, C67, C68, C69, C72, C73, C78, C81 |
| `VerifyRoleCert` of `authorizerd.go` while all of that goes on | `Model/SystemCert`: calls with one policy check for each domain, on top of `Model/System` | C70, C83 |
| `GetPolicyCache` of `authorizerd.go` and `policy/daemon.go` while all of that goes on | `Model/PolicyCache`: a relation between a history and what the call can return | C71 |
| `option.go` of all packages, `New` of all packages | `Model/Options`, `Go/Dur`, `Model/Configured` | C56, C57, C60, C61, C100 |

## What is not modelled

* The cryptography: signature checks, digests and X.509 parsing are parameters. That a certificate presented to `VerifyRoleCert` was verified is up to the caller.
* JSON, YAML, base64 and PEM decoding: arbitrary functions, including failure and `null`.
* `url.ParseQuery`: an arbitrary function whose result is a map, except in C87, where it is the function of Go 1.18 (`Go/Query`) but for the UTF-8 decoding of escaped bytes from 128 on.
* HTTP itself: an answer is a status, a tag and a body, or an error. Reading and closing of bodies is modelled in `Model/Body` only (C74).
* The log. Only the two masking functions are modelled; that the lines use them was read off the source.
* Floating point: the pauses of the transport (`calNextWaitDur`) outside C85 and C96, the fraction part of `time.ParseDuration`, `Duration.Seconds` are parameters.
* The Go memory model: every shared access is taken as atomic and sequentially consistent, except in `Model/Races` (C88), which has the plain and the atomic
  accesses of the policy daemon as events and says which are ordered. Order that comes from locks inside libraries (gache, sync.Map, the logger, net/http) is left
  out there, so that the races it shows are those that the code itself does nothing against: the plain read of `p.rolePolicies` in the hook (daemon.go:191), and
  the plain reads of `f.policyCache` (fetcher.go:91, 171) once an Update was cancelled. The other models give such reads a sensible value. The pointers of the
  other packages are not part of `Model/Races`.
* Memory and run time. Bounds are on numbers of steps only.
* Slices that share their memory, except in `Model/Slices` (C66), `Model/Handed` (C92) and `Model/Shared` (C86): elsewhere `append` at policy/daemon.go:372 is taken to give a new list. `C66_simulates_partial` shows that
  this is the same unless two goroutines fill the same cache object with assertions about the same role at the same time. In that case one of the two additions is
  lost, which all models have; which of the two allows a check sees meanwhile is only right in `Model/Slices`. Denies are not concerned (`C66_denies`).
* Several clocks: gache and fastime read a cached clock that is refreshed every few milliseconds; the model has one clock.
* The channel from gache to the goroutine that runs the hook for expired entries, except in `Model/Expiry` (C89-C91): elsewhere a hook is pending at once and
  runs at any later time, and a lookup never blocks. So the theorems about every check returning (C05, C69, C70) are about lookups that are not blocked as in C90;
  the theorems about what checks decide do not depend on it, as a hook may stay pending for ever.
* `String` methods for logging. The getters of `principal.go` return a field each; the fields of the model's `Principal` stand for them (`Model/Shared`: the slices themselves).
* Strings that are not valid UTF-8.

## What was found in the code

Each of these is a theorem about the model (name in brackets).

* Two policies of one document with the same role, action and resource and opposite effects race while they are merged; the deny can be lost, exactly if some policy mentions the triple without denying it (`C10_exact`, `C10_refuted`, `C01_refuted`, `C02_refuted`, `C12_decision_refuted`), up to a call that is granted what the policies in force deny (`C68_refuted`), also when all daemons have had the time for an update (`C105_refuted`). Commas in names make different assertions collide (`C10_comma_refuted`), even across domains (`C08_refuted`).
* If a document expires while the cache is being filled from it, the assertions filled first are lost, a deny as well as an allow, and the rest lives on for another lifetime (`C11_refuted`).
* The refresh of expired entries works on the live cache, step by step (`C13_refuted`, `C12_refuted`), keeps assertions that are no longer in the document (`C13_stale_refuted`), and crashes for roles of domains that are not configured (`C13_crash_refuted`).
* Two refreshes of the same domain at the same time, which happen whenever the entries of two of its roles expire together, overwrite each other's writes: a deny that both of them got and wrote is not in the cache when both have ended (`C82_refuted`).
* When every retry fails the last policy is used although it is expired; its lifetime is not positive, and such an entry of the cache never expires (`C14_refuted`).
* A 304 to the first request, the document `null`, or `null` inside a signed document crash the process (`C19_…_refuted`).
* Nothing compares the domain of a signed policy with the domain for which it was asked; the policy of another domain, served instead, grants roles of that other domain, even if it is not configured (`C63_refuted`).
* A role token that begins with `s=` brings its own signature field (`C20_refuted`); it still has to verify against the signed part (`C20_accept`).
* A JWT with an `iat` or `nbf` beyond 2^63 - 62135596800 counts as issued in the past (`C24_refuted`).
* Overlapping refreshes of key sets can keep an older set (`C29_refuted`) or a mixture (`C31_refuted`); a tag is remembered although the keys of the answer were not usable (`C33_refuted`), an answer without a tag keeps the older tag (`C33_tagless_refuted`).
* The result cache: keys are joined with colons (`C36_refuted`), a result outlives its token (`C38_refuted`), certificates are told apart by two names only (`C39_refuted`, `C39_names_refuted`), the kind of token is not part of the key (`C49_refuted`), and the lifetime of a result begins when it is stored and not when the policies were asked, so that a slow call leaves a withdrawn permission behind (`C73_refuted`).
* `Verify` never accepts a role certificate (`C42_refuted`); `VerifyRoleCert` accepts everything with policies disabled (`C44_roleCert_refuted`) and confuses domain and role if written one behind the other they are the same (`C43_refuted`).
* `VerifyRoleCert` uses neither the translator nor the resource prefix and accepts an empty action or resource, so that the same roles can be granted something else with a certificate than with a token (`C64_refuted`, `C64_translator_refuted`, `C64_empty_refuted`).
* An assertion without a domain in its resource, which makes an update fail, is overlooked if it collides with another one by commas (`C65_refuted`).
* Two refreshes of a domain at the same time append to the same array, so that the list that a check is reading can change under it: an allow is replaced by another one (`C66_refuted`), a deny never (`C66_denies`).
* `Update` returns nil although no policy server could be reached, as long as the fetchers have an older policy (`C67_refuted`), and an `Update` that was called earlier but returns later puts older policies back (`C67_order_refuted`).
* The translator replaces placeholders one after the other in the order of a Go map, so that a value that contains a placeholder makes the result random (`C47_refuted`).
* The policy and public key daemons stop refreshing for ever when 100 errors are unread (`C52_refuted`, `C52_refresh_refuted`), and cancellation does not stop them then (`C52_stop_refuted`).
* The retrying transport closes the body before it returns the response, and returns neither response nor error for a count that is not positive (`C55_refuted`).
* Overlapping updates of the public keys (the goroutine of `Start` and a caller of `Update`) can bring a withdrawn key back into use: the update that got the old list first applies it last. The version of the new list is remembered, so the server answers 304, and the withdrawn key is trusted until the version is forgotten: a week by default, for ever with `WithETagExpiry("0s")` (`C76_refuted`).
* A token whose key is withdrawn can be granted for longer than the lifetime of cached results after the withdrawal, because the lifetime begins when a result is stored and not when the token was validated (`C78_refuted`).
* Sets of JSON web keys do not expire: as long as the server of a URL cannot be reached, the last set received from it is trusted, however old it is (`C77_unreachable`). Public keys are the same, policies expire with their signed date.
* Bodies of responses are not always closed: not by the public key daemon if the answer is no 200 or no JSON, which leaves two bodies open with every `Update` as long as the server is down (`C74_leak`), not by the fetcher if reading fails (`C74_policy_refuted`), not by the transport before another attempt (`C74_transport_refuted`).
* `New` accepts configurations whose calls panic (`C56_refuted`, `C56_refuted_access`) or whose `Start` panics (`C60_refuted`); `pubkey.New` and `jwk.New` keep a nil client (`C61_refuted`).
* Callers that get the same cached principal share its lists: an element that one of them sets is seen by the others (`C86_refuted`), and of two that append to `AuthorizedRoles()` one has what the other appended (`C86_append_refuted`). Decisions are not concerned (`C86_decisions`).
* The map that `GetPolicyCache` returns shares its arrays and records with the cache: a caller who writes a field or an element, filters a slice in place, or appends where there is room changes what checks decide (`C92_field`, `C92_cell`, `C92_cut`, `C92_append`), and one who writes nil makes them crash (`C92_nil`). Appending alone never lifts a deny (`C92_append_denied`).
* `FetchWithRetry` does not look at its context between attempts: after a cancellation it pauses once for each attempt left (`C93_refuted`, `C93_late`). It also pauses after the last attempt, before it gives up (`C93_failure`), and an `Update` with a domain that has failed waits for all others (`C93_waits`).
* The policy and key daemons do not pause before the second attempt after an update that the ticker began (`C95_atOnce`); the JWK daemon does.
* `NewExponentialRoundTripper` accepts the factor 0; on amd64 the transport then never pauses and never minds its time limit (`C96_hammer`).
* If `Start` is not called, or its context is cancelled, nothing removes results that are not valid any more, although calls go on to store new ones (`C98_unswept`).

* `WithPolicyRetryAttempts(0)` is ignored, a failed fetch then makes three requests (`C100_refuted`); a negative number is accepted and turns policies off, as no request is ever sent (`C100_negative`).

Seen while reading, outside of the model: after
cancellation `authority.Start` can spin on closed channels of its children until its own context case is taken; a value of 2^64 ns wraps in some
versions of `time.ParseDuration`.

## How the theorems were tested

`seeded/LOG.jsonl` has one line per wrong program: the definition of the model that was edited, the edit, the property it breaks and the theorems that no longer prove. Edits
are made in a copy outside of `/verif`; proofs that fail are replaced by `sorry` and the build goes on, so that a theorem counts as failed only if it depends on a broken
proof (`#print axioms`; in round `mut24` the theorems of C94 are listed by the dependencies of their proofs on the lemmas that failed). If a theorem about the broken property had survived it would have been tightened.
