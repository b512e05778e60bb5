{"id": "C01", "title": "Explicit deny overrides allow", "statement": "If the signed policy documents that are in force contain a deny assertion for one of the roles of the caller that matches the requested domain, action and resource, then CheckPolicy/CheckPolicyRoles returns an error and no role is reported as authorized, whatever allow assertions also match and however many roles the caller presents.", "quantifier": "every set of policy documents, every role list, every action/resource, every order in which the documents are processed", "why_tests_cant": "Policy sets and role lists are unbounded and processed in a random order (map/sync.Map iteration).", "anchors": ["policy/daemon.go:CheckPolicyRoles", "policy/daemon.go:simplifyAndCachePolicy", "policy/assertion.go:NewAssertion"]}
{"id": "C02", "title": "Access is granted exactly when some role is allowed and none denied", "statement": "CheckPolicyRoles succeeds if and only if at least one of the caller's roles has a matching allow assertion in the policies in force and none of the caller's roles has a matching deny assertion; otherwise it fails (default deny), with the no-match error when nothing matched.", "quantifier": "every policy set, domain, role list, action, resource", "why_tests_cant": "The decision ranges over unbounded policy sets and arbitrary strings.", "anchors": ["policy/daemon.go:CheckPolicyRoles", "policy/daemon.go:CheckPolicy"]}
{"id": "C03", "title": "The policy decision does not depend on goroutine scheduling", "statement": "For a fixed policy cache and no cancellation, every interleaving of the per-role goroutines, the closer and the collector makes CheckPolicyRoles return the same verdict, and on success the same multiset of authorized roles (exactly the roles, with multiplicity, whose decisive assertion is an allow); only the order may differ.", "quantifier": "every interleaving of the goroutines CheckPolicyRoles starts, every role list and policy cache", "why_tests_cant": "The Go scheduler picks the interleaving; a unit test sees one interleaving per run.", "anchors": ["policy/daemon.go:CheckPolicyRoles"]}
{"id": "C04", "title": "Cancelling the context can never turn a refusal into a grant", "statement": "Whenever the caller's context is cancelled during CheckPolicyRoles, a successful return still is the verdict that the uncancelled check gives; the context error is returned only if the context really was cancelled.", "quantifier": "every interleaving and every point at which cancellation happens", "why_tests_cant": "Cancellation can land between any two instructions of any goroutine.", "anchors": ["policy/daemon.go:CheckPolicyRoles"]}
{"id": "C05", "title": "A policy check always returns and leaves no goroutine blocked", "statement": "From every reachable intermediate state of CheckPolicyRoles some step is possible until every worker and the collector have finished, no execution is infinite, no channel send ever finds the channel full, and nothing is sent after the channel is closed, even if the collector returns early on a deny.", "quantifier": "every interleaving, every number of roles, every cancellation point", "why_tests_cant": "Deadlock, goroutine leak and send-on-closed-channel depend on the schedule.", "anchors": ["policy/daemon.go:CheckPolicyRoles"]}
{"id": "C06", "title": "Glob patterns mean what Athenz globs mean", "statement": "For every glob, the regular expression generated for it compiles, and it matches a text exactly when the glob does: '*' stands for any run of characters other than newline, '?' for exactly one character other than newline, and every other character (including every regular expression metacharacter) only for itself, anchored at both ends.", "quantifier": "every glob string and every subject string", "why_tests_cant": "Strings are unbounded; escaping errors hide in rare character combinations.", "anchors": ["policy/assertion.go:patternFromGlob", "policy/assertion.go:isRegexMetaCharacter", "policy/assertion.go:NewAssertion"]}
{"id": "C07", "title": "Action, resource and resource domain match case-insensitively, role and domain of the lookup case-sensitively", "statement": "Changing the letter case of the requested action or resource, or of action/resource in an assertion, never changes the decision; the role name and the caller's domain select assertions by exact string.", "quantifier": "every policy, every request, every case variant", "why_tests_cant": "All case variants of all strings.", "anchors": ["policy/daemon.go:CheckPolicyRoles", "policy/assertion.go:NewAssertion"]}
{"id": "C08", "title": "Assertions only affect the role and the domain they name", "statement": "Adding, removing or changing assertions whose role is not one of the caller's '<domain>:role.<role>' names, or whose resource domain differs from the caller's domain, never changes the decision for that caller.", "quantifier": "every policy set, every unrelated change to it, every request", "why_tests_cant": "Non-interference ranges over pairs of unbounded policy sets.", "anchors": ["policy/daemon.go:CheckPolicyRoles", "policy/daemon.go:simplifyAndCachePolicy"]}
{"id": "C09", "title": "Assertion resources must carry a domain", "statement": "NewAssertion fails exactly when the resource contains no ':'; otherwise it succeeds, the domain is everything before the first ':' and the resource pattern everything after it; the effect is deny exactly for the word deny in any letter case.", "quantifier": "every action, resource, effect string", "why_tests_cant": "All strings.", "anchors": ["policy/assertion.go:NewAssertion"]}
{"id": "C10", "title": "Merging the policies of a domain never loses a deny", "statement": "When several policies of one domain contain the same (role, action, resource) with different effects, the cached assertion for it is the deny, for every interleaving of the goroutines that merge the policies.", "quantifier": "every policy document and every interleaving of the merging goroutines", "why_tests_cant": "The Go scheduler picks the interleaving; a unit test sees one interleaving per run.", "anchors": ["policy/daemon.go:simplifyAndCachePolicy"]}
{"id": "C11", "title": "The order in which assertions reach the cache is irrelevant", "statement": "Whatever order the merged assertions are visited in when the cache is filled, every role ends up with the same multiset of assertions, all denies before all allows, and every policy decision is the same.", "quantifier": "every iteration order of the assertion map", "why_tests_cant": "Go randomises the order; tests see a few orders.", "anchors": ["policy/daemon.go:simplifyAndCachePolicy"]}
{"id": "C12", "title": "Policy update is all-or-nothing", "statement": "A policy Update that returns an error leaves the policies in force unchanged; one that returns nil replaces them all at once by exactly the assertions of the fetched documents of all configured domains. A check running concurrently is decided entirely by one of the two versions.", "quantifier": "every history of updates, fetch outcomes, interleavings of per-domain fetch goroutines and concurrent checks", "why_tests_cant": "Histories and interleavings are unbounded.", "anchors": ["policy/daemon.go:Update", "policy/daemon.go:fetchAndCachePolicy", "policy/daemon.go:CheckPolicyRoles"]}
{"id": "C13", "title": "The refresh triggered by an expired cache entry is as good as an update", "statement": "When a policy cache entry expires and its domain is fetched again in the background, a check made at any moment is decided by a complete version of the domain's policies (never by a half written one), and assertions that are no longer in the document stop having effect.", "quantifier": "every moment of the background refresh at which a check can happen", "why_tests_cant": "The half-written state exists only inside a race window.", "anchors": ["policy/daemon.go:Update", "policy/daemon.go:simplifyAndCachePolicy"]}
{"id": "C14", "title": "Expired policies stop authorizing", "statement": "No policy check is granted on the strength of a policy document whose expiry has passed.", "quantifier": "every history of updates, fetch failures and clock values", "why_tests_cant": "Needs clock/failure histories that last hours.", "anchors": ["policy/daemon.go:simplifyAndCachePolicy", "policy/fetcher.go:FetchWithRetry", "policy/daemon.go:CheckPolicyRoles"]}
{"id": "C15", "title": "Only verified policies are ever used", "statement": "Every policy that Fetch or FetchWithRetry returns, after any history of server responses, failures and key changes, passed the complete signature and expiry verification at the moment it was downloaded.", "quantifier": "every history of fetches, server responses, clocks and key sets", "why_tests_cant": "Unbounded histories of responses.", "anchors": ["policy/fetcher.go:Fetch", "policy/fetcher.go:FetchWithRetry"]}
{"id": "C16", "title": "Signed policy verification is complete", "statement": "SignedPolicy.Verify accepts exactly the documents that have data and an expiry strictly in the future, whose key id resolves to a ZTS key under which the document's signature verifies, and whose ZMS key id resolves to a ZMS key under which the policy data's signature verifies.", "quantifier": "every document, key set and clock value", "why_tests_cant": "The universe of documents and keys is unbounded.", "anchors": ["policy/signed_policy.go:Verify"]}
{"id": "C17", "title": "Conditional fetches are sound", "statement": "If-None-Match is sent exactly when a policy with a non-empty ETag is cached and its expiry minus the margin is still ahead; a 304 answer yields the policy last downloaded and verified, and if the server only answers 304 to conditional requests that policy has more than the margin left before expiry.", "quantifier": "every fetch history and clock", "why_tests_cant": "Unbounded histories.", "anchors": ["policy/fetcher.go:Fetch"]}
{"id": "C18", "title": "Retries are bounded and fall back to the last good policy", "statement": "FetchWithRetry makes at most 1+retryAttempts requests, stops at the first success, returns success only with a policy obtained from a successful fetch, and when all attempts fail returns an error together with the last verified policy, if there is one, leaving the cache as it was.", "quantifier": "every retry setting, every sequence of fetch outcomes", "why_tests_cant": "Arbitrary outcome sequences and counts.", "anchors": ["policy/fetcher.go:FetchWithRetry"]}
{"id": "C19", "title": "No answer of the Athenz server can crash the process", "statement": "Whatever the server answers (status, headers, JSON body), policy and public key updates either succeed or return an error.", "quantifier": "every server answer in every fetch state", "why_tests_cant": "Any response in any state.", "anchors": ["policy/fetcher.go:Fetch", "pubkey/daemon.go:fetchPubKeyEntries", "pubkey/daemon.go:Update", "policy/signed_policy.go:Verify", "policy/daemon.go:simplifyAndCachePolicy"]}
{"id": "C20", "title": "Role tokens are accepted only with a valid ZTS signature over everything that was read", "statement": "ParseAndValidateRoleToken accepts a string exactly if it splits at the first ';s=' into an unsigned part made of key=value pairs with well-formed numbers and a signature, is not expired, and the signature verifies over the whole unsigned part under the ZTS key named by it.", "quantifier": "every token string, clock and key set", "why_tests_cant": "All strings.", "anchors": ["role/processor.go:ParseAndValidateRoleToken", "role/processor.go:parseToken", "role/processor.go:validate", "role/token.go:SetParams"]}
{"id": "C21", "title": "The identity in an accepted role token is determined by the signed text", "statement": "Two accepted tokens with the same unsigned part yield the same domain, roles, principal, key id and times: nothing behind the signature marker influences them.", "quantifier": "every pair of token strings", "why_tests_cant": "Pairs of unbounded strings.", "anchors": ["role/processor.go:parseToken", "role/token.go:SetParams"]}
{"id": "C22", "title": "Expired role tokens are rejected", "statement": "A role token whose expiry second lies before the current time is never accepted by the token processor, nor is one without an expiry, nor one whose expiry is not a 64 bit decimal number; arithmetic overflow of huge expiry values fails closed.", "quantifier": "every expiry value (all int64 and all malformed strings) and every clock value", "why_tests_cant": "Overflow boundaries and all clock values.", "anchors": ["role/token.go:Expired", "role/token.go:SetParams", "role/processor.go:validate"]}
{"id": "C23", "title": "Role token parsing inverts token construction", "statement": "A token rendered from a domain, role list, principal, times and key id free of the delimiter characters is parsed back to exactly those values.", "quantifier": "every well-formed field combination", "why_tests_cant": "Round-trip over unbounded fields.", "anchors": ["role/processor.go:parseToken", "role/token.go:SetParams"]}
{"id": "C24", "title": "Access tokens are accepted only if signed, current and bound", "statement": "ParseAndValidateOAuth2AccessToken succeeds exactly if the token is a three-part JWT, its key id (and jku) resolves to a key under which the signature over the first two parts verifies, exp is present and in the future, iat and nbf are absent or not in the future, and the enabled client id and certificate checks pass; the claims returned are those in the signed part.", "quantifier": "every token, certificate, key set, clock and configuration", "why_tests_cant": "All tokens, all configurations.", "anchors": ["access/processor.go:ParseAndValidateOAuth2AccessToken", "access/claim.go:Valid"]}
{"id": "C25", "title": "Client id binding", "statement": "With client id verification enabled, a token is accepted only together with a client certificate whose common name is configured for the token's client_id.", "quantifier": "every certificate, claim set and configuration map", "why_tests_cant": "All maps and claims.", "anchors": ["access/processor.go:validateClientID"]}
{"id": "C26", "title": "Certificate binding", "statement": "With certificate-bound tokens enabled, a token is accepted only together with a certificate that has the bound thumbprint, or is a rotation of the bound certificate inside the configured window, or carries one of the token's proxy principals as URI.", "quantifier": "every certificate and claim set", "why_tests_cant": "All claims and certificates.", "anchors": ["access/processor.go:validateCertificateBoundAccessToken"]}
{"id": "C27", "title": "Certificate rotation window", "statement": "The thumbprint mismatch is forgiven exactly if the window is enabled, common name and client_id are equal and non-empty, and the certificate's issue time (corrected by the backdate) lies between the token's issue time and that plus the window; values for which the 64 bit sums overflow are identified.", "quantifier": "every int64 issue time, backdate and window", "why_tests_cant": "Boundaries and overflow over the whole int64 range.", "anchors": ["access/processor.go:validateCertPrincipal"]}
{"id": "C28", "title": "Verification key selection", "statement": "An access token without a string kid, or whose jku is not a string, or whose key is unknown is rejected; the signature is only ever checked with the key of that kid in the key set of the token's jku, or of the Athenz server when no jku is given.", "quantifier": "every header and key set", "why_tests_cant": "All headers.", "anchors": ["access/processor.go:keyFunc", "access/processor.go:getAsStringFromHeader", "jwk/daemon.go:getKey"]}
{"id": "C29", "title": "Keys come only from configured URLs", "statement": "After any history of JWK updates, a key is handed out only if it was in the key set last fetched from the Athenz URL or one of the configured URLs; a token cannot choose any other source.", "quantifier": "every history of updates, every kid and jku", "why_tests_cant": "Unbounded histories.", "anchors": ["jwk/daemon.go:Update", "jwk/daemon.go:getKey"]}
{"id": "C30", "title": "JWK refresh is per-URL, replaces key sets and reports failures", "statement": "An update replaces the key set of every URL that could be fetched by exactly the fetched set (so withdrawn keys disappear), keeps the previous set of every URL that could not, tries every URL even after failures, and returns an error exactly if some URL failed.", "quantifier": "every history of updates and outcomes per URL", "why_tests_cant": "Unbounded histories and URL lists.", "anchors": ["jwk/daemon.go:Update", "jwk/daemon.go:isContain"]}
{"id": "C31", "title": "Public key refresh is all-or-nothing per service", "statement": "After a successful download the key set of the service is exactly the downloaded one (withdrawn keys are gone, the last entry wins on duplicate ids); after any failure, or a not-modified answer, it is unchanged; ZTS and ZMS are independent.", "quantifier": "every history of updates and responses", "why_tests_cant": "Unbounded histories.", "anchors": ["pubkey/daemon.go:Update"]}
{"id": "C32", "title": "Key lookups during a refresh never see a gap", "statement": "While a public key refresh is being applied, a concurrent lookup of a key id returns the old or the new key of that id; an id present before and after always resolves, an id in neither never does.", "quantifier": "every point of the refresh at which a lookup can happen, every pair of key sets", "why_tests_cant": "The Go scheduler picks the interleaving; a unit test sees one interleaving per run.", "anchors": ["pubkey/daemon.go:Update", "pubkey/daemon.go:getPubKey"]}
{"id": "C33", "title": "A successful public key update means the served keys are in use", "statement": "If Update returns nil then the key set in use is the one the server currently serves.", "quantifier": "every history of server key sets, failures and updates", "why_tests_cant": "Needs particular multi-step histories.", "anchors": ["pubkey/daemon.go:fetchPubKeyEntries", "pubkey/daemon.go:Update"]}
{"id": "C34", "title": "ZTS and ZMS keys are never confused", "statement": "A lookup for the ZTS service only returns keys published for ZTS and a lookup for any other service only those published for ZMS, after any history of updates.", "quantifier": "every history and key id", "why_tests_cant": "Unbounded histories.", "anchors": ["pubkey/daemon.go:getPubKey", "pubkey/daemon.go:Update"]}
{"id": "C35", "title": "A granted token request was fully validated within the cache lifetime", "statement": "Whenever VerifyRoleToken/AuthorizeRoleToken/VerifyAccessToken/AuthorizeAccessToken or the token branches of Verify/Authorize succeed, a request with the same cache key passed full token validation and policy check either in this call or in an earlier call whose result was stored at most the cache TTL before, and the principal returned is the one computed then.", "quantifier": "every history of calls, clock advances, key and policy changes, including overlapping calls", "why_tests_cant": "Histories of interleaved calls are unbounded.", "anchors": ["authorizerd.go:authorize"]}
{"id": "C36", "title": "A cached grant is only reused for the same request", "statement": "Two requests that share a cache entry have the same token, certificate identity, action, resource and query.", "quantifier": "every pair of requests", "why_tests_cant": "Collisions live in the cross product of unbounded strings.", "anchors": ["authorizerd.go:authorize"]}
{"id": "C37", "title": "Refusals are never cached", "statement": "A failing call leaves the result cache unchanged except for expiry, and what a later call returns does not depend on earlier refusals.", "quantifier": "every history of calls", "why_tests_cant": "Unbounded histories.", "anchors": ["authorizerd.go:authorize"]}
{"id": "C38", "title": "Tokens stop working when they expire", "statement": "A token request made after the token's expiry is refused.", "quantifier": "every history and clock", "why_tests_cant": "Needs histories crossing expiry.", "anchors": ["authorizerd.go:authorize", "role/processor.go:validate", "access/claim.go:Valid"]}
{"id": "C39", "title": "A certificate-bound access token is useless without the certificate", "statement": "With certificate binding enabled, no request presenting the access token (in any header, with or without other text) without the bound certificate is granted.", "quantifier": "every history of calls and every attacker-chosen request", "why_tests_cant": "Attacker-chosen strings in unbounded histories.", "anchors": ["authorizerd.go:authorize", "access/processor.go:validateCertificateBoundAccessToken"]}
{"id": "C40", "title": "Empty action or resource is refused", "statement": "With policy checks enabled a token request with an empty action or resource fails with the invalid-parameter error, for every token and every cache content, and changes nothing.", "quantifier": "every token, certificate, cache state", "why_tests_cant": "All states.", "anchors": ["authorizerd.go:authorize"]}
{"id": "C41", "title": "Verify and Authorize combine credentials with OR", "statement": "Verify succeeds exactly if one of the enabled credential checks succeeds, checking in the fixed order role certificate, access token, role token; Authorize succeeds in the same cases and returns the principal of the first success; otherwise both return the invalid-credentials error.", "quantifier": "every request, configuration and state", "why_tests_cant": "All combinations of credentials and configurations.", "anchors": ["authorizerd.go:Verify", "authorizerd.go:Authorize", "authorizerd.go:initAuthorizers"]}
{"id": "C42", "title": "An enabled role certificate check can succeed", "statement": "If role certificates are enabled and the peer certificates carry a role that VerifyRoleCert accepts, then Verify accepts the request.", "quantifier": "every request whose role certificate VerifyRoleCert accepts", "why_tests_cant": "The contract ranges over all certificates and policies.", "anchors": ["authorizerd.go:initAuthorizers", "authorizerd.go:AuthorizeRoleCert", "authorizerd.go:VerifyRoleCert"]}
{"id": "C43", "title": "Role certificate verification", "statement": "VerifyRoleCert grants exactly if, for some domain named by the peer certificates, the roles of that domain taken from common names '<domain>:role.<role>' and URIs '<prefix><domain>/<role>' pass the policy check; every such role is taken into account once, and the verdict does not depend on map iteration order.", "quantifier": "every list of certificates, every policy, every iteration order", "why_tests_cant": "All certificate chains and orders.", "anchors": ["authorizerd.go:VerifyRoleCert"]}
{"id": "C44", "title": "Disabling the policy daemon disables only the policy check", "statement": "With policy checks disabled, token requests are decided by token validation alone (any action/resource, also empty), and a role certificate request is still refused unless it carries a role certificate.", "quantifier": "every request", "why_tests_cant": "All requests.", "anchors": ["authorizerd.go:authorize", "authorizerd.go:VerifyRoleCert"]}
{"id": "C45", "title": "The principal reports what the token says", "statement": "On success the principal's name, domain, roles, issue and expiry times (and client id) are those of the token validated, and the authorized roles are a non-empty sub-collection of its roles.", "quantifier": "every successful call", "why_tests_cant": "All tokens and policies.", "anchors": ["authorizerd.go:authorize", "principal.go"]}
{"id": "C46", "title": "Translation applies the first matching rule", "statement": "Translate returns the action and substituted resource of the first rule of the domain whose method, path and query match, and the request unchanged if there is none; a rule matches exactly if methods agree up to case, path segments agree one by one with placeholders standing for any segment, and query parameters agree one to one with single values.", "quantifier": "every rule set, domain, method, path, query", "why_tests_cant": "All rule sets and requests.", "anchors": ["translator.go:Translate"]}
{"id": "C47", "title": "Translation is deterministic", "statement": "For a given rule set and request Translate always returns the same result, which is the resource template with each placeholder replaced by the request's value.", "quantifier": "every rule set, request and map iteration order", "why_tests_cant": "Go randomises the iteration order.", "anchors": ["translator.go:Translate"]}
{"id": "C48", "title": "Validated rule sets are well formed", "statement": "NewMappingRules accepts only rule sets in which every rule has method, action and resource, a path that is empty or starts with '/', and in which no placeholder occurs twice among the path segments and query values of a rule, independent of iteration order.", "quantifier": "every rule set and iteration order", "why_tests_cant": "All rule sets.", "anchors": ["translator.go:NewMappingRules", "translator.go:validate", "translator.go:isPlaceholder"]}
{"id": "C49", "title": "Logs never contain signatures", "statement": "The masked token written to the log is either a fixed message or the part of the token before its signature marker and the masked cache key does not contain the token; masking never panics.", "quantifier": "every token, mode and key", "why_tests_cant": "All strings.", "anchors": ["mask.go:maskToken", "mask.go:maskCacheKey"]}
{"id": "C50", "title": "The Athenz server is always contacted over https", "statement": "Whatever string is given as Athenz URL, it is either rejected or stored without scheme, so that every request URL built from it starts with https:// followed by a text without scheme.", "quantifier": "every URL string", "why_tests_cant": "All strings.", "anchors": ["internal/url/util.go:TrimHTTPScheme", "internal/url/util.go:HasScheme", "option.go:WithAthenzURL", "policy/option.go:WithAthenzURL", "pubkey/option.go:WithAthenzURL", "jwk/option.go:WithAthenzJwksURL"]}
{"id": "C51", "title": "A failed refresh is always retried", "statement": "In the background updaters, after any history, a refresh that failed has a retry pending (without waiting for the next period), the retry queue never holds more than one entry, and offering a retry never blocks.", "quantifier": "every interleaving of ticks, retries, failures and cancellation", "why_tests_cant": "The Go scheduler picks the interleaving; a unit test sees one interleaving per run.", "anchors": ["policy/daemon.go:Start", "pubkey/daemon.go:Start", "jwk/daemon.go:Start"]}
{"id": "C52", "title": "Refreshing does not depend on somebody reading the error channel", "statement": "The background updaters keep refreshing and stop on cancellation even if nobody reads the error channel.", "quantifier": "every history of failures without reader", "why_tests_cant": "Needs more than 100 failures and a missing reader.", "anchors": ["policy/daemon.go:Start", "pubkey/daemon.go:Start", "jwk/daemon.go:Start", "authorizerd.go:Start"]}
{"id": "C53", "title": "The JWK updater reports every failure", "statement": "Every failed JWK refresh is contained in an error delivered on the channel or held back to be delivered with a later one or at shutdown; none is lost or duplicated and order is kept.", "quantifier": "every interleaving of failures and reads", "why_tests_cant": "The Go scheduler picks the interleaving; a unit test sees one interleaving per run.", "anchors": ["jwk/daemon.go:Start"]}
{"id": "C54", "title": "Init initializes in dependency order and reports failure", "statement": "Init returns nil exactly if every enabled daemon's update ran and succeeded and neither goroutine saw the context cancelled; policies are fetched only after the public keys were; a disabled daemon is never touched; Init returns only after both goroutines have ended, with the error that was the first one to be reported.", "quantifier": "every interleaving of the two initialisation goroutines and every outcome", "why_tests_cant": "The Go scheduler picks the interleaving; a unit test sees one interleaving per run.", "anchors": ["authorizerd.go:Init"]}
{"id": "C55", "title": "The retrying transport", "statement": "RoundTrip calls the transport at most maxRetryCount times, returns at once on a non-temporary error or a non-retryable response, never sleeps past the time limit, and returns a response whose body the caller can read.", "quantifier": "every sequence of transport outcomes, every configuration", "why_tests_cant": "Arbitrary outcome sequences.", "anchors": ["client/exp_rt.go:RoundTrip", "client/exp_rt.go:canRetry"]}
{"id": "C56", "title": "An authorizer that New returned can serve requests", "statement": "If New succeeds then no request to an enabled credential check can crash with a nil dereference.", "quantifier": "every configuration and request", "why_tests_cant": "All option combinations.", "anchors": ["authorizerd.go:New", "authorizerd.go:initAuthorizers", "policy/option.go:WithPubKeyProvider"]}
{"id": "C57", "title": "Options", "statement": "The configuration is the result of the defaults overridden by the given options, the last one winning; an option error makes New fail; options for different settings commute.", "quantifier": "every option list", "why_tests_cant": "All option lists.", "anchors": ["option.go", "authorizerd.go:New"]}
{"id": "C58", "title": "Errors of the child daemons reach the caller", "statement": "Start forwards every error of every child daemon to the returned channel, each once, those of one daemon in order, nothing else, until the context is cancelled, and then reports the cancellation as the last item and closes the channel.", "quantifier": "every interleaving of the child daemons, the forwarder and the reader", "why_tests_cant": "The Go scheduler picks the interleaving; a unit test sees one interleaving per run.", "anchors": ["authorizerd.go:Start"]}
{"id": "C59", "title": "No algorithm confusion", "statement": "An access token is accepted only with an algorithm for the kind of key that verified it: HMAC algorithms only under a symmetric key of the key set, never under a public key, and the algorithm none never.", "quantifier": "every token, header and key set", "why_tests_cant": "All headers and key sets.", "anchors": ["access/processor.go:ParseAndValidateOAuth2AccessToken", "access/processor.go:keyFunc"]}
{"id": "C60", "title": "What New accepts can be started", "statement": "If New succeeds, Start and the daemons and updates behind it do not crash because of a duration in the configuration.", "quantifier": "every option list", "why_tests_cant": "All duration texts and cache lifetimes, including zero and negative ones.", "anchors": ["authorizerd.go:New", "authorizerd.go:Start", "policy/daemon.go:Start", "policy/daemon.go:Update", "pubkey/daemon.go:Start", "jwk/daemon.go:Start"]}
{"id": "C61", "title": "The daemons have an HTTP client", "statement": "A daemon returned by the constructor of its package, or made by authorizerd.New, has an HTTP client; giving nil selects the default one.", "quantifier": "every option list", "why_tests_cant": "All option lists.", "anchors": ["pubkey/option.go:WithHTTPClient", "jwk/option.go:WithHTTPClient", "policy/option.go:WithHTTPClient", "option.go:WithHTTPClient"]}
{"id": "C62", "title": "Every grant goes back to documents signed with published keys", "statement": "In the assembled authorizer, with all daemons, fetchers and calls running concurrently, whenever a token request is granted, a request with the same cache key carried a token that was valid and signed with a published ZTS key (role token) or a key from a configured JWK URL (access token) at the moment of validation, and each authorized role is allowed by an assertion of a policy that was received for a configured domain, unexpired, and signed with a ZTS and a ZMS key published before; without published keys of both services nothing is granted.", "quantifier": "every interleaving of all components, every answer of the servers, every request", "why_tests_cant": "Needs all components at once under every interleaving and every server answer.", "anchors": ["authorizerd.go:New", "authorizerd.go:authorize", "policy/daemon.go:Update", "policy/daemon.go:CheckPolicyRoles", "policy/fetcher.go:FetchWithRetry", "policy/signed_policy.go:Verify", "pubkey/daemon.go:Update", "jwk/daemon.go:Update"]}
{"id": "C63", "title": "Roles of a domain are granted only by the policy of that domain", "statement": "Each authorized role of a principal is granted by an assertion of the policy that was received for the principal's own domain.", "quantifier": "every interleaving of all components, every answer of the servers, every request", "why_tests_cant": "Needs answers in which the signed policy of one domain is served for another.", "anchors": ["policy/fetcher.go:Fetch", "policy/signed_policy.go:Verify", "policy/daemon.go:fetchAndCachePolicy"]}
{"id": "C64", "title": "The kind of credential does not change what a request means", "statement": "With the same policies, action and resource, a role certificate and a token for the same roles of the same domain are granted the same: translation, resource prefix and the refusal of empty parameters apply to both.", "quantifier": "every configuration, certificate list, policy, action and resource, every iteration order and schedule", "why_tests_cant": "Needs pairs of calls under all configurations and policies.", "anchors": ["authorizerd.go:VerifyRoleCert", "authorizerd.go:authorize"]}
{"id": "C65", "title": "A policy update always returns, with an error only for a reason", "statement": "Among any other updates, refreshes, checks and cancellations every call of Update returns and leaves no goroutine behind, after a number of steps bounded by the size of the documents; unless its context is cancelled it returns nil exactly if every configured domain has a policy and the resource of every assertion names a domain.", "quantifier": "every interleaving, every set of documents, every other activity of the daemon", "why_tests_cant": "The Go scheduler picks the interleaving; a unit test sees one interleaving per run.", "anchors": ["policy/daemon.go:Update", "policy/daemon.go:fetchAndCachePolicy", "policy/daemon.go:simplifyAndCachePolicy"]}
{"id": "C66", "title": "A check works on the assertions that it looked up", "statement": "The assertions that a policy check reads for a role are those that were stored for the role when it looked them up, whatever updates and refreshes do to the cache in the meantime; a refresh never changes a list that a check is reading.", "quantifier": "every interleaving of any number of goroutines that fill a cache and workers of checks that read it, every amount of spare room that append leaves", "why_tests_cant": "The Go scheduler picks the interleaving; a unit test sees one interleaving per run.", "anchors": ["policy/daemon.go:fetchAndCachePolicy", "policy/daemon.go:CheckPolicyRoles"]}
{"id": "C67", "title": "A successful update brings what the policy server says now", "statement": "After an Update that returned nil, whatever is granted by a check that begins to read the policies then is allowed by policies which the policy server delivered, or confirmed as not modified, after that Update was called.", "quantifier": "every interleaving of all components, every answer of every server, every number of concurrent updates, refreshes and checks", "why_tests_cant": "The Go scheduler picks the interleaving; a unit test sees one interleaving per run.", "anchors": ["policy/daemon.go:Update", "policy/daemon.go:fetchAndCachePolicy", "policy/fetcher.go:FetchWithRetry", "policy/fetcher.go:Fetch"]}
{"id": "C68", "title": "A policy check decides as the policies say that are in force", "statement": "Whenever the policy check of a call returns without the context being cancelled, its outcome (the authorized roles, or which error) is what the policies prescribe that the last Update to have returned nil at some moment during the call got for all configured domains, as long as these have not expired; those policies were received with valid signatures.", "quantifier": "every interleaving of all components, every answer of every server, every number of concurrent updates, checks and calls", "why_tests_cant": "The Go scheduler picks the interleaving; a unit test sees one interleaving per run.", "anchors": ["authorizerd.go:authorize", "policy/daemon.go:CheckPolicyRoles", "policy/daemon.go:Update", "policy/daemon.go:fetchAndCachePolicy", "policy/fetcher.go:FetchWithRetry"]}
{"id": "C69", "title": "Every authorization call returns, and what token and policies allow is granted", "statement": "Whatever daemons, fetchers and other calls do, every policy check, every call of authorize and every call of Verify or Authorize returns; a call whose token is valid while it runs and for which the policies in force while it runs allow one of its roles and deny none of them the request is granted, unless its context is cancelled.", "quantifier": "every infinite interleaving of all components in which what can go on goes on at some time", "why_tests_cant": "The Go scheduler picks the interleaving; a unit test sees one interleaving per run.", "anchors": ["authorizerd.go:authorize", "authorizerd.go:Verify", "authorizerd.go:Authorize", "policy/daemon.go:CheckPolicyRoles"]}
{"id": "C70", "title": "VerifyRoleCert grants exactly what the policies in force allow the roles named in the certificates", "statement": "While daemons and fetchers go on, a call of VerifyRoleCert that returns nil does so because a policy received with valid signatures for a configured domain allows the request to a role that the certificates name; if the same policies are in force during the call, it returns nil exactly if for some domain they allow the request to one of the roles named for it and deny it to none of them; certificates that name no role are refused without a check, and every call returns.", "quantifier": "every interleaving of the call with all daemons, fetchers, updates and other calls; all certificates and policies; every order in which the domains are visited", "why_tests_cant": "The Go scheduler picks the interleaving; a unit test sees one interleaving per run.", "anchors": ["authorizerd.go:VerifyRoleCert", "policy/daemon.go:CheckPolicyRoles", "policy/daemon.go:Update"]}
{"id": "C71", "title": "GetPolicyCache shows the policies that are in force", "statement": "Whatever a call of GetPolicyCache shows for a role stems from policies received with valid signatures for a configured domain, denying assertions first; one call shows one version of the policies although updates go on; and if its context is not done, it shows exactly what the policies say that were in force when it was called, as long as these have not expired; without the policy daemon it shows nothing.", "quantifier": "every interleaving of the call with all daemons, fetchers, updates and other calls; every moment at which an entry is read; all policies", "why_tests_cant": "The Go scheduler picks the interleaving; a unit test sees one interleaving per run.", "anchors": ["authorizerd.go:GetPolicyCache", "policy/daemon.go:GetPolicyCache", "policy/daemon.go:Update"]}
{"id": "C72", "title": "Policy changes take effect", "statement": "When the policy servers give new policies from some moment on and Update is called again and again, every call of FetchWithRetry and of Update returns, a call of Update made after the change returns nil, and from some moment on exactly the new policies are in force: every later check decides as they say, so that a withdrawn permission is refused and a new one granted.", "quantifier": "every infinite interleaving of all components in which what can go on goes on at some time and requests end; every policies; every number of concurrent updates, also of such that were called before the change", "why_tests_cant": "Liveness: a unit test sees one finite run.", "anchors": ["policy/daemon.go:Update", "policy/daemon.go:fetchAndCachePolicy", "policy/fetcher.go:FetchWithRetry", "policy/fetcher.go:Fetch", "policy/daemon.go:CheckPolicyRoles"]}
{"id": "C73", "title": "How long a withdrawn permission is granted", "statement": "A granted call was decided by policies that were in force while it was running, or took the result of a call for the same cache key that was decided so and stored no longer than the lifetime of cached results before. So, when only certain policies are in force from some moment on, all calls that had begun before have returned and the lifetime of cached results has passed since, every call that begins then, and every Verify or Authorize, is granted only what these policies allow; and after a change of the policies this moment comes.", "quantifier": "The Go scheduler picks the interleaving; a unit test sees one interleaving per run.", "why_tests_cant": "The bound is over all interleavings of updates, calls and the clock; the tests of the cache use one call after the other and never change the policy.", "anchors": ["authorizerd.go:authorize", "authorizerd.go:New", "policy/daemon.go:Update"]}
{"id": "C74", "title": "The bodies of responses are closed", "statement": "Whatever a server answers, when the policy fetcher, the public key daemon and the retrying transport are done with a response its body has been closed, exactly once, so that the connection can be used again; only the transport may leave open the body of the response that it returns.", "quantifier": "every history of requests and answers, every status and body, every read that fails, every amount of data that the JSON decoder takes", "why_tests_cant": "The leak shows only with error answers or broken connections, and the tests use recorders whose bodies need no closing.", "anchors": ["policy/fetcher.go:Fetch", "policy/fetcher.go:flushAndClose", "pubkey/daemon.go:fetchPubKeyEntries", "client/exp_rt.go:RoundTrip"]}
{"id": "C75", "title": "A started policy daemon follows the policy servers by itself", "statement": "The goroutine that Start begins calls Update again and again as long as its context is not cancelled and its errors are read, whatever Update returns and whoever else calls it, and never makes a call while an earlier one of its own is running; so, without any other caller, policies that the servers give from some moment on come into force and stay in force.", "quantifier": "every infinite interleaving of the goroutine with all components, in which what can go on goes on at some time, requests end and the ticker goes on; every outcome of every update", "why_tests_cant": "The Go scheduler picks the interleaving; a unit test sees one interleaving per run.", "anchors": ["policy/daemon.go:Start", "policy/daemon.go:Update", "authorizerd.go:Start"]}
{"id": "C76", "title": "A change of the public keys comes into use and stays", "statement": "If a key server has a new key list from some moment on and again and again an update of the keys gets an answer from it (the list with its version, or that the version named in the request is unchanged), then from some moment on every lookup gives exactly what the new list publishes: keys added are found, keys withdrawn are not. Every update that has begun ends.", "quantifier": "every infinite interleaving of any number of overlapping updates in which goroutines that can go on go on at some time and requests end; every order in which the maps are walked; every key list and every failure in between", "why_tests_cant": "The Go scheduler picks the interleaving; a unit test sees one interleaving per run.", "anchors": ["pubkey/daemon.go:Update", "pubkey/daemon.go:fetchPubKeyEntries", "pubkey/daemon.go:getPubKey", "pubkey/option.go:WithETagExpiry"]}
{"id": "C77", "title": "A change of a set of JSON web keys comes into use and stays", "statement": "If the server of a configured JWK URL gives a new key set from some moment on and again and again an update gets it, then from some moment on every lookup for the URL finds exactly the keys of the new set; every update that has begun ends; and once answers received have been stored, what lookups for a URL find does not change as long as requests to it fail.", "quantifier": "every infinite interleaving of any number of overlapping updates in which goroutines that can go on go on at some time and requests end; every key set and every failure in between", "why_tests_cant": "The Go scheduler picks the interleaving; a unit test sees one interleaving per run.", "anchors": ["jwk/daemon.go:Update", "jwk/daemon.go:getKey", "jwk/daemon.go:Start"]}
{"id": "C78", "title": "How long a token signed with a withdrawn key is granted", "statement": "The token of a granted call was valid under the keys that the daemons handed out at some moment while the call was running, or the call took the result of a call for the same cache key, for which that holds, stored no longer than the lifetime of cached results before. So, when from some moment on the daemons hand out only certain keys, all calls that had begun before have returned and the lifetime of cached results has passed since, every call that begins then, and every Verify or Authorize, is granted only for a token that is signed with one of these keys; and after a change of the published keys this moment comes.", "quantifier": "every interleaving of all components, every answer of every server, every request; for the last part every infinite one in which what can go on goes on at some time and requests end", "why_tests_cant": "The bound is over all interleavings of key updates, calls and the clock; the tests of the cache never change the keys.", "anchors": ["authorizerd.go:authorize", "pubkey/daemon.go:Update", "jwk/daemon.go:Update", "role/processor.go:ParseAndValidateRoleToken", "access/processor.go:ParseAndValidateOAuth2AccessToken"]}
{"id": "C79", "title": "A started authorizer follows its servers by itself", "statement": "As long as the context of Start is not cancelled and somebody reads the errors, each of its daemons calls Update again and again, whatever the updates return, and the key daemon does not begin one while another of its own runs. So, without any other caller than Init before Start, policies that the policy servers give from some moment on come into force, public keys and sets of JSON web keys come into use, and they stay; and some time after a key was withdrawn, tokens signed with it are no longer granted. The JWK daemon needs no reader of the errors.", "quantifier": "every infinite interleaving of the goroutines of Start with all components, in which what can go on goes on at some time, requests end and tickers go on; every outcome of every update; every set of enabled daemons", "why_tests_cant": "The Go scheduler picks the interleaving; a unit test sees one interleaving per run.", "anchors": ["authorizerd.go:Start", "authorizerd.go:Init", "policy/daemon.go:Start", "pubkey/daemon.go:Start", "jwk/daemon.go:Start", "pubkey/daemon.go:Update", "jwk/daemon.go:Update"]}
{"id": "C80", "title": "Start ends when its context is cancelled", "statement": "After the context given to Start is cancelled no further update is begun, every goroutine that Start began returns, and the last item of the returned channel is the error of the context.", "quantifier": "every infinite interleaving of the goroutines of Start with all components, in which what can go on goes on at some time, requests end, the channel is read and a select that again and again could see the cancellation sees it; every outcome of every update; every set of enabled daemons", "why_tests_cant": "Needs a hundred failures in a row, or a select with two ready cases that is decided at random; the tests cancel daemons that have nothing to do.", "anchors": ["authorizerd.go:Start", "policy/daemon.go:Start", "pubkey/daemon.go:Start", "jwk/daemon.go:Start"]}
{"id": "C81", "title": "Without news from the policy servers the last policies stay in force, even expired ones", "statement": "If from some moment on requests for policies fail or bring nothing new, every Update called later returns nil, and the policies that were last received stay in force for ever, also after they have expired: once an Update was called after their expiry, every later check decides as they say and every call with a valid token is granted what they allow. So a call made when every policy ever received has expired need not be refused.", "quantifier": "every infinite interleaving of all components in which what can go on goes on at some time and requests end; every way in which requests fail; every policy, request and caller", "why_tests_cant": "The Go scheduler picks the interleaving; a unit test sees one interleaving per run.", "anchors": ["policy/fetcher.go:FetchWithRetry", "policy/daemon.go:fetchAndCachePolicy", "policy/daemon.go:Update", "policy/daemon.go:CheckPolicyRoles"]}
{"id": "C82", "title": "What a refreshed policy denies is denied", "statement": "When the refresh of an expired policy cache entry has ended without error, then as long as the policy document that it got is valid and no Update succeeds, no check that begins is granted what the document denies.", "quantifier": "every interleaving of refreshes, updates, expiries and checks; every document and request", "why_tests_cant": "Two refreshes of one domain run whenever two of its roles expire together, and lose each other's writes only in some interleavings.", "anchors": ["policy/daemon.go:Update", "policy/daemon.go:simplifyAndCachePolicy", "policy/daemon.go:CheckPolicyRoles"]}
{"id": "C83", "title": "Changed policies decide about role certificates", "statement": "From some moment after the policies changed at the servers on, every call of VerifyRoleCert that begins returns, and it grants access exactly if the new policies allow the request to the roles of the certificates, as long as they have not expired and the call is not cancelled.", "quantifier": "every execution; every change of policies at the servers; every set of certificates and every request", "why_tests_cant": "Whether an old policy still decides depends on how running updates, refreshes and the checks of a call, one per domain, interleave.", "anchors": ["authorizerd.go:VerifyRoleCert", "policy/daemon.go:Update", "policy/daemon.go:CheckPolicyRoles"]}
{"id": "C84", "title": "Durations given as text mean what they say", "statement": "Every option of New that takes a duration accepts any sequence of decimal numbers, with or without a fraction, each followed by a unit (ns, us, ms, s, m, h), and the setting becomes their sum; with a minus sign before it, its negative. No other text than these and the digit 0 is accepted; New returns an error for it.", "quantifier": "every text, every number of parts, every total below 2^63 ns", "why_tests_cant": "The texts are an infinite language; the tests of the options use a handful of them.", "anchors": ["option.go:WithPolicyRefreshPeriod", "policy/option.go:WithRefreshPeriod", "pubkey/option.go:WithRefreshPeriod", "jwk/option.go:WithRefreshPeriod", "access/option.go:WithClientCertificateGoBackSeconds"]}
{"id": "C85", "title": "The retrying transport pauses longer and longer between attempts, and not for ever", "statement": "Between two attempts the transport pauses: (2n+1)/factor² seconds after attempt n, so that k pauses take k²/factor² seconds; all pauses together are shorter than the configured limit, so that temporary errors are given up on however many attempts are allowed.", "quantifier": "every back-off factor, number of attempts and time limit; every sequence of answers and errors; every clock that goes on while the transport sleeps", "why_tests_cant": "The sums are over sequences of any length; the tests of the transport use one or two attempts.", "anchors": ["client/exp_rt.go:NewExponentialRoundTripper", "client/exp_rt.go:RoundTrip", "client/exp_rt.go:calNextWaitDur"]}
{"id": "C86", "title": "What a caller does with its principal does not reach other callers", "statement": "Name, roles, domain, times, client ID and authorized roles of the principal that a call returned stay what the call found, whatever callers do with the lists that they got from it or from the principals of other calls; a caller that appends to such a list has exactly what it appended; and no decision depends on what callers do with principals.", "quantifier": "every interleaving of calls, hits in the result cache, expiry and callers that set elements of the lists or append to them; every amount of spare room in the arrays", "why_tests_cant": "Needs two callers that get the same cached principal, one of which changes the list it was given; appends clash only if not all roles of the token were authorized.", "anchors": ["principal.go:Roles", "principal.go:AuthorizedRoles", "authorizerd.go:authorize", "policy/daemon.go:CheckPolicyRoles"]}
{"id": "C87", "title": "A query means the parameters that it encodes", "statement": "A query is read exactly if it consists of parameters with valid escapes and without semicolons, and then it stands for these parameters, decoded, each key with its values in order; the first rule that matches the decoded parameters translates the request, with decoded values for its placeholders; a query that repeats a key matches no rule; a query that cannot be read is an error if some rule has the method and the number of segments of the request; and queries that encode the same parameters, in whatever order and with whatever escapes, are translated the same.", "quantifier": "every query text, every decoding of bytes from 128 on; every set of rules, request and order of maps", "why_tests_cant": "There are infinitely many ways to write the same parameters; the tests use queries without escapes, in one order.", "anchors": ["translator.go:Translate", "translator.go:validate"]}
{"id": "C88", "title": "The policy daemon has no data races", "statement": "Whatever users do, two accesses of the policy daemon to the pointer to its cache, to the pointers of its fetchers and to what these point to are ordered by happens-before if one of them writes and not both are atomic. In particular: checks never take part in a data race; a policy that was fetched is complete before any other goroutine sees it; and with Updates one after the other that are not cancelled, and without hooks, there is no data race at all.", "quantifier": "every list of domains; every schedule of any number of goroutines that call Update and checks, with cancelled and failing Updates, hooks of expired entries, debug logs, and every outcome of every request", "why_tests_cant": "The race detector sees the schedules that happen to run; the tests have no expired entries while an Update runs, and no cancelled Update followed by another.", "anchors": ["policy/daemon.go:Update", "policy/daemon.go:CheckPolicyRoles", "policy/fetcher.go:Fetch", "policy/fetcher.go:FetchWithRetry"]}
{"id": "C89", "title": "Expired policies are fetched again", "statement": "If nobody cancels a context, then whenever a lookup finds that an entry of the policies in use has expired, the hook is called for it, which fetches the policy again, or the policies are replaced by those of another Update. Policies that were replaced are never used again.", "quantifier": "every capacity of the channel of expired keys; every fair infinite execution of any number of Updates, of Init or not, lookups, sweeps, hooks and ticks of the clock", "why_tests_cant": "The tests call Update with a context that stays alive; that Init passes on a context which its errgroup cancels as soon as Init is done shows only when entries expire later.", "anchors": ["policy/daemon.go:Update", "policy/daemon.go:CheckPolicyRoles", "authorizerd.go:Init"]}
{"id": "C90", "title": "Lookups of policies return", "statement": "If nobody cancels a context, every lookup of a role in the policy cache returns; when it returns, it has found the role exactly if there was an entry that was not expired when it looked.", "quantifier": "every capacity of the channel of expired keys; every fair infinite execution of any number of Updates, of Init or not, lookups, sweeps, hooks and ticks of the clock", "why_tests_cant": "A lookup blocks only when more entries have expired than the channel has room for and the goroutine that should take them is gone; the tests have a handful of entries and contexts that stay alive.", "anchors": ["policy/daemon.go:CheckPolicyRoles", "policy/daemon.go:Update", "authorizerd.go:Init"]}
{"id": "C91", "title": "Goroutines for expired policies do not pile up", "statement": "Of the goroutines that wait for expired entries, one for each Update that got as far as starting it, those that nobody has told to end are: that of the policies in use, and at most one for each call of Update at work; with no call at work there is at most one. A goroutine that is told to end, as its context is done or its policies are replaced, ends.", "quantifier": "every capacity of the channel; every schedule of any number of Updates that overlap, fail and are cancelled, lookups and hooks; fair infinite executions for the last part", "why_tests_cant": "Tests run a few Updates and do not count goroutines; a leak shows after days of periodic updates.", "anchors": ["policy/daemon.go:Update", "policy/daemon.go:Start"]}
{"id": "C92", "title": "What a caller does with the map from GetPolicyCache does not change decisions", "statement": "GetPolicyCache answers with what checks find at that moment, and whatever callers do with the maps that they got (delete and replace entries, cut and append to slices, write elements and fields of the assertions), checks find and return what they would without those callers.", "quantifier": "every number of callers and calls, every sequence of edits, interleaved in every way with the goroutines that store assertions, with expiry and with the exchange of the cache object", "why_tests_cant": "The tests compare the map with an expected one and drop it. That the map shares arrays and records with the cache shows only when a caller writes to it, and for appends only when the array happens to have room.", "anchors": ["policy/daemon.go:GetPolicyCache", "authorizerd.go:GetPolicyCache", "policy/daemon.go:simplifyAndCachePolicy"]}
{"id": "C93", "title": "A cancelled policy update ends at once, and no update takes for ever", "statement": "FetchWithRetry makes at most retryAttempts + 1 requests and ends after the time that they take and one pause of retryDelay for each that failed; an Update ends with the slowest of its domains, so at most retryAttempts + 1 times the longest request and a pause after its beginning. When the context is cancelled, an Update that is called later returns at once, and one that is running returns as soon as its requests have ended.", "quantifier": "every number of domains and attempts, every pause, every server, every moment of cancellation", "why_tests_cant": "The unit tests use pauses of milliseconds and do not cancel a fetch between two attempts; the time that is lost after a cancellation grows with the number of attempts left.", "anchors": ["policy/fetcher.go:FetchWithRetry", "policy/daemon.go:Update"]}
{"id": "C94", "title": "How old the policies and keys in use can be", "statement": "As long as the context of Start is not cancelled, each daemon makes one update after the other; after every moment one begins within the refresh period, or the time of the longest update and a pause if that is longer. So, when a server has something new from some moment on and updates that begin later succeed, then after that time and the time of one more update exactly the new is in use; for policies an update takes at most retryAttempts + 1 times the longest request and a pause. Servers are asked once for each period and once for each failure, no more; an update begins at once if there is a failure to make up for or a tick that was not yet received, and else at the next tick.", "quantifier": "every period, pause and number of attempts, every duration and outcome of every update, every choice of the select", "why_tests_cant": "The bound is over all sequences of outcomes; tests run a daemon for a few periods with updates that take no time.", "anchors": ["policy/daemon.go:Start", "pubkey/daemon.go:Start", "jwk/daemon.go:Start", "policy/daemon.go:Update", "policy/fetcher.go:FetchWithRetry"]}
{"id": "C95", "title": "After an update that failed the next one begins retryDelay later", "statement": "When an update of a daemon has failed, the next one begins neither sooner nor later than the configured pause after its end.", "quantifier": "every period, pause and number of attempts, every duration and outcome of every update, every choice of the select", "why_tests_cant": "That there is no pause shows only in the times of requests, which the tests do not look at.", "anchors": ["policy/daemon.go:Start", "pubkey/daemon.go:Start", "jwk/daemon.go:Start", "policy/fetcher.go:FetchWithRetry"]}
{"id": "C96", "title": "The pauses of the retrying transport are computed right", "statement": "Whatever the back-off factor, the pause after attempt n as computed with floating point numbers is (2n+1)/factor² seconds up to rounding (a part in 2^50 and one nanosecond), and never negative; a later pause is never shorter than an earlier one.", "quantifier": "every back-off factor and every attempt number; rounding to 53 bits, overflow and the conversion to an integer included", "why_tests_cant": "The tests compare a few pauses with the same formula; rounding and conversions that overflow are not among them.", "anchors": ["client/exp_rt.go:NewExponentialRoundTripper", "client/exp_rt.go:calNextWaitDur", "client/exp_rt.go:RoundTrip"]}
{"id": "C97", "title": "A permission that is withdrawn or a key that is revoked at the server stops counting after a known time", "statement": "If the server answers the same from t on, updates succeed and take at most U, and no call stores its result later than L after it began, then every call of Verify, Authorize, VerifyRoleToken or AuthorizeAccessToken that begins later than one period (or U and a pause) + U + L + the lifetime of results after t is granted only roles that the server's policies since t allow, and only for a token that is valid under the keys since t; for VerifyRoleCert, whose results are not kept, L and the lifetime are left out.", "quantifier": "every run of any number of calls, with every interleaving, every server, period, pause, lifetime and every duration of updates and calls", "why_tests_cant": "A test would have to wait for a refresh, a slow call and a cached result one after the other, for each order in which they can meet.", "anchors": ["policy/daemon.go:Start", "policy/daemon.go:Update", "policy/daemon.go:CheckPolicyRoles", "pubkey/daemon.go:Start", "jwk/daemon.go:Start", "authorizerd.go:authorize"]}
{"id": "C98", "title": "The cache of results does not pile up", "statement": "While Start sweeps the cache of results at least every P, whatever is in it, valid or not, was stored at most the lifetime of results and P ago, so that it never has more entries than calls were granted by a check of their own in that time.", "quantifier": "every run of any number of calls and sweeps, with every interleaving, every lifetime and every P; sweeps may be partial and spread over time", "why_tests_cant": "The tests store a few results and look them up again; how many entries stay over a long time is not observed.", "anchors": ["authorizerd.go:Start", "authorizerd.go:authorize"]}
{"id": "C99", "title": "Every refusal has a reason of its own, and permissions that are given count after a known time", "statement": "A call that returns an error was asked for nothing, or its token was not valid when it looked, or its translator refused, or its own policy check did; other calls and cached results are never the reason. If the policy server has given a permission from t on, updates succeed and take at most U, then no call that begins later than one period (or U and a pause) + U after t is refused by the policies for lack of it.", "quantifier": "every run of any number of calls, with every interleaving, every configuration, server, period and pause", "why_tests_cant": "The tests look at single refusals with a fixed cause; that nothing else can be the cause, and how long a new permission may be refused, cannot be enumerated.", "anchors": ["authorizerd.go:authorize", "policy/daemon.go:CheckPolicyRoles", "policy/daemon.go:Start", "policy/daemon.go:Update"]}
{"id": "C100", "title": "The number of retries and the expiry margin that are given are those on the wire", "statement": "If New is given a number n of policy retries, every policy fetch asks the server at most n + 1 times and exactly n + 1 times before it gives up; and a request names the ETag of the last policy exactly while that policy has more than the given expiry margin left. The last option about a setting counts; without one there are two retries and a margin of three hours.", "quantifier": "every list of options that New accepts, every n, every margin; every run of any number of fetches with every server", "why_tests_cant": "Tests set fields of the fetcher and of the daemon one by one; the way from the option of the library through two constructors to requests is in none of them.", "anchors": ["option.go:WithPolicyRetryAttempts", "authorizerd.go:New", "policy/option.go:WithRetryAttempts", "policy/daemon.go:New", "policy/fetcher.go:FetchWithRetry", "policy/fetcher.go:Fetch"]}
{"id": "C101", "title": "New policies decide in the running authorizer after a known time", "statement": "If the policy servers give the policies D from t on, nothing cancels the updates, and updates are called when the goroutine of Start calls them and each takes at most U, then later than one refresh period (or U and a pause) + U after t exactly D is in force in the assembled authorizer, every policy check that begins then decides as D says, and every call that begins when also the time in which calls store results and the lifetime of results have passed is granted only what D allows.", "quantifier": "every execution of the assembled authorizer with any number of calls, checks, fetches, refreshes and key updates in every interleaving; every period, pause, duration of updates and choice of the select", "why_tests_cant": "The bound joins the schedule of the goroutine, the fetches, the merge, the exchange of the cache and cached results; tests run each of them alone and without time.", "anchors": ["policy/daemon.go:Start", "policy/daemon.go:Update", "policy/daemon.go:CheckPolicyRoles", "policy/fetcher.go:FetchWithRetry", "authorizerd.go:authorize"]}
{"id": "C102", "title": "New JSON web keys are in use in the running authorizer after a known time", "statement": "If the servers of the configured URLs give the sets S of JSON web keys from t on, and the goroutine of the JWK daemon goes on without delay and each of its updates takes at most U, then later than one refresh period (or U and a pause) + U after t the authorizer finds exactly the keys of S, a call that validates an access token then goes on exactly if the token is good with the keys of S and bound to the certificate, and every call that begins when also the time in which calls store results and the lifetime of results have passed is granted only if a token with the same cache key is a role token or is signed with a key of S.", "quantifier": "every execution of the started authorizer with the goroutines of all daemons and any number of calls, checks, fetches and updates in every interleaving; every period, pause, duration of updates and choice of the select", "why_tests_cant": "The bound joins the schedule of the goroutine, requests to several servers, the key map, the verification of tokens and cached results; tests run each of them alone and without time.", "anchors": ["jwk/daemon.go:Start", "jwk/daemon.go:Update", "jwk/daemon.go:getKey", "access/processor.go:ParseAndValidateOAuth2AccessToken", "authorizerd.go:authorize"]}
{"id": "C103", "title": "New public keys are in use in the running authorizer after a known time", "statement": "If the server of a service has the keys K from t on (with an honest ETag) and answers, Init is over when Start begins, the goroutine of the public key daemon goes on without delay and each of its updates takes at most U, then later than one refresh period (or U and a pause) + U after t the authorizer finds exactly the keys K of that service, whatever ETags were remembered; a call that validates a role token then goes on exactly if the token is well formed, not expired and signed with the key that K gives for the key id it names; and every call that begins when also the time in which calls store results and the lifetime of results have passed is granted only if a token with the same cache key is an access token or a role token signed with the key that K gives for the key id it names.", "quantifier": "every execution of the started authorizer with the goroutines of all daemons and any number of calls, checks, fetches and updates in every interleaving; every period, pause, duration of updates, lifetime of ETags and choice of the select", "why_tests_cant": "The bound joins the schedule of the goroutine, two requests at the same time, ETags that stay over updates, the key maps, the verification of tokens and cached results; tests run each of them alone and without time.", "anchors": ["pubkey/daemon.go:Start", "pubkey/daemon.go:Update", "pubkey/daemon.go:fetchPubKeyEntries", "pubkey/daemon.go:getPubKey", "role/processor.go:ParseAndValidateRoleToken", "authorizerd.go:authorize"]}
{"id": "C104", "title": "Tokens signed with withdrawn keys are refused in the running authorizer after a known time", "statement": "If from t on ZTS has the keys K and the servers of the configured URLs give the sets S, and the goroutines of the public key daemon and of the JWK daemon go on without delay, then every call that begins later than one refresh period (or an update and a pause) + an update of either daemon, the time in which calls store results and the lifetime of results after t is granted only if a token with the same cache key is a role token signed with the key that K gives for the key id it names, or an access token signed with a key of S under the URL and the key id it names.", "quantifier": "every execution of the started authorizer with the goroutines of all daemons and any number of calls of any kind, checks, fetches and updates in every interleaving; every period, pause, duration of updates, lifetime of ETags and choice of the select", "why_tests_cant": "A test would have to wait for two tickers, two kinds of servers and the cache at once, for every order of the calls; the existing tests have one daemon with one answer and no time.", "anchors": ["authorizerd.go:Start", "authorizerd.go:authorize", "pubkey/daemon.go:Start", "pubkey/daemon.go:Update", "jwk/daemon.go:Start", "jwk/daemon.go:Update", "role/processor.go:ParseAndValidateRoleToken", "access/processor.go:ParseAndValidateOAuth2AccessToken"]}
{"id": "C105", "title": "New policies and new keys together decide in the running authorizer after a known time", "statement": "If from t on the servers have the policies D, ZTS has the keys K and the servers of the configured URLs give the sets S, and the goroutines of the three daemons go on without delay, then exactly D is in force later than one refresh period (or an update and a pause) + an update after t, and every call that begins later than that of every daemon, the time in which calls store results and the lifetime of results after t is granted only if for one request with the same cache key the token is signed with a key of K or S and D allows what the request asks for.", "quantifier": "every execution of the started authorizer with the goroutines of all daemons and any number of calls of any kind, checks, fetches and updates in every interleaving; every period, pause, duration of updates, lifetime of ETags and choice of the select", "why_tests_cant": "A test would have to wait for three tickers, three kinds of servers and the cache at once, for every order of the calls; the existing tests have one daemon with one answer and no time.", "anchors": ["authorizerd.go:Start", "authorizerd.go:authorize", "policy/daemon.go:Start", "policy/daemon.go:Update", "policy/daemon.go:CheckPolicyRoles", "pubkey/daemon.go:Start", "pubkey/daemon.go:Update", "jwk/daemon.go:Start", "jwk/daemon.go:Update"]}
