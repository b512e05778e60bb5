{
 "claims": [
  {
   "property": "C01",
   "status": "partial",
   "theorems": [
    "Athenz.C01_deny_overrides_partial",
    "Athenz.C01_local_partial",
    "Athenz.C01_refuted"
   ],
   "note": "False in full: two policies of one document with the same (role, action, resource) and opposite effects race in simplifyAndCachePolicy and the deny can be lost (C01_refuted). C01_deny_overrides_partial: proved for documents in which every policy that mentions a denied triple denies it, without commas in roles and actions. C01_local_partial: proved for one denied triple with this property, whatever else the documents contain. C10_exact shows that the condition is necessary."
  },
  {
   "property": "C02",
   "status": "partial",
   "theorems": [
    "Athenz.C02_decision_partial",
    "Athenz.C02_local_partial",
    "Athenz.C02_grant_sound",
    "Athenz.C02_refuted"
   ],
   "note": "Exact decision for the documents of C01, and for any documents that satisfy the condition for the caller's roles (C02_local_partial); the soundness of grants (C02_grant_sound) for all documents and schedules. False in full for the same race."
  },
  {
   "property": "C03",
   "status": "proved",
   "theorems": [
    "Athenz.C03_result",
    "Athenz.C03_schedule_independent"
   ],
   "note": ""
  },
  {
   "property": "C04",
   "status": "proved",
   "theorems": [
    "Athenz.C04_cancel_no_grant",
    "Athenz.C04_ctx_error_only_if_cancelled",
    "Athenz.C04_other_errors_true",
    "Athenz.C04_changing_cache"
   ],
   "note": ""
  },
  {
   "property": "C05",
   "status": "proved",
   "theorems": [
    "Athenz.C05_no_block",
    "Athenz.C05_progress",
    "Athenz.C05_bounded",
    "Athenz.C05_returns"
   ],
   "note": "About a view of the policies in which a lookup returns; lookups in the cache itself can block when it is full of expired entries, see C90."
  },
  {
   "property": "C06",
   "status": "proved",
   "theorems": [
    "Athenz.C06_glob"
   ],
   "note": ""
  },
  {
   "property": "C07",
   "status": "proved",
   "theorems": [
    "Athenz.C07_request_case",
    "Athenz.C07_assertion_case",
    "Athenz.C07_exact_role"
   ],
   "note": "Letter case is that of arbitrary lower/fold functions on characters."
  },
  {
   "property": "C08",
   "status": "partial",
   "theorems": [
    "Athenz.C08_unrelated_partial",
    "Athenz.C08_local_partial",
    "Athenz.C07_exact_role",
    "Athenz.C08_refuted"
   ],
   "note": "The full statement is false for the code (C08_refuted: commas make the key of the assertion map ambiguous, so that an assertion about another domain takes the place of the caller's). Proved for the documents of C01, and for documents that satisfy the condition for the caller's roles only (C08_local_partial); C07_exact_role shows for every cache that only the entries of the caller's roles matter."
  },
  {
   "property": "C09",
   "status": "proved",
   "theorems": [
    "Athenz.C09_newAssertion"
   ],
   "note": ""
  },
  {
   "property": "C10",
   "status": "partial",
   "theorems": [
    "Athenz.C10_exact",
    "Athenz.C10_no_deny_lost_partial",
    "Athenz.C10_atomic_partial",
    "Athenz.C10_merge_sound",
    "Athenz.C10_refuted",
    "Athenz.C10_comma_refuted"
   ],
   "note": "False in full: check-then-act race (C10_refuted) and ambiguous map key (C10_comma_refuted). C10_exact: without commas, the deny of a triple survives every interleaving if and only if every policy that mentions the triple denies it."
  },
  {
   "property": "C100",
   "status": "partial",
   "theorems": [
    "Athenz.C100_attempts_partial",
    "Athenz.C100_default",
    "Athenz.C100_negative",
    "Athenz.C100_margin",
    "Athenz.C100_refuted"
   ],
   "note": "Refuted: with WithPolicyRetryAttempts(0) a failed fetch makes three requests, as 0 counts as not given; for n other than 0 it is proved. A negative number turns policies off without an error from New: no request is ever sent (C100_negative). Margins of exactly -2^63 ns, which cannot be negated, are left out."
  },
  {
   "property": "C101",
   "status": "partial",
   "theorems": [
    "Athenz.C101_in_force",
    "Athenz.C101_requests",
    "Athenz.C101_check_partial",
    "Athenz.C101_withdrawn_partial",
    "Athenz.C101_paced",
    "Athenz.C101_goroutine",
    "Athenz.C101_goroutine_check_partial",
    "Athenz.C101_goroutine_withdrawn_partial",
    "Athenz.C101_refuted"
   ],
   "note": "What C97 and C99 assume about what checks see is proved here in the assembled model. C101_in_force and the two after it assume that updates are called and return at the times of Model/Pace (PacedUntil); C101_paced proves that for every execution of the assembled authorizer with the goroutine of the policy daemon in which the goroutine goes on without delay (InTime), and the theorems C101_goroutine are stated for these. Missing: policies that are not regular for the roles of the request, for which C101_refuted shows another decision however long one waits; L bounds how long calls take to store, without which C73_refuted applies."
  },
  {
   "property": "C102",
   "status": "proved",
   "theorems": [
    "Athenz.C102_in_use",
    "Athenz.C102_access",
    "Athenz.C102_paced",
    "Athenz.C102_goroutine",
    "Athenz.C102_goroutine_access",
    "Athenz.C102_accepts"
   ],
   "note": "C102_in_use and C102_access assume that updates are called and return at the times of Model/Pace (JwkPacedUntil); C102_paced proves that for every execution of the started authorizer (Model/Running) in which the goroutine of the JWK daemon goes on without delay (JwkInTime), and the theorems C102_goroutine and C102_accepts are stated for these; C102_accepts says exactly which access tokens a validation that happens late enough lets pass. From t on requests must succeed: sets do not expire (C77_unreachable). Calls that begin but store late count with the time in which calls store results (StoresWithin)."
  },
  {
   "property": "C103",
   "status": "proved",
   "theorems": [
    "Athenz.C103_in_use",
    "Athenz.C103_role",
    "Athenz.C103_paced",
    "Athenz.C103_goroutine",
    "Athenz.C103_goroutine_role",
    "Athenz.C103_accepts"
   ],
   "note": "C103_in_use and C103_role assume that updates are called and return at the times of Model/Pace (PkPacedUntil) and do not overlap (OneAtATime); C103_paced and C79_serial prove that for every execution of the started authorizer (Model/Running) with Init before Start (InitFirst) in which the goroutine of the public key daemon goes on without delay (PkInTime), and the theorems C103_goroutine and C103_accepts are stated for these; C103_accepts says exactly which role tokens a validation that happens late enough lets pass. From t on the requests to the service must be answered with 200 or 304; without an honest ETag or with overlapping updates old keys stay (C76_refuted)."
  },
  {
   "property": "C104",
   "status": "proved",
   "theorems": [
    "Athenz.C104_signed"
   ],
   "note": "For every execution of the started authorizer (Model/Running) in which both goroutines go on without delay (PkInTime, JwkInTime), Init is before Start (InitFirst), and from t on the requests are answered, ETags being honest. The same token text can be cached: the token that was verified has the same cache key (C36)."
  },
  {
   "property": "C105",
   "status": "partial",
   "theorems": [
    "Athenz.C105_paced",
    "Athenz.C105_policies",
    "Athenz.C105_check_partial",
    "Athenz.C105_grant_partial",
    "Athenz.C105_refuted"
   ],
   "note": "For every execution of the started authorizer (Model/Running) in which the three goroutines go on without delay (PdInTime, PkInTime, JwkInTime) and Init is before Start (InitFirst). C105_paced proves the times of the policy daemon's updates, C105_policies which policies are in force, C105_check_partial how checks decide, C105_grant_partial what grants depend on. Missing: policies that are not regular for the roles of the request, for which C105_refuted shows a grant of what the policies deny in a call that begins late enough: the merge of the update lost the deny (C10)."
  },
  {
   "property": "C11",
   "status": "partial",
   "theorems": [
    "Athenz.C11_fill_partial",
    "Athenz.C11_deny_first",
    "Athenz.C11_order_irrelevant_partial",
    "Athenz.C11_refuted"
   ],
   "note": "The full statement is false for the code (C11_refuted: if the document expires while the cache is being filled, what was filled first is lost). C11_fill_partial proves it for every merged map of every document that is valid during the fill or expired before; C11_deny_first proves denies-first for every history of the daemon; C11_order_irrelevant_partial adds the merge interleavings, for the documents of C01."
  },
  {
   "property": "C12",
   "status": "partial",
   "theorems": [
    "Athenz.C12_only_success_changes",
    "Athenz.C12_live_is_version",
    "Athenz.C12_check_one_version",
    "Athenz.C12_check_decision_partial",
    "Athenz.C12_check_local_partial",
    "Athenz.C12_refuted",
    "Athenz.C12_decision_refuted"
   ],
   "note": "The full statement is false for the code (C12_refuted: the background refresh of C13 changes the policies in force without an Update; C12_decision_refuted: the race of C10). Proved for every history without the expired-entry refresh. The content of a version is exactly that of the documents only for documents that are regular for the roles asked for (C12_check_local_partial; C12_check_decision_partial for the documents of C01)."
  },
  {
   "property": "C13",
   "status": "partial",
   "theorems": [
    "Athenz.C13_grant_sound_partial",
    "Athenz.C13_refuted",
    "Athenz.C13_stale_refuted",
    "Athenz.C13_crash_refuted"
   ],
   "note": "False in full: the refresh merges into the live cache step by step (C13_refuted), prolongs assertions that are no longer in the document (C13_stale_refuted), and panics for roles of domains that are not configured (C13_crash_refuted). Proved: a grant always comes from a fetched document."
  },
  {
   "property": "C14",
   "status": "partial",
   "theorems": [
    "Athenz.C14_update_partial",
    "Athenz.C14_daemon_partial",
    "Athenz.C14_refuted"
   ],
   "note": "False in full: the retry fallback hands out an expired policy and its cache entry never expires (C14_refuted). Proved for documents valid during the update and roles of one document: grants end with the expiry plus at most the duration of the update."
  },
  {
   "property": "C15",
   "status": "proved",
   "theorems": [
    "Athenz.C15_only_verified"
   ],
   "note": ""
  },
  {
   "property": "C16",
   "status": "proved",
   "theorems": [
    "Athenz.C16_verify"
   ],
   "note": "Signature check and JSON encoding are arbitrary functions."
  },
  {
   "property": "C17",
   "status": "proved",
   "theorems": [
    "Athenz.C17_if_none_match",
    "Athenz.C17_not_modified"
   ],
   "note": ""
  },
  {
   "property": "C18",
   "status": "proved",
   "theorems": [
    "Athenz.C18_bounded",
    "Athenz.C18_first_success",
    "Athenz.C18_success_sound",
    "Athenz.C18_fallback",
    "Athenz.C18_failure_keeps_cache"
   ],
   "note": ""
  },
  {
   "property": "C19",
   "status": "partial",
   "theorems": [
    "Athenz.C19_fetch_partial",
    "Athenz.C19_document_partial",
    "Athenz.C19_fetch_refuted",
    "Athenz.C19_null_refuted",
    "Athenz.C19_document_refuted",
    "Athenz.C13_crash_refuted",
    "Athenz.C19_pubkey_partial",
    "Athenz.C19_pubkey_refuted",
    "Athenz.C19_pubkey_null_refuted"
   ],
   "note": "False in full. Proved: exactly which answers and documents kill the process, for policies and for public keys."
  },
  {
   "property": "C20",
   "status": "partial",
   "theorems": [
    "Athenz.C20_accept",
    "Athenz.C20_total",
    "Athenz.C20_error",
    "Athenz.C20_behind_marker_partial",
    "Athenz.C20_refuted"
   ],
   "note": "C20_accept is an exact characterisation of acceptance and of the returned fields. The full statement (the signature behind the marker is the one that verifies) is refuted by a token whose first pair is named s: that pair overrides the text behind the marker; it is proved for all tokens that do not begin with s=."
  },
  {
   "property": "C21",
   "status": "proved",
   "theorems": [
    "Athenz.C21_signed_text"
   ],
   "note": ""
  },
  {
   "property": "C22",
   "status": "proved",
   "theorems": [
    "Athenz.C22_expired",
    "Athenz.C22_overflow",
    "Athenz.C22_missing",
    "Athenz.C22_malformed",
    "Athenz.C22_accepted"
   ],
   "note": "The clock is assumed to be after the first second of the year 1."
  },
  {
   "property": "C23",
   "status": "proved",
   "theorems": [
    "Athenz.C23_parse",
    "Athenz.C23_accepted"
   ],
   "note": "Any order of the pairs and any further pairs with other names."
  },
  {
   "property": "C24",
   "status": "partial",
   "theorems": [
    "Athenz.C24_accept",
    "Athenz.C24_accept_partial",
    "Athenz.C24_refuted"
   ],
   "note": "C24_accept is an exact characterisation. False in full because of an int64 wrap-around in time.Unix inside the JWT library: a token with an iat or nbf of at least 2^63-62135596800 counts as issued in the past. Proved in full for all smaller values."
  },
  {
   "property": "C25",
   "status": "proved",
   "theorems": [
    "Athenz.C25_client_id",
    "Athenz.C25_exact"
   ],
   "note": ""
  },
  {
   "property": "C26",
   "status": "proved",
   "theorems": [
    "Athenz.C26_bound",
    "Athenz.C26_exact"
   ],
   "note": ""
  },
  {
   "property": "C27",
   "status": "proved",
   "theorems": [
    "Athenz.C27_window",
    "Athenz.C27_machine",
    "Athenz.C27_overflow"
   ],
   "note": "Exact window without overflow, exact outcome with wrap-around, and the consequences of each of the four overflows."
  },
  {
   "property": "C28",
   "status": "proved",
   "theorems": [
    "Athenz.C28_header",
    "Athenz.C28_daemon"
   ],
   "note": ""
  },
  {
   "property": "C29",
   "status": "partial",
   "theorems": [
    "Athenz.C29_sources",
    "Athenz.C29_last_fetched_partial",
    "Athenz.C29_refuted"
   ],
   "note": "Sources and last store for all schedules of overlapping updates. Last fetched holds for updates that do not overlap; two overlapping updates can keep the older set."
  },
  {
   "property": "C30",
   "status": "proved",
   "theorems": [
    "Athenz.C30_tries_all",
    "Athenz.C30_replaces",
    "Athenz.C30_last_store"
   ],
   "note": "C30_replaces is about an update that runs alone; for overlapping updates C30_last_store says which set is kept."
  },
  {
   "property": "C31",
   "status": "partial",
   "theorems": [
    "Athenz.C31_success_partial",
    "Athenz.C31_failure",
    "Athenz.C31_error",
    "Athenz.C31_not_modified",
    "Athenz.C31_independent",
    "Athenz.C31_refuted"
   ],
   "note": "Failure, not-modified and independence parts hold for all schedules. The success part holds when no other job of the service applies a refresh at the same time; two overlapping updates can leave a set that neither downloaded (C31_refuted)."
  },
  {
   "property": "C32",
   "status": "proved",
   "theorems": [
    "Athenz.C32_lookup",
    "Athenz.C32_single"
   ],
   "note": "For any number of overlapping refreshes."
  },
  {
   "property": "C33",
   "status": "partial",
   "theorems": [
    "Athenz.C33_partial",
    "Athenz.C33_refuted",
    "Athenz.C33_tagless_refuted"
   ],
   "note": "False in full: the ETag is remembered before the keys are decoded, and an answer without ETag keeps the older ETag. Proved for an honest server whose 200 answers carry an ETag and usable keys."
  },
  {
   "property": "C34",
   "status": "proved",
   "theorems": [
    "Athenz.C34_no_confusion"
   ],
   "note": ""
  },
  {
   "property": "C35",
   "status": "proved",
   "theorems": [
    "Athenz.C35_call",
    "Athenz.C35_session"
   ],
   "note": "C35_call is about one token call under any interleaving of calls, erasures and expiry; C35_session about Verify and Authorize. The stored result is at most the cache lifetime old by the clock of the cache."
  },
  {
   "property": "C36",
   "status": "partial",
   "theorems": [
    "Athenz.C36_noColon_partial",
    "Athenz.C36_resources_partial",
    "Athenz.C36_token_partial",
    "Athenz.C36_refuted"
   ],
   "note": "Refuted: the cache key joins its parts with colons, so that two requests differing in where a colon falls share an entry. It holds for requests without colons in the parts, for which token and certificate are always kept apart."
  },
  {
   "property": "C37",
   "status": "proved",
   "theorems": [
    "Athenz.C37_cache",
    "Athenz.C37_entries",
    "Athenz.C37_erase"
   ],
   "note": ""
  },
  {
   "property": "C38",
   "status": "partial",
   "theorems": [
    "Athenz.C38_expiry_partial",
    "Athenz.C38_refuted"
   ],
   "note": "Refuted: a cached result is used until the cache lifetime is over, also when the token expires before. It holds with a delay of at most the cache lifetime."
  },
  {
   "property": "C39",
   "status": "partial",
   "theorems": [
    "Athenz.C39_names_partial",
    "Athenz.C39_refuted",
    "Athenz.C39_names_refuted"
   ],
   "note": "Refuted in two ways through the cache: certificates are told apart by issuer and common name only, and colons in the names are ambiguous."
  },
  {
   "property": "C40",
   "status": "proved",
   "theorems": [
    "Athenz.C40_refused",
    "Athenz.C40_step"
   ],
   "note": ""
  },
  {
   "property": "C41",
   "status": "proved",
   "theorems": [
    "Athenz.C41_order",
    "Athenz.C41_combined",
    "Athenz.C41_or",
    "Athenz.C41_refusal",
    "Athenz.C41_progress"
   ],
   "note": ""
  },
  {
   "property": "C42",
   "status": "partial",
   "theorems": [
    "Athenz.C42_tokens_partial",
    "Athenz.C42_refuted"
   ],
   "note": "Refuted: Verify and Authorize use AuthorizeRoleCert, which is not implemented and always fails, so that a role certificate alone is refused even if VerifyRoleCert accepts it."
  },
  {
   "property": "C43",
   "status": "partial",
   "theorems": [
    "Athenz.C43_noClash_partial",
    "Athenz.C43_sound",
    "Athenz.C43_order",
    "Athenz.C43_none",
    "Athenz.C43_refuted"
   ],
   "note": "Refuted: roles are told apart by domain and role written one behind the other, so that a denied role can be overlooked. Exact if no two named roles clash; soundness, order independence and refusal without roles hold always."
  },
  {
   "property": "C44",
   "status": "partial",
   "theorems": [
    "Athenz.C44_token_sound",
    "Athenz.C44_token_complete",
    "Athenz.C44_roleCert_refuted"
   ],
   "note": "The part about tokens holds; the part about role certificates is refuted, with policies disabled VerifyRoleCert accepts any certificate."
  },
  {
   "property": "C45",
   "status": "proved",
   "theorems": [
    "Athenz.C45_principal"
   ],
   "note": "With policies disabled the authorized roles are empty, as no role was checked."
  },
  {
   "property": "C46",
   "status": "proved",
   "theorems": [
    "Athenz.C46_first",
    "Athenz.C46_badQuery",
    "Athenz.C46_noRules"
   ],
   "note": "url.ParseQuery is a parameter of the model."
  },
  {
   "property": "C47",
   "status": "partial",
   "theorems": [
    "Athenz.C47_tidy_partial",
    "Athenz.C47_filled_partial",
    "Athenz.C47_single_partial",
    "Athenz.C47_refuted"
   ],
   "note": "Refuted: values are substituted one after the other in the order of a Go map, so that a value with braces in it can be taken for a placeholder and the result depends on the map order. It holds if no value contains a brace, and for a single placeholder."
  },
  {
   "property": "C48",
   "status": "proved",
   "theorems": [
    "Athenz.C48_sound",
    "Athenz.C48_complete",
    "Athenz.C48_noPanic",
    "Athenz.C48_again",
    "Athenz.C48_error"
   ],
   "note": "C48_error: the error returned names a fault that the rules have."
  },
  {
   "property": "C49",
   "status": "partial",
   "theorems": [
    "Athenz.C49_role_partial",
    "Athenz.C49_role_shown",
    "Athenz.C49_access_shown",
    "Athenz.C49_noSignature_partial",
    "Athenz.C49_access",
    "Athenz.C49_accessAny",
    "Athenz.C49_key",
    "Athenz.C49_refuted"
   ],
   "note": "Refuted: the cache key does not contain the kind of token, so that an accepted role token sent as access token is found in the cache and is masked like an access token, which can show part of its signature. It holds for tokens masked according to their own kind. The lines logged themselves are not modelled, only what is put into them."
  },
  {
   "property": "C50",
   "status": "proved",
   "theorems": [
    "Athenz.C50_stored",
    "Athenz.C50_refused",
    "Athenz.C50_again",
    "Athenz.C50_https",
    "Athenz.C50_jwks"
   ],
   "note": "WithURLs of the jwk daemon, which is meant for other key servers, also takes http URLs and is not part of the claim."
  },
  {
   "property": "C51",
   "status": "proved",
   "theorems": [
    "Athenz.C51_pending",
    "Athenz.C51_bounded",
    "Athenz.C51_caused",
    "Athenz.C51_fair"
   ],
   "note": "C51_fair is liveness over infinite executions with weak fairness; that such an execution exists is shown by an example."
  },
  {
   "property": "C52",
   "status": "partial",
   "theorems": [
    "Athenz.C52_exact",
    "Athenz.C52_room_partial",
    "Athenz.C52_jwkd_partial",
    "Athenz.C52_jwkd_fair_partial",
    "Athenz.C52_refresh_refuted",
    "Athenz.C52_stop_refuted",
    "Athenz.C52_refuted"
   ],
   "note": "Refuted: the policy and public key daemons block for ever on the 101st failure that nobody reads, and none of the three stops on cancellation while 100 errors are unread. The JWK daemon goes on refreshing, and all three do as long as there is room in the channel."
  },
  {
   "property": "C53",
   "status": "proved",
   "theorems": [
    "Athenz.C53_reported",
    "Athenz.C53_always",
    "Athenz.C53_room",
    "Athenz.C53_others"
   ],
   "note": ""
  },
  {
   "property": "C54",
   "status": "proved",
   "theorems": [
    "Athenz.C54_nil",
    "Athenz.C54_error",
    "Athenz.C54_order",
    "Athenz.C54_disabled",
    "Athenz.C54_joined",
    "Athenz.C54_first",
    "Athenz.C54_returns"
   ],
   "note": ""
  },
  {
   "property": "C55",
   "status": "partial",
   "theorems": [
    "Athenz.C55_exact",
    "Athenz.C55_calls",
    "Athenz.C55_at_once",
    "Athenz.C55_sleep",
    "Athenz.C55_pauses",
    "Athenz.C55_zero",
    "Athenz.C55_result_partial",
    "Athenz.C55_refuted"
   ],
   "note": "Refuted: the body of a response that is not retried is read to its end and closed before it is returned; and with a count that is not positive there is neither response nor error. Everything else holds. The floating point computation of the pauses is a parameter of the model."
  },
  {
   "property": "C56",
   "status": "partial",
   "theorems": [
    "Athenz.C56_access_crash",
    "Athenz.C56_access_valid_crash",
    "Athenz.C56_role_crash",
    "Athenz.C56_exactly_partial",
    "Athenz.C56_sessions_partial",
    "Athenz.C56_policy_partial",
    "Athenz.C56_refuted",
    "Athenz.C56_refuted_access"
   ],
   "note": "Refuted: New accepts disabled key daemons with their tokens enabled, and then every unexpired role token (or access token with a key id) calls a nil function. Proved exactly: calls can panic if and only if such keys are missing. The translator is assumed not to panic itself."
  },
  {
   "property": "C57",
   "status": "proved",
   "theorems": [
    "Athenz.C57_settings",
    "Athenz.C57_refused",
    "Athenz.C57_order",
    "Athenz.C57_swap",
    "Athenz.C57_new",
    "Athenz.C57_no_panic",
    "Athenz.C57_error"
   ],
   "note": "C57_error: which error New returns, if several settings are bad."
  },
  {
   "property": "C58",
   "status": "proved",
   "theorems": [
    "Athenz.C58_forward",
    "Athenz.C58_room",
    "Athenz.C58_failures",
    "Athenz.C58_last",
    "Athenz.C58_cancelled",
    "Athenz.C58_fair"
   ],
   "note": ""
  },
  {
   "property": "C59",
   "status": "proved",
   "theorems": [
    "Athenz.C59_algorithm"
   ],
   "note": "The kinds of keys each algorithm accepts are recalled from golang-jwt."
  },
  {
   "property": "C60",
   "status": "partial",
   "theorems": [
    "Athenz.C60_exactly_partial",
    "Athenz.C60_refuted"
   ],
   "note": "Refuted: New accepts a cache lifetime below two nanoseconds and periods that are not positive, for which time.NewTicker panics in a goroutine of Start. Proved exactly: no ticker panics if and only if the lifetime is at least 2 ns and the given periods are positive."
  },
  {
   "property": "C61",
   "status": "partial",
   "theorems": [
    "Athenz.C61_policy_partial",
    "Athenz.C61_pubkey_partial",
    "Athenz.C61_jwk_partial",
    "Athenz.C61_new_partial",
    "Athenz.C61_refuted"
   ],
   "note": "Refuted: pubkey.New and jwk.New keep a nil client. Proved: policy.New never does, behind authorizerd.New there is always a client, and which one it is."
  },
  {
   "property": "C62",
   "status": "proved",
   "theorems": [
    "Athenz.C62_grant",
    "Athenz.C62_same_request",
    "Athenz.C62_full_check",
    "Athenz.C62_session",
    "Athenz.C62_no_keys",
    "Athenz.C62_no_trust",
    "Athenz.C62_components",
    "Athenz.C62_check_progress"
   ],
   "note": "With policy checks disabled (DisablePolicyd) the origin is that of the token alone."
  },
  {
   "property": "C63",
   "status": "partial",
   "theorems": [
    "Athenz.C63_own_roles_partial",
    "Athenz.C63_refuted"
   ],
   "note": "Refuted: nothing compares the domain of a signed policy, or of the roles in it, with the domain it was asked for. Proved if the policy service answers for a domain only with assertions about roles of that domain."
  },
  {
   "property": "C64",
   "status": "partial",
   "theorems": [
    "Athenz.C64_plain_partial",
    "Athenz.C64_raw",
    "Athenz.C64_refuted",
    "Athenz.C64_translator_refuted",
    "Athenz.C64_empty_refuted"
   ],
   "note": "Refuted: VerifyRoleCert uses neither the translator nor the resource prefix and accepts an empty action or resource. Proved for configurations without translator and prefix (C64_plain_partial); C64_raw says exactly what decides in all configurations."
  },
  {
   "property": "C65",
   "status": "partial",
   "theorems": [
    "Athenz.C65_returns",
    "Athenz.C65_bounded",
    "Athenz.C65_ok",
    "Athenz.C65_error_partial",
    "Athenz.C65_refuted"
   ],
   "note": "Refuted in one corner: an assertion with a malformed resource is overlooked if another one is the same text when role, action and resource are joined with commas. Proved: termination and bound for all executions, nil if everything is in order, an error if a domain has no policy, and an error for a malformed resource if roles and actions contain no commas."
  },
  {
   "property": "C66",
   "status": "partial",
   "theorems": [
    "Athenz.C66_denies",
    "Athenz.C66_fixed_partial",
    "Athenz.C66_simulates_partial",
    "Athenz.C66_refuted"
   ],
   "note": "Refuted: two refreshes of a domain at the same time append to the same array, so that a check reads another allow than it looked up. Proved for all executions: the denies are read as looked up, no deny is added or covered, an allow is granted only if nothing looked up denies, and everything read is from the documents for that role. Proved in full, with a simulation by the model with lists, if no two goroutines fill the same role at the same time."
  },
  {
   "property": "C67",
   "status": "partial",
   "theorems": [
    "Athenz.C67_origin",
    "Athenz.C67_fresh_partial",
    "Athenz.C67_call_partial",
    "Athenz.C67_refuted",
    "Athenz.C67_order_refuted"
   ],
   "note": "Refuted: when the policy server cannot be reached, Update returns nil with the cached policies; and an Update that was called earlier and returns later replaces newer policies by its own. Proved for all executions: a grant from the cache of a later Update is allowed by policies delivered or confirmed since, or kept because a fetcher gave up since. Proved in full if no fetcher gives up and no earlier Update returns after the call."
  },
  {
   "property": "C68",
   "status": "partial",
   "theorems": [
    "Athenz.C68_in_force_any",
    "Athenz.C68_in_force",
    "Athenz.C68_check_since_partial",
    "Athenz.C68_check_partial",
    "Athenz.C68_call_since_partial",
    "Athenz.C68_call_partial",
    "Athenz.C68_refuted"
   ],
   "note": "Refuted: the merge race of C10 loses a deny, so that a call is granted what the policies in force deny. Proved for all executions: the documents in force are those that the last successful Update got for all domains, received with valid signatures, and unless an expired entry was refreshed while they were in force (C13) they are the ones in the cache (C68_in_force_any); every check, and every token call, decides exactly as they say if they are regular for the roles asked for and no refresh of an expired entry got anything else about these roles while they were in force, whatever they and the refreshes say about other roles. Refreshes under earlier versions do no harm."
  },
  {
   "property": "C69",
   "status": "partial",
   "theorems": [
    "Athenz.C69_check_returns",
    "Athenz.C69_call_returns",
    "Athenz.C69_verify_returns",
    "Athenz.C69_granted_unchecked",
    "Athenz.C69_granted_since_partial",
    "Athenz.C69_granted_partial",
    "Athenz.C69_refuted"
   ],
   "note": "Lookups that block as in C90 are left out. Proved for all fair executions, with policy checks enabled or disabled: every check, call and session returns; with policy checks disabled every call with a valid token is granted. With them enabled granting is proved if the documents in force are regular for the roles of the token and refreshes of expired entries got nothing else about these roles while they were in force (C13); without regularity it is false (C69_refuted): the merge of one document can lose an allow (C08)."
  },
  {
   "property": "C70",
   "status": "partial",
   "theorems": [
    "Athenz.C70_origin",
    "Athenz.C70_granted_partial",
    "Athenz.C70_refused_partial",
    "Athenz.C70_exact_partial",
    "Athenz.C70_unnamed",
    "Athenz.C70_returns",
    "Athenz.C70_refuted"
   ],
   "note": "Proved with policy checks enabled: the origin of every grant, that calls return, and, if refreshes of expired entries got nothing else about the roles named while the policies were in force (C13), the exact decision for certificates whose roles do not clash (C43) and policies that are regular for the roles named (C68). C70_refuted: with clashing roles the full statement is false."
  },
  {
   "property": "C71",
   "status": "partial",
   "theorems": [
    "Athenz.C71_origin",
    "Athenz.C71_version_partial",
    "Athenz.C71_exact_partial",
    "Athenz.C71_disabled",
    "Athenz.C71_refuted"
   ],
   "note": "Refuted: the merge race of C10 loses a deny, which is then not shown. Proved for all executions: the origin of what is shown. Proved: one call shows one version if the policies were not refreshed while in force (C13), and exactly what the documents in force say about every role for which they are regular and about which refreshes got nothing else."
  },
  {
   "property": "C72",
   "status": "partial",
   "theorems": [
    "Athenz.C72_fetch_returns",
    "Athenz.C72_update_returns",
    "Athenz.C72_update_ok",
    "Athenz.C72_in_force",
    "Athenz.C72_takes_effect",
    "Athenz.C72_check_partial",
    "Athenz.C72_granted_partial",
    "Athenz.C72_refuted"
   ],
   "note": "Proved for all fair executions in which every answer after the change is the new policy or confirms it, no Update is cancelled and resources name a domain: FetchWithRetry and Update return, Update succeeds, and the new policies come into force for ever. That checks and calls then decide as they say is proved, with any refreshes of expired entries, for policies that are regular for the roles asked for (C72_refuted: false otherwise)."
  },
  {
   "property": "C73",
   "status": "partial",
   "theorems": [
    "Athenz.C73_grant_partial",
    "Athenz.C73_withdrawn_partial",
    "Athenz.C73_session_partial",
    "Athenz.C73_takes_effect_partial",
    "Athenz.C73_refuted"
   ],
   "note": "Proved as stated for policies that are regular for the roles of the token (C68_refuted: false otherwise), if refreshes of expired entries got nothing else about these roles while they were in force (C13). Without the condition that the earlier calls have returned it is false (C73_refuted): the lifetime of a result begins when it is stored, not when the policies were asked, so a slow call leaves a withdrawn permission in the cache for a full lifetime. The takes_effect theorem makes the assumptions of C72, and allows any refreshes."
  },
  {
   "property": "C74",
   "status": "partial",
   "theorems": [
    "Athenz.C74_fetch_partial",
    "Athenz.C74_policy_partial",
    "Athenz.C74_pubkey_exact",
    "Athenz.C74_pubkey_read",
    "Athenz.C74_pubkey_partial",
    "Athenz.C74_leak",
    "Athenz.C74_transport_exact",
    "Athenz.C74_policy_refuted",
    "Athenz.C74_pubkey_refuted",
    "Athenz.C74_transport_refuted",
    "Athenz.C74_refuted"
   ],
   "note": "Refuted in all three places: flushAndClose does not close a body that it cannot read to the end, the public key daemon closes only the bodies of good answers, so that every Update against a failing server leaves two bodies open (C74_leak: no bound), and the transport does not close the answers after which it tries again. Proved exactly which bodies are closed, and that none is closed twice."
  },
  {
   "property": "C75",
   "status": "proved",
   "theorems": [
    "Athenz.C75_again",
    "Athenz.C75_serial",
    "Athenz.C75_takes_effect"
   ],
   "note": "Proved under the assumptions of C72 about the servers. C75_check_partial, which is more than the statement: every check made later decides as the new policies say, under the conditions of C72_check_partial. Without a reader of the errors the goroutine can stop for ever (C52)."
  },
  {
   "property": "C76",
   "status": "partial",
   "theorems": [
    "Athenz.C76_ends",
    "Athenz.C76_reached",
    "Athenz.C76_serial_partial",
    "Athenz.C76_expiring_partial",
    "Athenz.C76_refuted"
   ],
   "note": "Refuted: an update that got the old list before the change can apply it after another update has applied the new list and remembered its version; the server then says not modified as long as the version is remembered, which is for ever with WithETagExpiry(0s), and a withdrawn key stays in use. Proved if updates of the service do not overlap (and served lists are usable and carry versions, C33), and for arbitrary overlaps as soon as the versions remembered when the updates begun before the change were over have expired (one week by default)."
  },
  {
   "property": "C77",
   "status": "proved",
   "theorems": [
    "Athenz.C77_ends",
    "Athenz.C77_reached",
    "Athenz.C77_in_use",
    "Athenz.C77_unreachable"
   ],
   "note": ""
  },
  {
   "property": "C78",
   "status": "partial",
   "theorems": [
    "Athenz.C78_grant",
    "Athenz.C78_revoked_partial",
    "Athenz.C78_session_partial",
    "Athenz.C78_live",
    "Athenz.C78_access",
    "Athenz.C78_role_partial",
    "Athenz.C78_expiring_partial",
    "Athenz.C78_refuted"
   ],
   "note": "Proved as stated with the condition that the earlier calls have returned; without it it is false (C78_refuted): the lifetime of a result begins when it is stored, not when the token was validated. That the moment comes is proved in full for access tokens; for role tokens if updates of the ZTS keys do not overlap, or when the remembered versions have expired (C76_refuted: false otherwise)."
  },
  {
   "property": "C79",
   "status": "proved",
   "theorems": [
    "Athenz.C79_again",
    "Athenz.C79_serial",
    "Athenz.C79_policies",
    "Athenz.C79_keys",
    "Athenz.C79_jwk",
    "Athenz.C79_role",
    "Athenz.C79_access"
   ],
   "note": "Proved under the assumptions of C72, C76 and C77 about the servers (among them that key lists are usable and carry versions, C33). The last part is for calls that begin when the lifetime of cached results has passed since. Without a reader of the errors the policy and key daemons can stop for ever (C52)."
  },
  {
   "property": "C80",
   "status": "partial",
   "theorems": [
    "Athenz.C80_forwarder",
    "Athenz.C80_last",
    "Athenz.C80_child",
    "Athenz.C80_gone",
    "Athenz.C80_few_partial",
    "Athenz.C80_all_partial",
    "Athenz.C80_begun_partial",
    "Athenz.C80_late_refuted",
    "Athenz.C80_leak_refuted",
    "Athenz.C80_refuted"
   ],
   "note": "Refuted twice: a select that sees both the cancellation and a tick or retry may begin an update, and after the forwarding goroutine has seen the cancellation nobody takes errors any more, so that a daemon whose channel holds 100 errors never returns. Proved: the forwarding goroutine returns and the error of the context is the last item; a daemon returns or is blocked for ever with 100 errors in its channel; it returns, with all the rest, if fewer than 100 of its updates fail; and from the cancellation on it begins at most two more updates than its ticker fires and its updates fail. Every call of Update returning is part of the assumptions about servers (C72, C76, C77)."
  },
  {
   "property": "C81",
   "status": "partial",
   "theorems": [
    "Athenz.C81_update_ok",
    "Athenz.C81_in_force",
    "Athenz.C81_again",
    "Athenz.C81_started",
    "Athenz.C81_check_partial",
    "Athenz.C81_granted_partial",
    "Athenz.C81_refuted"
   ],
   "note": "Proved: the updates return nil and the last policies stay in force, for any callers of Update and for a started authorizer by itself. That checks decide and calls are granted as they say is proved, without any condition on expiry times, with any refreshes of expired entries, for policies that are regular for the roles asked for (C68_refuted: false otherwise). C81_refuted is the last sentence: it refutes that a call made when every policy ever received has expired is not granted."
  },
  {
   "property": "C82",
   "status": "partial",
   "theorems": [
    "Athenz.C82_denied_partial",
    "Athenz.C82_refuted"
   ],
   "note": "Refuted: two refreshes of the same domain read and write the same lists in turn, each overwrites the deny that the other has written, both end without error, and the request is granted. Proved if no two refreshes write into the cache at the same time, for documents that deny the request clearly (C10), whatever other documents refreshes get."
  },
  {
   "property": "C83",
   "status": "partial",
   "theorems": [
    "Athenz.C83_exact_partial",
    "Athenz.C83_takes_effect_partial",
    "Athenz.C83_refuted"
   ],
   "note": "Refuted for certificates with roles that clash (C43): such a call is granted although the only policies the servers ever gave deny the request. Proved for certificates without such roles and policies that are regular (C68) for the roles named: once one update called after the change has returned, and by itself if Update is called again and again."
  },
  {
   "property": "C84",
   "status": "proved",
   "theorems": [
    "Athenz.C84_accepts",
    "Athenz.C84_only",
    "Athenz.C84_setting"
   ],
   "note": "time.ParseDuration is part of the model; only the floating-point length of a fraction is a parameter. C84_accepts asks for fractions whose digits are at most 2^63."
  },
  {
   "property": "C85",
   "status": "partial",
   "theorems": [
    "Athenz.C85_refuted",
    "Athenz.C85_between_partial",
    "Athenz.C85_total",
    "Athenz.C85_quadratic",
    "Athenz.C85_attempts"
   ],
   "note": "Refuted: after the status codes 429, 500, 503 and 504 the transport asks again at once. C85_between_partial: after every other failure it pauses, for exactly the stated time. The arithmetic is exact instead of in floating point; C96 bounds the difference."
  },
  {
   "property": "C86",
   "status": "partial",
   "theorems": [
    "Athenz.C86_refuted",
    "Athenz.C86_append_refuted",
    "Athenz.C86_fields_partial",
    "Athenz.C86_noWrite_partial",
    "Athenz.C86_append_partial",
    "Athenz.C86_decisions",
    "Athenz.C86_sees"
   ],
   "note": "Refuted twice: hits in the result cache give the same pointer, and the getters give the slices of the record, so that an element set by one caller is seen by another (C86_refuted); and as the authorized roles have room for all roles of the token, of two callers that append one has what the other appended (C86_append_refuted). Proved: everything but the elements of the lists never changes; nothing changes if no caller sets elements, even with appends; appends that find no room are private; decisions never depend on what callers do."
  },
  {
   "property": "C87",
   "status": "partial",
   "theorems": [
    "Athenz.C87_parse",
    "Athenz.C87_translated",
    "Athenz.C87_repeated",
    "Athenz.C87_bad",
    "Athenz.C87_refuted",
    "Athenz.C87_same_partial"
   ],
   "note": "url.ParseQuery is part of the model here; what escaped bytes from 128 on say in UTF-8 is a parameter. Only the last part is partial: with braces in the request or in the templates the result depends on the order of a map, as in C47 (C87_refuted); C87_same_partial is for requests without opening brace and rules whose resources are templates."
  },
  {
   "property": "C88",
   "status": "partial",
   "theorems": [
    "Athenz.C88_oneByOne_partial",
    "Athenz.C88_checks",
    "Athenz.C88_kinds",
    "Athenz.C88_hook_refuted",
    "Athenz.C88_cancel_refuted",
    "Athenz.C88_refuted"
   ],
   "note": "The full statement is false (C88_refuted): the hook of an expired entry reads p.rolePolicies plainly while the next Update swaps it (C88_hook_refuted), and a cancelled Update leaves goroutines behind which use the same fetchers as the next one (C88_cancel_refuted). C88_oneByOne_partial is for Updates one after the other, not cancelled, without hooks. C88_checks: checks never race. C88_kinds: there are no other kinds of races."
  },
  {
   "property": "C89",
   "status": "partial",
   "theorems": [
    "Athenz.C89_refreshed_partial",
    "Athenz.C89_stopped",
    "Athenz.C89_init",
    "Athenz.C89_refuted",
    "Athenz.C89_statement_refuted"
   ],
   "note": "Refuted for every capacity of the channel: the context that Init passes to Update is cancelled when Init returns, so the goroutine that calls the hook for the policies Init got ends at once (C89_init), and their expired entries are not fetched again before the next periodic Update. Proved for the policies of every Update that is not the one of Init and whose context is not cancelled."
  },
  {
   "property": "C90",
   "status": "partial",
   "theorems": [
    "Athenz.C90_returns_partial",
    "Athenz.C90_hit",
    "Athenz.C90_blocked",
    "Athenz.C90_stuck",
    "Athenz.C90_refuted",
    "Athenz.C90_statement_refuted"
   ],
   "note": "Refuted for every capacity of the channel (C90_refuted, C90_stuck): after Init has returned nobody takes expired keys, and the lookup that finds the channel full never returns, however the execution goes on. Proved for lookups in policies that stay in use, of an Update that is not the one of Init and whose context is not cancelled. C90_blocked says exactly what a lookup that never returns waits for."
  },
  {
   "property": "C91",
   "status": "proved",
   "theorems": [
    "Athenz.C91_account",
    "Athenz.C91_one",
    "Athenz.C91_count",
    "Athenz.C91_ends"
   ],
   "note": ""
  },
  {
   "property": "C92",
   "status": "partial",
   "theorems": [
    "Athenz.C92_own_partial",
    "Athenz.C92_append_partial",
    "Athenz.C92_append_denied",
    "Athenz.C92_no_nil",
    "Athenz.C92_hand",
    "Athenz.C92_field",
    "Athenz.C92_cell",
    "Athenz.C92_nil",
    "Athenz.C92_cut",
    "Athenz.C92_append",
    "Athenz.C92_store",
    "Athenz.C92_sees",
    "Athenz.C92_refuted"
   ],
   "note": "Refuted: the map shares arrays and records with the cache. Writing a field (C92_field), an element (C92_cell), filtering in place (C92_cut) or appending where the array has room (C92_append) grants a request that would get no grant, and writing nil makes checks crash (C92_nil). Proved for callers who edit the map and write elements and fields only in memory of their own; and that callers who only append leave every deny in force."
  },
  {
   "property": "C93",
   "status": "partial",
   "theorems": [
    "Athenz.C93_agrees",
    "Athenz.C93_fetch",
    "Athenz.C93_success",
    "Athenz.C93_failure",
    "Athenz.C93_bound",
    "Athenz.C93_waits",
    "Athenz.C93_done",
    "Athenz.C93_fetch_partial",
    "Athenz.C93_cancel_partial",
    "Athenz.C93_late",
    "Athenz.C93_refuted"
   ],
   "note": "Only the last part is partial: FetchWithRetry goes on pausing after a cancellation (C93_refuted). C93_cancel_partial bounds the delay by retryAttempts + 1 pauses, C93_fetch_partial by the attempts left, and C93_late shows that the first bound is attained for every pause and number of attempts. C93_agrees shows that the step model of the fetcher takes these times and sends these requests when a call runs alone; calls of the same fetcher at the same time are not timed. Only requests and pauses take time in the model; that requests end when their context is cancelled is the contract of http.Client."
  },
  {
   "property": "C94",
   "status": "proved",
   "theorems": [
    "Athenz.C94_gap",
    "Athenz.C94_begins",
    "Athenz.C94_fresh",
    "Athenz.C94_change",
    "Athenz.C94_policy",
    "Athenz.C94_rate",
    "Athenz.C94_exact",
    "Athenz.C94_agrees",
    "Athenz.C94_reached"
   ],
   "note": "C94_agrees: every run of the step model of the goroutines (Model/Loop) that goes on without delay calls Update when Model/Pace says; at the time of a tick, the ticker is taken to fire before the goroutine goes on. C94_reached is the converse. Only updates and pauses take time in the model, sending errors takes none (somebody reads them or there is room), and every update takes some time."
  },
  {
   "property": "C95",
   "status": "partial",
   "theorems": [
    "Athenz.C95_pause_partial",
    "Athenz.C95_atOnce",
    "Athenz.C95_policy",
    "Athenz.C95_refuted"
   ],
   "note": "Refuted: after an update that the ticker began, the policy and key daemons try again at once (C95_atOnce). Proved for the JWK daemon and for all later attempts (C95_pause_partial), and never later than the pause (C94_gap). For requests of the policy daemon the pause at the end of FetchWithRetry makes up for it (C95_policy)."
  },
  {
   "property": "C96",
   "status": "partial",
   "theorems": [
    "Athenz.C96_close_partial",
    "Athenz.C96_long",
    "Athenz.C96_zero",
    "Athenz.C96_hammer",
    "Athenz.C96_grows",
    "Athenz.C96_rounding",
    "Athenz.C96_refuted"
   ],
   "note": "Refuted: with the factor 0 every pause is infinite, the conversion to an integer gives a negative number on amd64, and the transport makes all its attempts without a pause and without regard to its time limit (C96_hammer). For every factor pauses that are not too long are not negative and grow with the number of the attempt, and rounding is that of IEEE 754; that they are close is proved for factors between 2^-40 and 2^40 and pauses below 292 years. Factors that are NaN or infinite are left out; float64 is modelled for numbers that are not negative."
  },
  {
   "property": "C97",
   "status": "proved",
   "theorems": [
    "Athenz.C97_recent",
    "Athenz.C97_sees",
    "Athenz.C97_withdrawn",
    "Athenz.C97_revoked",
    "Athenz.C97_cert",
    "Athenz.C97_shows",
    "Athenz.C97_slow_refuted"
   ],
   "note": "The time a call takes is needed (C97_slow_refuted: the lifetime of a result begins when it is stored). C97_withdrawn and C97_revoked join the model of calls with that of the daemons in time (C94) by assuming that checks and validations see what the last update that had succeeded got; that the objects of the policy daemon show only assertions of its documents is C97_shows. The lifetime must be positive and not lead beyond 2262, otherwise results are kept forever."
  },
  {
   "property": "C98",
   "status": "proved",
   "theorems": [
    "Athenz.C98_age",
    "Athenz.C98_size",
    "Athenz.C98_unswept"
   ],
   "note": "Sweeps are those of gache (contract of StartExpired, every half lifetime). Without Start, or after its context is cancelled, nothing sweeps and entries stay (C98_unswept), although calls work and store."
  },
  {
   "property": "C99",
   "status": "proved",
   "theorems": [
    "Athenz.C99_refused",
    "Athenz.C99_token",
    "Athenz.C99_counts",
    "Athenz.followsDoc_of_rep"
   ],
   "note": "C99_counts assumes, like C97, that checks see what the last update that had succeeded got, and that the views decide as its documents say; C02 shows when the merge of the documents gives such views (followsDoc_of_rep). The check must see one version of its entries; a cancelled check may return the error of its context."
  }
 ]
}