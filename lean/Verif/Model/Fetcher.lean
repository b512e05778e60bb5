import Verif.Model.Simplify

/-!
# policy/signed_policy.go `Verify`, policy/fetcher.go `Fetch` and `FetchWithRetry`

JSON encoding and decoding and the signature check are parameters.  `nil` pointers that JSON can produce are explicit.
-/

namespace Athenz

/-- pubkey/daemon.go:73-82 `AthenzEnv`. -/
inductive Env where
  | zts
  | zms
deriving DecidableEq, Repr

/-- policy/signed_policy.go:60, 74.  `authcore.Verifier`: `Verify(input, signature)` returns nil. -/
abbrev SigVerifier := Str → Str → Bool

/-- pubkey/daemon.go:71 `Provider`; `none` = nil, i.e. no such key. -/
abbrev KeyProvider := Env → Str → Option SigVerifier

/-- policy/daemon.go:328-333.  `util.Policy` of the zpe-updater; pointers in lists can be nil when the JSON says `null`. -/
structure RawPolicy where
  assertions : List (Option RawAssertion)
deriving DecidableEq, Repr

/-- policy/daemon.go:328.  `util.PolicyData`. -/
structure PolicyData where
  domain : Str
  policies : List (Option RawPolicy)
deriving DecidableEq, Repr

/-- policy/signed_policy.go:38-76.  `util.SignedPolicyData`; the expiry is in Unix nanoseconds. -/
structure SignedPolicyData where
  policyData : Option PolicyData
  zmsSignature : Str
  zmsKeyId : Str
  expires : Option Int
deriving DecidableEq, Repr

/-- policy/signed_policy.go:30-32 `SignedPolicy` with the fields of `util.DomainSignedPolicyData`. -/
structure SignedPolicy where
  data : Option SignedPolicyData
  signature : Str
  keyId : Str
deriving DecidableEq, Repr

/-- policy/signed_policy.go:56, 70, policy/fetcher.go:125.  What stays arbitrary: `json.Marshal` of the two levels (`none` = error), and
`json.Decoder.Decode` into a `*SignedPolicy` (`none` = error, `some none` = the JSON text `null`, which leaves the pointer nil). -/
structure Codec where
  marshalSigned : SignedPolicyData → Option Str
  marshalPolicy : Option PolicyData → Option Str
  decode : Str → Option (Option SignedPolicy)

/-- policy/signed_policy.go:36-78 `(*SignedPolicy).Verify`; line 38 dereferences the receiver. -/
def verifyPolicy (C : Codec) (keys : KeyProvider) (now : Int) : Option SignedPolicy → Res Unit
  | none => .panic
  | some sp =>
    match sp.data with
    | none => .err (.other "no policy data")
    | some d =>
      match d.expires with
      | none => .err (.other "policy without expiry")
      | some e =>
        if satSub e now ≤ 0 then .err (.other "policy already expired")
        else match keys .zts sp.keyId with
          | none => .err (.other "zts key not found")
          | some ver =>
            match C.marshalSigned d with
            | none => .err (.other "error marshal signed policy data")
            | some text =>
              if !ver text sp.signature then .err (.other "error verify signature")
              else match keys .zms d.zmsKeyId with
                | none => .err (.other "zms key not found")
                | some ver =>
                  match C.marshalPolicy d.policyData with
                  | none => .err (.other "error marshal policy data")
                  | some text =>
                    if !ver text d.zmsSignature then .err (.other "error verify zms signature") else .ok ()

/-- policy/fetcher.go:63-68 `taggedPolicy` without `ctime`, which is only printed. -/
structure Tagged where
  eTag : Str
  eTagExpiry : Int
  sp : SignedPolicy
deriving DecidableEq, Repr

/-- policy/fetcher.go:82-104.  The outcome of `http.NewRequest` (lines 82-87) and `client.Do` (lines 99-104): an error, or an answer. -/
inductive HttpResult where
  | fail (e : Err)
  | answer (status : Nat) (eTag : Str) (body : Str)
deriving DecidableEq, Repr

/-- policy/fetcher.go:45-61.  The configuration of a fetcher (lines 45-58). -/
structure FetchCfg where
  codec : Codec
  /-- nanoseconds -/
  expiryMargin : Int
  retryAttempts : Int

/-- policy/fetcher.go:90-97, the `If-None-Match` header. -/
def ifNoneMatch (cache : Option Tagged) (now : Int) : Option Str :=
  match cache with
  | none => none
  | some tp => if tp.eTag ≠ [] ∧ tp.eTagExpiry > now then some tp.eTag else none

/-- policy/fetcher.go:99-151, what the outcome `r` of the request makes of the call, and the new content of the cache if it is written.
`tp` is the cached policy that was loaded at line 92. -/
def fetchAnswer (cfg : FetchCfg) (tp : Option Tagged) (keys : KeyProvider) (now : Int) : HttpResult → Res SignedPolicy × Option Tagged
  | .fail e => (.err e, none)
  | .answer status eTag body =>
    if status = 304 then
      match tp with
      | none => (.panic, none)                                              -- line 113 reads `tp.eTag`
      | some t => (.ok t.sp, none)
    else if status ≠ 200 then (.err .fetchPolicy, none)
    else match cfg.codec.decode body with
      | none => (.err (.other "policy decode fail"), none)
      | some osp =>
        match verifyPolicy cfg.codec keys now osp with
        | .panic => (.panic, none)
        | .err e => (.err e, none)
        | .ok () =>
          match osp with
          | none => (.panic, none)
          | some sp =>
            match sp.data with
            | none => (.panic, none)
            | some d =>
              match d.expires with
              | none => (.panic, none)
              | some e => (.ok sp, some ⟨eTag, e + wrap64 (-cfg.expiryMargin), sp⟩)  -- lines 139-149

/-- policy/fetcher.go:76-175.  Where a `Fetch` or `FetchWithRetry` call stands. -/
inductive FetchPc where
  /-- about to fetch; `i` is the loop variable of line 156 and `lastErr` that of line 155 -/
  | loop (i : Int) (lastErr : Option Err)
  /-- the request is under way, `tp` was loaded before -/
  | sent (i : Int) (tp : Option Tagged)
  /-- returned -/
  | ret (sp : Option SignedPolicy) (err : Option Err)
deriving DecidableEq, Repr

/-- policy/fetcher.go:76-175.  One call. -/
structure FetchCall where
  /-- `FetchWithRetry` rather than `Fetch` -/
  retry : Bool
  pc : FetchPc
deriving DecidableEq, Repr

/-- policy/fetcher.go:45-61.  A fetcher, its calls and its environment. -/
structure FState where
  /-- Unix nanoseconds -/
  now : Int
  /-- what the public key daemon answers at present -/
  keys : KeyProvider
  /-- `policyCache` -/
  cache : Option Tagged
  calls : List FetchCall
  /-- the requests the server got: number of the call and `If-None-Match` -/
  reqs : List (Nat × Option Str)
  /-- the process died of a nil dereference -/
  crashed : Bool

/-- policy/daemon.go:91-102.  A new fetcher. -/
def fInit (now : Int) (keys : KeyProvider) : FState :=
  { now := now, keys := keys, cache := none, calls := [], reqs := [], crashed := false }

/-- policy/fetcher.go:76-175.  One atomic step of the fetcher or its environment. -/
inductive FAct where
  | tick (d : Nat)
  /-- the keys change -/
  | setKeys (keys : KeyProvider)
  /-- somebody calls `Fetch` or `FetchWithRetry` -/
  | call (retry : Bool)
  /-- call `j` sends a request -/
  | send (j : Nat)
  /-- the request of call `j` ends -/
  | answer (j : Nat) (r : HttpResult)
  /-- call `j` leaves the retry loop (lines 166-175) -/
  | giveUp (j : Nat)

/-- policy/fetcher.go:76-175.  One step; `none` = not possible.  `time.Sleep` of line 163 is a `tick`; a body read error is a decode error. -/
def fStep (cfg : FetchCfg) (s : FState) (a : FAct) : Option FState :=
  if s.crashed then none else
  match a with
  | .tick d => some { s with now := s.now + d }
  | .setKeys keys => some { s with keys := keys }
  | .call retry => some { s with calls := s.calls ++ [⟨retry, .loop (-1) none⟩] }
  | .send j =>
    match s.calls[j]? with
    | some ⟨retry, .loop i _⟩ =>
      if retry = true ∧ ¬ i < cfg.retryAttempts then none                   -- line 156
      else some { s with calls := s.calls.set j ⟨retry, .sent i s.cache⟩, reqs := s.reqs ++ [(j, ifNoneMatch s.cache s.now)] }
    | _ => none
  | .answer j r =>
    match s.calls[j]? with
    | some ⟨retry, .sent i tp⟩ =>
      match fetchAnswer cfg tp s.keys s.now r with
      | (.panic, _) => some { s with crashed := true }
      | (.ok sp, new) =>                                                    -- lines 158-160
        some { s with calls := s.calls.set j ⟨retry, .ret (some sp) none⟩, cache := match new with | some t => some t | none => s.cache }
      | (.err e, _) =>
        if retry then some { s with calls := s.calls.set j ⟨retry, .loop (i + 1) (some e)⟩ }  -- line 162
        else some { s with calls := s.calls.set j ⟨retry, .ret none (some e)⟩ }
    | _ => none
  | .giveUp j =>
    match s.calls[j]? with
    | some ⟨true, .loop i lastErr⟩ =>
      if i < cfg.retryAttempts then none
      else some { s with calls := s.calls.set j ⟨true, .ret (s.cache.map (·.sp)) (some (lastErr.getD (.other "retryAttempts")))⟩ }
    | _ => none

/-- policy/fetcher.go:76-175.  Running a schedule. -/
def fRun (cfg : FetchCfg) (s : FState) : List FAct → Option FState
  | [] => some s
  | a :: as => match fStep cfg s a with
    | none => none
    | some s' => fRun cfg s' as

/-- policy/daemon.go:299-330, what `fetchAndCachePolicy` reads of the policy it got: nil dereferences at line 328 (`SignedPolicyData`,
`PolicyData`), line 331 (a nil policy), line 336 (a nil assertion) and line 379 (`Expires`; modelled as read in advance) panic. -/
def docOf (sp : SignedPolicy) : Res PolicyDoc :=
  match sp.data with
  | none => .panic
  | some d =>
    match d.policyData, d.expires with
    | some pd, some e =>
      match pd.policies.mapM (fun p => p.bind fun p => p.assertions.mapM id) with
      | some ps => .ok ⟨ps, e⟩
      | none => .panic
    | _, _ => .panic

end Athenz
