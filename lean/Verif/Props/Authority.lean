import Verif.Proofs.AuthTime
import Verif.Proofs.AuthKey
import Verif.Proofs.AuthErase
import Verif.Props.Access

/-! # C35–C42, C44, C45: authorization calls -/

namespace Athenz
open Spec

/-! ## C35 every grant goes back to a full check -/

/-- What stands behind a grant of call `i` with result `p`: a full check in this call, or a hit in the cache, at `th`, on what another call
stored under the same key at `ts` after a full check of its own. -/
def Spec.Backed (cfg : AuthCfg) (s : AState) (i : Nat) (q : AReq) (p : Principal) : Prop :=
  (∃ tb tv, FullCheck cfg s.log i q p tb tv ∧ tv ≤ s.now) ∨
  ∃ tb th j q' tb' tv ts, .begun i tb ∈ s.log ∧ tb ≤ th ∧ th ≤ s.now ∧ .hit i th ∈ s.log ∧ s.calls j = some ⟨q', .done (.ok p)⟩ ∧
    cacheKey cfg q' = cacheKey cfg q ∧ FullCheck cfg s.log j q' p tb' tv ∧ tv ≤ ts ∧ .stored j ts (cacheKey cfg q) p ∈ s.log ∧
    Fresh cfg.cacheExp ts th

/-- **C35**.  A call that granted was backed by a full check. -/
theorem C35_call (cfg : AuthCfg) (now : Int) (h0 : 0 ≤ now) (keys : Option KeyProvider) (jwkp : Option JwkProvider) (acts : List AAct)
    (s : AState) (hr : aRun cfg (aInit now keys jwkp) acts = some s) (i : Nat) (q : AReq) (p : Principal)
    (hd : s.calls i = some ⟨q, .done (.ok p)⟩) : Backed cfg s i q p := by
  have hi := aInv_run h0 hr
  rcases hi.pcs i q _ hd with ⟨ts, hs⟩ | ⟨th, j, ts, h1, h2, h3, h4, ⟨tb, h5, h6⟩, h7⟩
  · obtain ⟨h1, h2, q', h3, _, tb, tv, h5, h6⟩ := hi.stored i ts _ p hs
    rw [hd] at h3
    simp only [Option.some.injEq, Call.mk.injEq, and_true] at h3
    rw [← h3] at h5
    exact .inl ⟨tb, tv, h5, by omega⟩
  · obtain ⟨_, _, q', h8, h9, tb', tv, h10, h11⟩ := hi.stored j ts _ p h2
    exact .inr ⟨tb, th, j, q', tb', tv, ts, h5, h6, h4, h1, h8, h9.symm, h10, h11, h2, h3⟩

/-- **C35**, `Verify` and `Authorize`.  Their grant is that of a token call for one of the request's credentials, and backed like it. -/
theorem C35_session (cfg : AuthCfg) (now : Int) (h0 : 0 ≤ now) (keys : Option KeyProvider) (jwkp : Option JwkProvider) (acts : List AAct)
    (s : AState) (hr : aRun cfg (aInit now keys jwkp) acts = some s) (k : Nat) (x : Sess) (p : Principal)
    (hx : s.sess k = some x) (hd : x.result = some (.ok p)) :
    ∃ r act res q i, .opened k r act res ∈ s.log ∧ .token q ∈ authorizers cfg r act res ∧ s.calls i = some ⟨q, .done (.ok p)⟩ ∧
      Backed cfg s i q p := by
  have hi := sInv_run hr
  obtain ⟨r, act, res, ho⟩ := hi.sess k x hx
  obtain ⟨x', hx', hok⟩ := hi.opened k r act res ho
  rw [hx] at hx'
  simp only [Option.some.injEq] at hx'
  subst hx'
  have hc := hok.comb
  rw [hd] at hc
  obtain ⟨pre, c, i, rest, h1, _, h3⟩ := hc
  have hm : (c, i, Res.ok p) ∈ x.tried := by rw [h1]; simp
  cases c with
  | fails e => have := (hok.fails e i _ hm).2; simp at this
  | token q =>
    obtain ⟨j, _, hj⟩ := hok.token q i _ hm
    exact ⟨r, act, res, q, j, ho, by rw [h3]; simp, hj, C35_call cfg now h0 keys jwkp acts s hr j q p hj⟩

namespace Ex

/-- The domain "dom" lets the role "admin" read "/x". -/
def auView : PolicyView := fun k =>
  if k = "dom:role.admin".toList then
    ((⟨"dom:role.admin".toList, "read".toList, "dom:/x".toList, "ALLOW".toList⟩ : RawAssertion).conv asciiCase).map fun x => [x]
  else none

/-- Access tokens and role tokens, a translator that changes nothing, results kept for one minute. -/
def auCfg : AuthCfg :=
  { disablePolicyd := false, translator := some fun _ _ act res _ => .ok (act, res), resourcePrefix := [], cacheExp := 60000000000,
    enableRoleToken := true, enableAccessToken := true, enableRoleCert := true, roleAuthHeader := "Athenz-Role-Auth".toList,
    roleCertURIPrefix := "athenz://role/".toList, access := atCfg, U := asciiCase }

/-- The certificate to which the access token is bound. -/
def auCert : Cert := atCert "t-old" 1000 []

/-- Nanoseconds. -/
def auT (sec : Int) : Int := sec * 1000000000

/-- The access token "H.P.S", which expires at 2000, with its certificate. -/
def auReq : AReq := ⟨.accessToken, "H.P.S".toList, "read".toList, "/x".toList, "q=1".toList, some auCert⟩

/-- A full check of call `i`. -/
def auFull (i : Nat) (q : AReq) : List AAct := [.call i q, .get i, .validate i, .translate i 0, .check i auView schedR, .store i]

/-- A full check, then, 30 seconds later, the same request again. -/
def auRun : List AAct := auFull 0 auReq ++ [.tick 30000000000, .call 1 auReq, .get 1]

def auInit : AState := aInit (auT 1500) (some roleKeys) (some atKeys)

def doneOk (s : AState) (i : Nat) (q : AReq) : Option Principal :=
  match s.calls i with
  | some ⟨q', .done (.ok p)⟩ => if q' = q then some p else none
  | _ => none

theorem doneOk_iff {s : AState} {i : Nat} {q : AReq} {p : Principal} (h : doneOk s i q = some p) : s.calls i = some ⟨q, .done (.ok p)⟩ := by
  unfold doneOk at h
  split at h
  · rename_i q' p' hc
    split at h
    · rename_i hq
      simp only [Option.some.injEq] at h
      rw [hc, hq, h]
    · simp at h
  · simp at h

/-- The calls that validated a token. -/
def validators (s : AState) : List Nat := s.log.filterMap fun e => match e with | .validated i _ _ _ => some i | _ => none

theorem mem_validators {s : AState} {i : Nat} {t : Int} {ks : Option KeyProvider} {jw : Option JwkProvider} (h : AEvent.validated i t ks jw ∈ s.log) :
    i ∈ validators s := List.mem_filterMap.mpr ⟨_, h, rfl⟩

/-- When a call begins. -/
def begins (s : AState) (i : Nat) : List Int := s.log.filterMap fun e => match e with | .begun j t => if j = i then some t else none | _ => none

theorem of_begins {s : AState} {i : Nat} {t : Int} (h : t ∈ begins s i) : AEvent.begun i t ∈ s.log := by
  obtain ⟨e, he, h⟩ := List.mem_filterMap.mp h
  split at h
  · split at h
    · rename_i hj
      simp only [Option.some.injEq] at h
      rw [hj, h] at he
      exact he
    · simp at h
  · simp at h

def auPrincipal : Principal := ⟨"me".toList, ["admin".toList], "dom".toList, 1000, 2000, ["admin".toList], some "me".toList⟩

/-- The header "Authorization: Bearer H.P.S", over TLS with the certificate. -/
def auHttp : HReq :=
  { tls := some [auCert], header := fun k => if k = "Authorization".toList then "bearer H.P.S".toList else [], rawQuery := "q=1".toList }

/-- `Verify`: the role certificate fails, the access token succeeds. -/
def auVerify : List AAct :=
  [.opened 7 auHttp "read".toList "/x".toList, .fin 7, .sub 7 0, .get 0, .validate 0, .translate 0 0, .check 0 auView schedR, .store 0, .fin 7]

end Ex

/-- A full check, a hit 30 seconds later. -/
example : 0 ≤ Ex.auT 1500 ∧ ∃ s, aRun Ex.auCfg Ex.auInit Ex.auRun = some s ∧ s.calls 0 = some ⟨Ex.auReq, .done (.ok Ex.auPrincipal)⟩ ∧
    s.calls 1 = some ⟨Ex.auReq, .done (.ok Ex.auPrincipal)⟩ ∧ Ex.validators s = [0] := by
  obtain ⟨s, hs, hp⟩ := Ex.exists_of_map (o := aRun Ex.auCfg Ex.auInit Ex.auRun)
    (p := fun s => decide (Ex.doneOk s 0 Ex.auReq = some Ex.auPrincipal) && decide (Ex.doneOk s 1 Ex.auReq = some Ex.auPrincipal) &&
      decide (Ex.validators s = [0])) (by decide +kernel)
  simp only [Bool.and_eq_true, decide_eq_true_eq] at hp
  exact ⟨by decide, s, hs, Ex.doneOk_iff hp.1.1, Ex.doneOk_iff hp.1.2, hp.2⟩

/-- `Authorize` grants by the access token. -/
example : ∃ s x, aRun Ex.auCfg Ex.auInit Ex.auVerify = some s ∧ s.sess 7 = some x ∧ x.result = some (.ok Ex.auPrincipal) := by
  obtain ⟨s, hs, hp⟩ := Ex.exists_of_map (o := aRun Ex.auCfg Ex.auInit Ex.auVerify)
    (p := fun s => match s.sess 7 with | some x => decide (x.result = some (.ok Ex.auPrincipal)) | none => false) (by decide +kernel)
  cases hx : s.sess 7 with
  | none => simp [hx] at hp
  | some x => simp only [hx, decide_eq_true_eq] at hp; exact ⟨s, x, hs, hx, hp⟩

/-! ## C36 a cached grant is only reused for the same request -/

/-- The full statement of C36: every grant goes back to a full check of the same request. -/
def C36_statement : Prop :=
  ∀ (cfg : AuthCfg) (now : Int) (keys : Option KeyProvider) (jwkp : Option JwkProvider) (acts : List AAct) (s : AState) (i : Nat) (q : AReq)
    (p : Principal), 0 ≤ now → aRun cfg (aInit now keys jwkp) acts = some s → s.calls i = some ⟨q, .done (.ok p)⟩ →
    ∃ j q' tb tv, s.calls j = some ⟨q', .done (.ok p)⟩ ∧ FullCheck cfg s.log j q' p tb tv ∧ SameRequest cfg q q'

/-- It holds if no part of any request contains a colon.  Missing: requests with colons. -/
theorem C36_noColon_partial (cfg : AuthCfg) (now : Int) (keys : Option KeyProvider) (jwkp : Option JwkProvider) (acts : List AAct) (s : AState)
    (i : Nat) (q : AReq) (p : Principal) (h0 : 0 ≤ now) (hr : aRun cfg (aInit now keys jwkp) acts = some s)
    (hd : s.calls i = some ⟨q, .done (.ok p)⟩) (hc : ∀ j q' pc, s.calls j = some ⟨q', pc⟩ → NoColon q') :
    ∃ j q' tb tv, s.calls j = some ⟨q', .done (.ok p)⟩ ∧ FullCheck cfg s.log j q' p tb tv ∧ SameRequest cfg q q' := by
  rcases C35_call cfg now h0 keys jwkp acts s hr i q p hd with ⟨tb, tv, h, _⟩ | ⟨_, _, j, q', tb, tv, _, _, _, _, _, h1, h2, h3, _⟩
  · exact ⟨i, q, tb, tv, hd, h, rfl, rfl, fun _ => ⟨rfl, rfl, fun _ => rfl⟩⟩
  · exact ⟨j, q', tb, tv, h1, h3, cacheKey_inj (hc i q _ hd) (hc j q' _ h1) h2.symm⟩

/-- Colons in resources and queries do no harm if there is no translator and either all requests have a certificate or none has one. -/
theorem C36_resources_partial (cfg : AuthCfg) (now : Int) (keys : Option KeyProvider) (jwkp : Option JwkProvider) (acts : List AAct) (s : AState)
    (i : Nat) (q : AReq) (p : Principal) (h0 : 0 ≤ now) (hr : aRun cfg (aInit now keys jwkp) acts = some s)
    (hd : s.calls i = some ⟨q, .done (.ok p)⟩) (hp : cfg.disablePolicyd = false) (ht : cfg.translator = none)
    (hc : ∀ j q' pc, s.calls j = some ⟨q', pc⟩ → ':' ∉ q'.tok ∧ ':' ∉ q'.act ∧ q'.cert.isSome = q.cert.isSome ∧
      ∀ x, q'.cert = some x → ':' ∉ x.issuerCN ∧ ':' ∉ x.subjectCN) :
    ∃ j q' tb tv, s.calls j = some ⟨q', .done (.ok p)⟩ ∧ FullCheck cfg s.log j q' p tb tv ∧ SameRequest cfg q q' := by
  rcases C35_call cfg now h0 keys jwkp acts s hr i q p hd with ⟨tb, tv, h, _⟩ | ⟨_, _, j, q', tb, tv, _, _, _, _, _, h1, h2, h3, _⟩
  · exact ⟨i, q, tb, tv, hd, h, rfl, rfl, fun _ => ⟨rfl, rfl, fun _ => rfl⟩⟩
  · obtain ⟨a1, a2, a3, a4⟩ := hc i q _ hd
    obtain ⟨b1, b2, b3, b4⟩ := hc j q' _ h1
    obtain ⟨c1, c2, c3, c4⟩ := cacheKey_shape hp a1 b1 a2 b2 a4 b4 b3.symm h2.symm
    refine ⟨j, q', tb, tv, h1, h3, c1, c2, fun _ => ⟨c3, ?_, fun h => by simp [ht] at h⟩⟩
    simpa [ht] using c4

/-- Whatever the rest of the requests, tokens without colons are not taken for each other. -/
theorem C36_token_partial (cfg : AuthCfg) (now : Int) (keys : Option KeyProvider) (jwkp : Option JwkProvider) (acts : List AAct) (s : AState)
    (i : Nat) (q : AReq) (p : Principal) (h0 : 0 ≤ now) (hr : aRun cfg (aInit now keys jwkp) acts = some s)
    (hd : s.calls i = some ⟨q, .done (.ok p)⟩) (hc : ∀ j q' pc, s.calls j = some ⟨q', pc⟩ → ':' ∉ q'.tok) :
    ∃ j q' tb tv, s.calls j = some ⟨q', .done (.ok p)⟩ ∧ FullCheck cfg s.log j q' p tb tv ∧ q.tok = q'.tok := by
  rcases C35_call cfg now h0 keys jwkp acts s hr i q p hd with ⟨tb, tv, h, _⟩ | ⟨_, _, j, q', tb, tv, _, _, _, _, _, h1, h2, h3, _⟩
  · exact ⟨i, q, tb, tv, hd, h, rfl⟩
  · exact ⟨j, q', tb, tv, h1, h3, cacheKey_same_tok (hc i q _ hd) (hc j q' _ h1) h2.symm⟩

namespace Ex

/-- The resource "/x:q=1" without query, for which there is no policy. -/
def auReqRes : AReq := { auReq with res := "/x:q=1".toList, query := [] }

def auResRun : List AAct := auFull 0 auReq ++ [.call 1 auReqRes, .get 1]

end Ex

/-- It fails for a resource that looks like another resource with a query: the resource is granted without a policy for it. -/
theorem C36_refuted : ¬ C36_statement := by
  intro h
  obtain ⟨s, hs, hp⟩ := Ex.exists_of_map (o := aRun Ex.auCfg Ex.auInit Ex.auResRun)
    (p := fun s => decide (Ex.doneOk s 0 Ex.auReq = some Ex.auPrincipal) && decide (Ex.doneOk s 1 Ex.auReqRes = some Ex.auPrincipal) &&
      decide (Ex.validators s = [0])) (by decide +kernel)
  simp only [Bool.and_eq_true, decide_eq_true_eq] at hp
  obtain ⟨j, q', tb, tv, h1, h2, h3⟩ := h _ _ _ _ _ s 1 _ _ (by decide) hs (Ex.doneOk_iff hp.1.2)
  obtain ⟨ks, jw, h4, _⟩ := h2.token
  have hj := Ex.mem_validators h4
  rw [hp.2] at hj
  simp only [List.mem_singleton] at hj
  subst hj
  have h5 := Ex.doneOk_iff hp.1.1
  rw [h1] at h5
  simp only [Option.some.injEq, Call.mk.injEq, and_true] at h5
  subst h5
  exact absurd (h3.2.2 rfl).2.1 (by decide)

/-- The policy for that resource, asked directly, does not grant it. -/
example : CheckReturns asciiCase ⟨"dom".toList, ["admin".toList], "read".toList, "/x:q=1".toList⟩ Ex.auView
    [.worker 0, .worker 0, .worker 0, .close, .recv] (.err .noMatch) := Ex.returns_of_ret (by decide +kernel)

/-- A history without colons with a hit. -/
example : ∃ s, aRun Ex.auCfg Ex.auInit Ex.auRun = some s ∧ (∃ p, s.calls 1 = some ⟨Ex.auReq, .done (.ok p)⟩) ∧
    ∀ j q' pc, s.calls j = some ⟨q', pc⟩ → NoColon q' := by
  obtain ⟨s, hs, hp⟩ := Ex.exists_of_map (o := aRun Ex.auCfg Ex.auInit Ex.auRun)
    (p := fun s => decide (Ex.doneOk s 1 Ex.auReq = some Ex.auPrincipal)) (by decide +kernel)
  simp only [decide_eq_true_eq] at hp
  refine ⟨s, hs, ⟨_, Ex.doneOk_iff hp⟩, ?_⟩
  have hn : NoColon Ex.auReq := by
    refine ⟨by decide, by decide, by decide, by decide, ?_⟩
    intro x hx
    simp only [Ex.auReq, Option.some.injEq] at hx
    subst hx
    exact ⟨by decide, by decide⟩
  have hall : ∀ a ∈ Ex.auRun, (∀ i q, a = AAct.call i q → q = Ex.auReq) ∧ ∀ k i, a ≠ .sub k i := by
    intro a ha
    simp only [Ex.auRun, Ex.auFull, List.cons_append, List.nil_append, List.mem_cons, List.not_mem_nil, or_false] at ha
    rcases ha with rfl | rfl | rfl | rfl | rfl | rfl | rfl | rfl | rfl <;> simp
    all_goals (rintro _ _ rfl rfl; rfl)
  intro j q' pc hj
  rw [calls_from hs hall j q' pc hj]
  exact hn

namespace Ex

/-- Without translator; two resources with colons, of which "dom" allows the first. -/
def coCfg : AuthCfg := { auCfg with translator := none }

def coView : PolicyView := fun k =>
  if k = "dom:role.admin".toList then
    ((⟨"dom:role.admin".toList, "read".toList, "dom:a:b".toList, "ALLOW".toList⟩ : RawAssertion).conv asciiCase).map fun x => [x]
  else none

def coReq (res : String) : AReq := { auReq with res := res.toList, query := "a:b".toList }

def coRun : List AAct :=
  [.call 0 (coReq "a:b"), .get 0, .validate 0, .translate 0 0, .check 0 coView schedR, .store 0, .call 1 (coReq "a:b:c"), .get 1,
    .call 2 (coReq "a:b"), .get 2]

end Ex

/-- Requests with colons: a hit for the same resource only. -/
example : ∃ s, aRun Ex.coCfg Ex.auInit Ex.coRun = some s ∧ s.calls 2 = some ⟨Ex.coReq "a:b", .done (.ok Ex.auPrincipal)⟩ ∧
    s.calls 1 = some ⟨Ex.coReq "a:b:c", .miss⟩ ∧ ∀ j q' pc, s.calls j = some ⟨q', pc⟩ → ':' ∉ q'.tok ∧ ':' ∉ q'.act ∧
      q'.cert.isSome = (Ex.coReq "a:b").cert.isSome ∧ ∀ x, q'.cert = some x → ':' ∉ x.issuerCN ∧ ':' ∉ x.subjectCN := by
  obtain ⟨s, hs, hp⟩ := Ex.exists_of_map (o := aRun Ex.coCfg Ex.auInit Ex.coRun)
    (p := fun s => decide (Ex.doneOk s 2 (Ex.coReq "a:b") = some Ex.auPrincipal) &&
      match s.calls 1 with | some ⟨q, .miss⟩ => decide (q = Ex.coReq "a:b:c") | _ => false) (by decide +kernel)
  simp only [Bool.and_eq_true, decide_eq_true_eq] at hp
  refine ⟨s, hs, Ex.doneOk_iff hp.1, ?_, ?_⟩
  · have := hp.2
    split at this
    · rename_i q hq
      simp only [decide_eq_true_eq] at this
      rw [hq, this]
    · simp at this
  have hall : ∀ a ∈ Ex.coRun, (∀ i q, a = AAct.call i q → q = Ex.coReq "a:b" ∨ q = Ex.coReq "a:b:c") ∧ ∀ k i, a ≠ .sub k i := by
    intro a ha
    simp only [Ex.coRun, List.mem_cons, List.not_mem_nil, or_false] at ha
    rcases ha with rfl | rfl | rfl | rfl | rfl | rfl | rfl | rfl | rfl | rfl <;> simp
    all_goals (rintro _ _ rfl rfl; simp)
  intro j q' pc hj
  rcases calls_prop (P := fun q => q = Ex.coReq "a:b" ∨ q = Ex.coReq "a:b:c") hs hall j q' pc hj with rfl | rfl <;>
  · refine ⟨by decide, by decide, rfl, ?_⟩
    intro x hx
    simp only [Ex.coReq, Ex.auReq, Option.some.injEq] at hx
    subst hx
    exact ⟨by decide, by decide⟩

/-! ## C37 refusals are never cached -/

/-- **C37**.  The only step of a call that changes the cache is its store, which makes the call succeed; all else that changes the cache is
expiry and the end of the daemon. -/
theorem C37_cache (cfg : AuthCfg) (s s' : AState) (a : AAct) (h : aStep cfg s a = some s') (hc : s'.cache ≠ s.cache) :
    (∃ i q p, a = .store i ∧ s.calls i = some ⟨q, .checked p⟩ ∧ s'.calls i = some ⟨q, .done (.ok p)⟩) ∨ (∃ sel, a = .sweep sel) ∨ a = .clear := by
  cases aStep_effect h with
  | store i q p hq => exact .inl ⟨i, q, p, rfl, hq, by simp [AState.note, AState.setPc]⟩
  | sweep sel => exact .inr (.inl ⟨sel, rfl⟩)
  | clear => exact .inr (.inr rfl)
  | _ => exact absurd rfl hc

/-- **C37**.  What is in the cache was stored by calls that succeeded. -/
theorem C37_entries (cfg : AuthCfg) (now : Int) (h0 : 0 ≤ now) (keys : Option KeyProvider) (jwkp : Option JwkProvider) (acts : List AAct)
    (s : AState) (hr : aRun cfg (aInit now keys jwkp) acts = some s) (k : Str) (e : GEntry Principal) (he : s.cache k = some e) :
    ∃ j q, s.calls j = some ⟨q, .done (.ok e.val)⟩ ∧ k = cacheKey cfg q := by
  have hi := aInv_run h0 hr
  obtain ⟨j, t, h1, _⟩ := hi.cache k e he
  obtain ⟨_, _, q, h2, h3, _⟩ := hi.stored j t k e.val h1
  exact ⟨j, q, h2, h3⟩

/-- **C37**.  Take any history and leave out any set `I` of calls that did not succeed, with the `Verify` and `Authorize` calls `K` that
made them: all the others go through the same steps with the same results, and the cache is the same. -/
theorem C37_erase (cfg : AuthCfg) (now : Int) (keys : Option KeyProvider) (jwkp : Option JwkProvider) (acts : List AAct) (s : AState)
    (hr : aRun cfg (aInit now keys jwkp) acts = some s) (I K : Nat → Bool) (hsub : ∀ k i, AAct.sub k i ∈ acts → K k = I i)
    (hok : ∀ i q p, I i = true → s.calls i ≠ some ⟨q, .done (.ok p)⟩) :
    ∃ s', aRun cfg (aInit now keys jwkp) (acts.filter fun a => !Belongs I K a) = some s' ∧ SameFor I K s s' := by
  have hE : Erased I K (aInit now keys jwkp) (aInit now keys jwkp) := ⟨⟨rfl, rfl, rfl, rfl, fun _ _ => rfl, fun _ _ => rfl⟩, by simp [aInit]⟩
  obtain ⟨s', h1, h2⟩ := erase_run hE hr hsub hok
  exact ⟨s', h1, h2.toSameFor⟩

namespace Ex

/-- The same token without certificate. -/
def auReqBare : AReq := { auReq with cert := none }

/-- Call 5 is refused, then call 0 succeeds. -/
def auErase : List AAct := [.call 5 auReqBare, .get 5, .call 0 auReq, .validate 5, .get 0, .validate 0, .translate 0 0, .check 0 auView schedR, .store 0]

end Ex

example : ∃ s, aRun Ex.auCfg Ex.auInit Ex.auErase = some s ∧ (∃ e, s.calls 5 = some ⟨Ex.auReqBare, .done (.err e)⟩) ∧
    s.calls 0 = some ⟨Ex.auReq, .done (.ok Ex.auPrincipal)⟩ ∧ (∀ k i, AAct.sub k i ∉ Ex.auErase) ∧
    (Ex.auErase.filter fun a => !Belongs (fun i => i == 5) (fun _ => false) a) = Ex.auFull 0 Ex.auReq := by
  obtain ⟨s, hs, hp⟩ := Ex.exists_of_map (o := aRun Ex.auCfg Ex.auInit Ex.auErase)
    (p := fun s => decide (Ex.doneOk s 0 Ex.auReq = some Ex.auPrincipal) &&
      decide (s.calls 5 = some ⟨Ex.auReqBare, .done (.err (.other "access token"))⟩)) (by decide +kernel)
  simp only [Bool.and_eq_true, decide_eq_true_eq] at hp
  exact ⟨s, hs, ⟨_, hp.2⟩, Ex.doneOk_iff hp.1, by simp [Ex.auErase], rfl⟩

/-! ## C38 expired tokens -/

/-- The full statement of C38: no grant to a request made after the expiry that its token states. -/
def C38_statement : Prop :=
  ∀ (cfg : AuthCfg) (now : Int) (keys : Option KeyProvider) (jwkp : Option JwkProvider) (acts : List AAct) (s : AState) (i : Nat) (q : AReq)
    (p : Principal) (tb e : Int), WfClaims cfg.access.lib → 0 ≤ now → s.now < 2 ^ 63 → aRun cfg (aInit now keys jwkp) acts = some s →
    s.calls i = some ⟨q, .done (.ok p)⟩ → .begun i tb ∈ s.log → ExpiryOf cfg q e → tb ≤ e * 1000000000

/-- What holds: the principal reports the expiry of a token with the same key, which was validated before that expiry; a request that came
later than that was answered from the cache, no later than the lifetime of cached results after the store.  Missing: the cache does not know
the expiry of the token. -/
theorem C38_expiry_partial (cfg : AuthCfg) (now : Int) (keys : Option KeyProvider) (jwkp : Option JwkProvider) (acts : List AAct) (s : AState)
    (i : Nat) (q : AReq) (p : Principal) (tb : Int) (hw : WfClaims cfg.access.lib) (h0 : 0 ≤ now) (h1 : s.now < 2 ^ 63)
    (hr : aRun cfg (aInit now keys jwkp) acts = some s) (hd : s.calls i = some ⟨q, .done (.ok p)⟩) (hb : .begun i tb ∈ s.log) :
    (ExpiryOf cfg q p.expiryTime ∧ tb ≤ p.expiryTime * 1000000000) ∨
    ∃ th j q' tv ts, tb ≤ th ∧ .hit i th ∈ s.log ∧ s.calls j = some ⟨q', .done (.ok p)⟩ ∧ cacheKey cfg q' = cacheKey cfg q ∧
      ExpiryOf cfg q' p.expiryTime ∧ tv ≤ p.expiryTime * 1000000000 ∧ tv ≤ ts ∧ .stored j ts (cacheKey cfg q) p ∈ s.log ∧
      Fresh cfg.cacheExp ts th := by
  have hB := bInv_run hr
  -- calls begin after the start
  have hpos : ∀ j t, AEvent.begun j t ∈ s.log → 0 ≤ t := begun_pos h0 hr
  rcases C35_call cfg now h0 keys jwkp acts s hr i q p hd with
    ⟨tb', tv, h, hn⟩ | ⟨tb', th, j, q', tb'', tv, ts, a1, a2, a3, a4, a5, a6, a7, a8, a9, a10⟩
  · have e1 := hB.uniq i tb tb' hb h.begun
    obtain ⟨ks, jw, h2, h3⟩ := h.token
    have h4 := hpos i tb' h.begun
    have h5 := h.order
    obtain ⟨h6, h7⟩ := tokenSays_expiry hw (by omega) (by omega) h3
    exact .inl ⟨h6, by omega⟩
  · have e1 := hB.uniq i tb tb' hb a1
    obtain ⟨ks, jw, h2, h3⟩ := a7.token
    have h4 := hpos j tb'' a7.begun
    have h5 := a7.order
    have h8 := a10.1
    obtain ⟨h6, h7⟩ := tokenSays_expiry hw (by omega) (by omega) h3
    exact .inr ⟨th, j, q', tv, ts, by omega, a4, a5, a6, h6, h7, a8, a9, a10⟩

namespace Ex

/-- A full check at 1990, and the same request again at 2010. -/
def auLate : List AAct := auFull 0 auReq ++ [.tick 20000000000, .call 1 auReq, .get 1]

def auInit90 : AState := aInit (auT 1990) (some roleKeys) (some atKeys)

theorem auReq_expiry : ExpiryOf auCfg auReq 2000 :=
  ⟨"H".toList, "P".toList, "S".toList, atClaims 1000 atConfirm, by unfold Segments; decide +kernel, rfl, rfl⟩

end Ex

/-- The token expires at 2000 and is accepted at 2010. -/
theorem C38_refuted : ¬ C38_statement := by
  intro h
  obtain ⟨s, hs, hp⟩ := Ex.exists_of_map (o := aRun Ex.auCfg Ex.auInit90 Ex.auLate)
    (p := fun s => decide (Ex.doneOk s 1 Ex.auReq = some Ex.auPrincipal) && decide (s.now < 2 ^ 63) && decide (Ex.auT 2010 ∈ Ex.begins s 1))
    (by decide +kernel)
  simp only [Bool.and_eq_true, decide_eq_true_eq] at hp
  have := h _ _ _ _ _ s 1 _ _ (Ex.auT 2010) 2000 Ex.atLib_wf (by decide) hp.1.2 hs (Ex.doneOk_iff hp.1.1) (Ex.of_begins hp.2) Ex.auReq_expiry
  exact absurd this (by decide)

/-! ## C39 certificate-bound tokens -/

/-- The text has no signature marker of a role token. -/
def Spec.NotRoleToken (tok : Str) : Prop := ∀ a b, tok ≠ a ++ ";s=".toList ++ b

/-- The full statement of C39, for requests that satisfy `ok`: with certificate binding, whoever presents an access token (not a role token)
with success has a certificate that may use it. -/
def C39_statement (ok : AReq → Prop) : Prop :=
  ∀ (cfg : AuthCfg) (now : Int) (keys : Option KeyProvider) (jwkp : Option JwkProvider) (acts : List AAct) (s : AState) (i : Nat) (q : AReq)
    (p : Principal) (c : Claims), cfg.access.mtlsBound = true → 0 ≤ now → aRun cfg (aInit now keys jwkp) acts = some s →
    (∀ j q' pc, s.calls j = some ⟨q', pc⟩ → ok q') →
    s.calls i = some ⟨q, .done (.ok p)⟩ → NotRoleToken q.tok → ClaimsOf cfg q c → ∃ x, q.cert = some x ∧ MayUse cfg x c

theorem segments_inj {tok h p s h' p' s' : Str} (a : Segments tok h p s) (b : Segments tok h' p' s') : h = h' ∧ p = p' ∧ s = s' := by
  have e1 := split_three.mpr a
  have e2 := split_three.mpr b
  rw [e1] at e2
  simpa using e2

/-- What holds if no part of any request contains a colon: the certificate presented has the same subject and issuer names as one that may
use the token.  Missing: the cache does not tell two certificates with the same names from each other. -/
theorem C39_names_partial (cfg : AuthCfg) (now : Int) (keys : Option KeyProvider) (jwkp : Option JwkProvider) (acts : List AAct) (s : AState)
    (i : Nat) (q : AReq) (p : Principal) (c : Claims) (hm : cfg.access.mtlsBound = true) (h0 : 0 ≤ now)
    (hr : aRun cfg (aInit now keys jwkp) acts = some s) (hc : ∀ j q' pc, s.calls j = some ⟨q', pc⟩ → NoColon q')
    (hd : s.calls i = some ⟨q, .done (.ok p)⟩) (hn : NotRoleToken q.tok) (hcl : ClaimsOf cfg q c) :
    ∃ x x', q.cert = some x ∧ x'.subjectCN = x.subjectCN ∧ x'.issuerCN = x.issuerCN ∧ MayUse cfg x' c := by
  obtain ⟨j, q', tb, tv, _, h2, h3, h4, _⟩ := C36_noColon_partial cfg now keys jwkp acts s i q p h0 hr hd hc
  obtain ⟨ks, jw, _, h5⟩ := h2.token
  unfold TokenSays at h5
  cases hmode : q'.mode with
  | roleToken =>
    simp only [hmode] at h5
    obtain ⟨_, rt, _, h6, _⟩ := h5
    obtain ⟨u, sig, kvs, h7, _⟩ := parseRoleToken_ok.mp (accept_iff.mp h6).1
    exact absurd (h3.trans h7.text) (hn _ _)
  | accessToken =>
    simp only [hmode] at h5
    obtain ⟨_, c', _, h6, _⟩ := h5
    obtain ⟨h7, _, h8⟩ := access_iff.mp h6
    obtain ⟨hh, pp, ss, hdr, k, h9, _, h10, _⟩ := parse_iff.mp h7
    obtain ⟨hh', pp', ss', h11, h12⟩ := hcl
    rw [h3] at h11
    obtain ⟨_, rfl, _⟩ := segments_inj h9 h11
    have hcc : c' = c := by
      have : some c' = some c := h10.symm.trans h12
      simpa using this
    subst hcc
    obtain ⟨x', h13, h14⟩ := h8 hm
    rw [h13] at h4
    cases hx : q.cert with
    | none => simp [hx, certNames] at h4
    | some x =>
      simp only [hx, certNames, Option.map_some, Option.some.injEq, Prod.mk.injEq] at h4
      exact ⟨x, x', rfl, h4.2.symm, h4.1.symm, h14⟩

namespace Ex

/-- No certificate; its names are written behind the token. -/
def auThief : AReq := { auReq with tok := "H.P.S:ca:me".toList, cert := none }

def auTheft : List AAct := auFull 0 auReq ++ [.call 1 auThief, .get 1]

/-- Another certificate with the same names. -/
def auTwin : AReq := { auReq with cert := some (atCert "other" 100000 []) }

def auTwinRun : List AAct := auFull 0 auReq ++ [.call 1 auTwin, .get 1]

theorem notRole {tok : Str} (h : Str.cut ";s=".toList tok = none) : NotRoleToken tok := by
  intro a b hab
  exact (Str.cut_none_iff (by decide)).mp h a b hab

end Ex

/-- Without any certificate. -/
theorem C39_refuted : ¬ C39_statement fun _ => True := by
  intro h
  obtain ⟨s, hs, hp⟩ := Ex.exists_of_map (o := aRun Ex.auCfg Ex.auInit Ex.auTheft)
    (p := fun s => decide (Ex.doneOk s 1 Ex.auThief = some Ex.auPrincipal)) (by decide +kernel)
  simp only [decide_eq_true_eq] at hp
  obtain ⟨x, hx, _⟩ := h _ _ _ _ _ s 1 _ _ (Ex.atClaims 1000 Ex.atConfirm) rfl (by decide) hs (fun _ _ _ _ => trivial) (Ex.doneOk_iff hp)
    (Ex.notRole (by decide +kernel)) ⟨"H".toList, "P".toList, "S:ca:me".toList, by unfold Segments; decide +kernel, rfl⟩
  simp [Ex.auThief] at hx

/-- With another certificate of the same names, and no colons anywhere. -/
theorem C39_names_refuted : ¬ C39_statement NoColon := by
  intro h
  obtain ⟨s, hs, hp⟩ := Ex.exists_of_map (o := aRun Ex.auCfg Ex.auInit Ex.auTwinRun)
    (p := fun s => decide (Ex.doneOk s 1 Ex.auTwin = some Ex.auPrincipal)) (by decide +kernel)
  simp only [decide_eq_true_eq] at hp
  have hall : ∀ j q' pc, s.calls j = some ⟨q', pc⟩ → NoColon q' := by
    have hin : ∀ a ∈ Ex.auTwinRun, (∀ i q, a = AAct.call i q → NoColon q) ∧ ∀ k i, a ≠ .sub k i := by
      intro a ha
      simp only [Ex.auTwinRun, Ex.auFull, List.cons_append, List.nil_append, List.mem_cons, List.not_mem_nil, or_false] at ha
      have h1 : NoColon Ex.auReq := by
        refine ⟨by decide, by decide, by decide, by decide, ?_⟩
        intro x hx; simp only [Ex.auReq, Option.some.injEq] at hx; subst hx; exact ⟨by decide, by decide⟩
      have h2 : NoColon Ex.auTwin := by
        refine ⟨by decide, by decide, by decide, by decide, ?_⟩
        intro x hx; simp only [Ex.auTwin, Option.some.injEq] at hx; subst hx; exact ⟨by decide, by decide⟩
      rcases ha with rfl | rfl | rfl | rfl | rfl | rfl | rfl | rfl <;> simp
      all_goals assumption
    exact calls_prop hs hin
  obtain ⟨x, hx, hu⟩ := h _ _ _ _ _ s 1 _ _ (Ex.atClaims 1000 Ex.atConfirm) rfl (by decide) hs hall (Ex.doneOk_iff hp)
    (Ex.notRole (by decide +kernel)) ⟨"H".toList, "P".toList, "S".toList, by unfold Segments; decide +kernel, rfl⟩
  simp only [Ex.auTwin, Option.some.injEq] at hx
  subst hx
  rcases hu with hu | ⟨_, _, hu⟩ | ⟨l, u, _, _, hu⟩
  · have h1 : (Ex.atClaims 1000 Ex.atConfirm).confirm "x5t#S256".toList = some (.str "t-old".toList) := rfl
    unfold BoundTo at hu
    rw [h1] at hu
    simp only [Option.some.injEq, Json.str.injEq] at hu
    exact absurd hu (by decide +kernel)
  · exact absurd hu.2 (by decide +kernel)
  · simp [Ex.atCert] at hu

/-- The thief's request alone, on an empty cache, is refused. -/
example : ∃ s e, aRun Ex.auCfg Ex.auInit [.call 1 Ex.auTwin, .get 1, .validate 1] = some s ∧ s.calls 1 = some ⟨Ex.auTwin, .done (.err e)⟩ := by
  obtain ⟨s, hs, hp⟩ := Ex.exists_of_map (o := aRun Ex.auCfg Ex.auInit [.call 1 Ex.auTwin, .get 1, .validate 1])
    (p := fun s => decide (s.calls 1 = some ⟨Ex.auTwin, .done (.err (.other "access token"))⟩)) (by decide +kernel)
  simp only [decide_eq_true_eq] at hp
  exact ⟨s, _, hs, hp⟩

/-! ## C40 empty action or resource -/

/-- **C40**.  With policies enabled, a call with an empty action or resource never gets anywhere but to the invalid-parameter error. -/
theorem C40_refused (cfg : AuthCfg) (hd : cfg.disablePolicyd = false) (now : Int) (keys : Option KeyProvider) (jwkp : Option JwkProvider)
    (acts : List AAct) (s : AState) (hr : aRun cfg (aInit now keys jwkp) acts = some s) (i : Nat) (q : AReq) (pc : Pc)
    (hc : s.calls i = some ⟨q, pc⟩) (he : q.act = [] ∨ q.res = []) : pc = .start ∨ pc = .done (.err .invalidParameters) :=
  empty_run hd hr i q pc hc he

/-- **C40**.  In any state whatever, its first step is possible, makes it fail with that error and changes nothing else. -/
theorem C40_step (cfg : AuthCfg) (hd : cfg.disablePolicyd = false) (s : AState) (i : Nat) (q : AReq) (hc : s.calls i = some ⟨q, .start⟩)
    (he : q.act = [] ∨ q.res = []) :
    ∃ s', aStep cfg s (.get i) = some s' ∧ s'.calls i = some ⟨q, .done (.err .invalidParameters)⟩ ∧
      (∀ j, j ≠ i → s'.calls j = s.calls j) ∧ s'.cache = s.cache ∧ s'.sess = s.sess ∧ s'.now = s.now ∧ s'.keys = s.keys ∧ s'.jwkp = s.jwkp ∧
      s'.log = s.log := by
  refine ⟨s.setPc i q (.done (.err .invalidParameters)), ?_, by simp [AState.setPc], ?_, rfl, rfl, rfl, rfl, rfl, rfl⟩
  · simp only [aStep, hc, hd, he, and_self, if_true]
  · intro j hj
    simp [AState.setPc, hj]

example : ∃ s, aRun Ex.auCfg Ex.auInit (Ex.auFull 0 Ex.auReq ++ [.call 1 { Ex.auReq with act := [] }, .get 1]) = some s ∧
    s.calls 1 = some ⟨{ Ex.auReq with act := [] }, .done (.err .invalidParameters)⟩ := by
  obtain ⟨s, hs, hp⟩ := Ex.exists_of_map (o := aRun Ex.auCfg Ex.auInit (Ex.auFull 0 Ex.auReq ++ [.call 1 { Ex.auReq with act := [] }, .get 1]))
    (p := fun s => decide (s.calls 1 = some ⟨{ Ex.auReq with act := [] }, .done (.err .invalidParameters)⟩)) (by decide +kernel)
  simp only [decide_eq_true_eq] at hp
  exact ⟨s, hs, hp⟩

/-! ## C41 the combination of credentials -/

/-- **C41**.  The authorizers of a request are those of the enabled credentials, in the order role certificate, access token, role token. -/
theorem C41_order (cfg : AuthCfg) (r : HReq) (act res : Str) :
    Aligned (Asks cfg r act res) ([Credential.roleCert, .access, .role].filter (Credential.enabled cfg)) (authorizers cfg r act res) := by
  have hcert : (match r.tls with | some (x :: _) => some x | _ => none) = peerCert r := by
    unfold peerCert
    cases r.tls with
    | none => rfl
    | some l => cases l <;> rfl
  have h1 : Asks cfg r act res .roleCert (.fails (.other "AuthorizeRoleCert has not yet been implemented")) := ⟨_, rfl⟩
  have h2 : Asks cfg r act res .access (if r.header "Authorization".toList = [] then .fails (.other "no token present in request")
     else .token ⟨.accessToken, stripBearer (r.header "Authorization".toList), act, res, r.rawQuery,
       match r.tls with
       | some (x :: _) => some x
       | _ => none⟩) := by
    split
    · rename_i h; exact .inl ⟨h, _, rfl⟩
    · rename_i h
      rw [hcert]
      exact .inr ⟨h, _, rfl, stripBearer_spec _⟩
  have h3 : Asks cfg r act res .role (.token ⟨.roleToken, r.header cfg.roleAuthHeader, act, res, r.rawQuery, none⟩) := rfl
  unfold authorizers
  cases e1 : cfg.enableRoleCert <;> cases e2 : cfg.enableAccessToken <;> cases e3 : cfg.enableRoleToken <;>
    simp only [List.filter_cons, List.filter_nil, Credential.enabled, e1, e2, e3, if_true, if_false, Bool.false_eq_true, List.nil_append,
      List.cons_append, List.append_nil] <;>
    simp only [Aligned] <;> (repeat' refine And.intro ?_ ?_) <;> first | trivial | exact h1 | exact h2 | exact h3

/-- **C41**.  `Verify` and `Authorize` try the authorizers in order until one does not fail: the result is that one's, and the
invalid-credentials error if all failed.  An authorizer that calls `authorize` has the result of that call. -/
theorem C41_combined (cfg : AuthCfg) (now : Int) (keys : Option KeyProvider) (jwkp : Option JwkProvider) (acts : List AAct) (s : AState)
    (hr : aRun cfg (aInit now keys jwkp) acts = some s) (k : Nat) (r : HReq) (act res : Str) (ho : .opened k r act res ∈ s.log) :
    ∃ x, s.sess k = some x ∧ Combined (authorizers cfg r act res) x.tried x.result ∧
      (∀ e i o, (AuthCall.fails e, i, o) ∈ x.tried → o = .err e) ∧
      ∀ q i o, (AuthCall.token q, i, o) ∈ x.tried → ∃ j, i = some j ∧ s.calls j = some ⟨q, .done o⟩ := by
  obtain ⟨x, h1, h2⟩ := (sInv_run hr).opened k r act res ho
  exact ⟨x, h1, h2.comb, fun e i o hm => (h2.fails e i o hm).2, h2.token⟩

/-- **C41**.  So they succeed exactly if one of the authorizers tried succeeded, with its principal. -/
theorem C41_or (all : List AuthCall) (tried : List (AuthCall × Option Nat × Res Principal)) (result : Option (Res Principal)) (p : Principal)
    (h : Combined all tried result) : result = some (.ok p) ↔ ∃ c i, (c, i, .ok p) ∈ tried := by
  have nf : ∀ {l : List (AuthCall × Option Nat × Res Principal)} {c i}, (∀ x ∈ l, Failed x.2.2) → (c, i, Res.ok p) ∉ l := by
    intro l c i hl hm
    obtain ⟨e, he⟩ := hl _ hm
    simp at he
  constructor
  · rintro rfl
    obtain ⟨pre, c, i, rest, rfl, _⟩ := h
    exact ⟨c, i, by simp⟩
  · rintro ⟨c, i, hm⟩
    match result, h with
    | none, h => exact absurd hm (nf h.1)
    | some (.err e), h => exact absurd hm (nf h.2.1)
    | some (.ok p'), ⟨pre, c', i', rest, h1, h2, _⟩ =>
      rw [h1] at hm
      rcases List.mem_append.mp hm with hm | hm
      · exact absurd hm (nf h2)
      · simp only [List.mem_singleton, Prod.mk.injEq, Res.ok.injEq] at hm
        rw [hm.2.2]
    | some .panic, ⟨pre, c', i', rest, h1, h2, _⟩ =>
      rw [h1] at hm
      rcases List.mem_append.mp hm with hm | hm
      · exact absurd hm (nf h2)
      · simp at hm

/-- **C41**.  A refusal is the invalid-credentials error, and comes after every enabled credential was tried and failed. -/
theorem C41_refusal (all : List AuthCall) (tried : List (AuthCall × Option Nat × Res Principal)) (e : Err)
    (h : Combined all tried (some (.err e))) : e = .invalidCredentials ∧ tried.map (·.1) = all ∧ ∀ x ∈ tried, Failed x.2.2 :=
  ⟨h.1, h.2.2, h.2.1⟩

/-- **C41**.  No such call hangs: as long as it has no result, it or the `authorize` call that it waits for can take a step. -/
theorem C41_progress (cfg : AuthCfg) (now : Int) (keys : Option KeyProvider) (jwkp : Option JwkProvider) (acts : List AAct) (s : AState)
    (hr : aRun cfg (aInit now keys jwkp) acts = some s) (k : Nat) (x : Sess) (hx : s.sess k = some x) (hn : x.result = none) (fresh : Nat)
    (hf : s.calls fresh = none) (view : PolicyView) :
    ∃ a s', (Belongs (fun _ => false) (fun j => j == k) a = true ∨ ∃ i, x.cur = some i ∧ Belongs (fun j => j == i) (fun _ => false) a = true) ∧
      aStep cfg s a = some s' := by
  have hi := sInv_run hr
  obtain ⟨r, act, res, ho⟩ := hi.sess k x hx
  obtain ⟨x', hx', hok⟩ := hi.opened k r act res ho
  rw [hx] at hx'
  simp only [Option.some.injEq] at hx'
  subst hx'
  obtain ⟨todo, cur, result, tried⟩ := x
  simp only at hn
  subst hn
  cases cur with
  | some i =>
    obtain ⟨_, q, rest, pc, h1, h2⟩ := hok.cur i rfl
    simp only at h1
    subst h1
    by_cases hd : ∃ r, pc = .done r
    · obtain ⟨r, rfl⟩ := hd
      refine ⟨.fin k, s.setSess k (Sess.next ⟨.token q :: rest, some i, none, tried⟩ (.token q) rest (some i) r), .inl (by simp [Belongs]), ?_⟩
      simp only [aStep, hx, h2]
    · obtain ⟨a, s', h3, h4⟩ := call_progress (cfg := cfg) h2 (fun r hr => hd ⟨r, hr⟩) view
      exact ⟨a, s', .inr ⟨i, rfl, h3⟩, h4⟩
  | none =>
    obtain ⟨_, c, rest, h1⟩ := hok.comb
    have h2 := hok.todo rfl
    rw [h1] at h2
    have h3 : todo = c :: rest := (List.append_cancel_left h2).symm
    subst h3
    cases c with
    | fails e =>
      refine ⟨.fin k, s.setSess k (Sess.next ⟨.fails e :: rest, none, none, tried⟩ (.fails e) rest none (.err e)), .inl (by simp [Belongs]), ?_⟩
      simp only [aStep, hx]
    | token q =>
      refine ⟨.sub k fresh, ((s.setPc fresh q .start).setSess k ⟨.token q :: rest, some fresh, none, tried⟩).note (.begun fresh s.now),
        .inl (by simp [Belongs]), ?_⟩
      simp only [aStep, hx, hf]

/-- A request for which role certificate and access token fail. -/
example : ∃ s x, aRun Ex.auCfg Ex.auInit [.opened 7 { Ex.auHttp with tls := none } "read".toList "/x".toList, .fin 7, .sub 7 0, .get 0, .validate 0,
      .fin 7, .sub 7 1, .get 1, .validate 1, .fin 7] = some s ∧
    s.sess 7 = some x ∧ x.result = some (.err .invalidCredentials) ∧ x.tried.length = 3 := by
  obtain ⟨s, hs, hp⟩ := Ex.exists_of_map (o := aRun Ex.auCfg Ex.auInit [.opened 7 { Ex.auHttp with tls := none } "read".toList "/x".toList, .fin 7, .sub 7 0,
      .get 0, .validate 0, .fin 7, .sub 7 1, .get 1, .validate 1, .fin 7])
    (p := fun s => match s.sess 7 with | some x => decide (x.result = some (.err .invalidCredentials)) && decide (x.tried.length = 3) | none => false)
    (by decide +kernel)
  cases hx : s.sess 7 with
  | none => simp [hx] at hp
  | some x => simp only [hx, Bool.and_eq_true, decide_eq_true_eq] at hp; exact ⟨s, x, hs, hx, hp⟩

/-! ## C42 role certificates in `Verify` -/

/-- The full statement of C42: if role certificates are enabled and `VerifyRoleCert` accepts the peer's certificates, `Verify` does not
refuse. -/
def C42_statement : Prop :=
  ∀ (cfg : AuthCfg) (now : Int) (keys : Option KeyProvider) (jwkp : Option JwkProvider) (acts : List AAct) (s : AState) (k : Nat) (r : HReq)
    (act res : Str) (x : Sess) (certs : List Cert) (order : List (Str × List Str)) (oracle : List (PolicyView × List CheckAct)),
    cfg.enableRoleCert = true → r.tls = some certs → VerifyRoleCertReturns cfg certs act res order oracle (.ok ()) →
    aRun cfg (aInit now keys jwkp) acts = some s → .opened k r act res ∈ s.log → s.sess k = some x → ∀ e, x.result ≠ some (.err e)

/-- What holds: a role certificate never makes `Verify` or `Authorize` succeed; what succeeds is a token.  Missing: `AuthorizeRoleCert`,
which they use, is not implemented. -/
theorem C42_tokens_partial (cfg : AuthCfg) (now : Int) (keys : Option KeyProvider) (jwkp : Option JwkProvider) (acts : List AAct) (s : AState)
    (hr : aRun cfg (aInit now keys jwkp) acts = some s) (k : Nat) (x : Sess) (p : Principal) (hx : s.sess k = some x)
    (hd : x.result = some (.ok p)) : cfg.enableAccessToken = true ∨ cfg.enableRoleToken = true := by
  have hi := sInv_run hr
  obtain ⟨r, act, res, ho⟩ := hi.sess k x hx
  obtain ⟨x', hx', hok⟩ := hi.opened k r act res ho
  rw [hx] at hx'
  simp only [Option.some.injEq] at hx'
  subst hx'
  have hc := hok.comb
  rw [hd] at hc
  obtain ⟨pre, c, i, rest, h1, _, h3⟩ := hc
  have hm : (c, i, Res.ok p) ∈ x.tried := by rw [h1]; simp
  have hall : c ∈ authorizers cfg r act res := by rw [h3]; simp
  cases c with
  | fails e => have := (hok.fails e i _ hm).2; simp at this
  | token q =>
    cases h4 : cfg.enableAccessToken with
    | true => exact .inl rfl
    | false =>
      cases h5 : cfg.enableRoleToken with
      | true => exact .inr rfl
      | false =>
        simp only [authorizers, h4, h5, Bool.false_eq_true, if_false, List.append_nil] at hall
        split at hall <;> simp at hall

namespace Ex

/-- A certificate of the role "admin" of "dom". -/
def rcCert : Cert := { raw := [], subjectCN := "dom:role.admin".toList, issuerCN := "ca".toList, notBefore := ⟨unixToInternal, 0⟩, uris := [] }

def rcCfg : AuthCfg := { auCfg with enableAccessToken := false, enableRoleToken := false }

def rcHttp : HReq := { tls := some [rcCert], header := fun _ => [], rawQuery := [] }

end Ex

theorem C42_refuted : ¬ C42_statement := by
  intro h
  obtain ⟨s, hs, hp⟩ := Ex.exists_of_map (o := aRun Ex.rcCfg Ex.auInit [.opened 7 Ex.rcHttp "read".toList "/x".toList, .fin 7])
    (p := fun s => match s.sess 7 with | some x => decide (x.result = some (.err .invalidCredentials)) | none => false) (by decide +kernel)
  have ho : AEvent.opened 7 Ex.rcHttp "read".toList "/x".toList ∈ s.log := by
    have := hs
    simp only [aRun, aStep, Ex.auInit, aInit] at this
    simp only [AState.note, AState.setSess, if_true, authorizers, Ex.rcCfg, Ex.auCfg, List.append_nil, Bool.false_eq_true, if_false,
      Option.some.injEq, List.cons_ne_self] at this
    rw [← this]
    simp
  cases hx : s.sess 7 with
  | none => simp [hx] at hp
  | some x =>
    simp only [hx, decide_eq_true_eq] at hp
    refine h Ex.rcCfg _ _ _ _ s 7 Ex.rcHttp _ _ x [Ex.rcCert] [("dom".toList, ["admin".toList])] [(Ex.auView, Ex.schedR)] rfl rfl ?_ hs ho hx _ hp
    unfold VerifyRoleCertReturns
    rw [if_neg (by decide)]
    refine ⟨?_, ?_⟩
    · have : (certRoles Ex.rcCfg.roleCertURIPrefix [Ex.rcCert]).roles = [("dom".toList, ["admin".toList])] := by decide +kernel
      rw [this]
    · rw [if_neg (by decide)]
      decide +kernel

/-! ## C44 without policies -/

/-- **C44**, soundness: nothing is translated or checked, and a grant goes back to the validation of a token, whatever action and resource
are. -/
theorem C44_token_sound (cfg : AuthCfg) (hd : cfg.disablePolicyd = true) (now : Int) (h0 : 0 ≤ now) (keys : Option KeyProvider)
    (jwkp : Option JwkProvider) (acts : List AAct) (s : AState) (hr : aRun cfg (aInit now keys jwkp) acts = some s) :
    (∀ i seed, AEvent.translated i seed ∉ s.log) ∧ (∀ i view sched, AEvent.checked i view sched ∉ s.log) ∧
    ∀ i q p, s.calls i = some ⟨q, .done (.ok p)⟩ → ∃ j q' t ks jw, s.calls j = some ⟨q', .done (.ok p)⟩ ∧ cacheKey cfg q' = cacheKey cfg q ∧
      .validated j t ks jw ∈ s.log ∧ TokenSays cfg t ks jw q' p ∧ p.authorizedRoles = [] := by
  refine ⟨(noPolicy_run hd hr).1, (noPolicy_run hd hr).2.1, ?_⟩
  intro i q p hc
  rcases C35_call cfg now h0 keys jwkp acts s hr i q p hc with ⟨tb, tv, h, _⟩ | ⟨_, _, j, q', tb, tv, _, _, _, _, _, h1, h2, h3, _⟩
  · obtain ⟨ks, jw, h4, h5⟩ := h.token
    exact ⟨i, q, tv, ks, jw, hc, rfl, h4, h5, h.noPolicy hd⟩
  · obtain ⟨ks, jw, h4, h5⟩ := h3.token
    exact ⟨j, q', tv, ks, jw, h1, h2, h4, h5, h3.noPolicy hd⟩

/-- **C44**, completeness: in any state, a call whose result is not cached and whose token is valid now succeeds by two steps of its own,
whatever action and resource are. -/
theorem C44_token_complete (cfg : AuthCfg) (hd : cfg.disablePolicyd = true) (s : AState) (i : Nat) (q : AReq)
    (hc : s.calls i = some ⟨q, .start⟩) (hg : s.cache.get s.now (cacheKey cfg q) = none) :
    (∀ p, validateToken cfg s.keys s.jwkp (clock s.now) q = .ok p → ∃ s', aRun cfg s [.get i, .validate i, .store i] = some s' ∧
      s'.calls i = some ⟨q, .done (.ok p)⟩) ∧
    ∀ e, validateToken cfg s.keys s.jwkp (clock s.now) q = .err e → ∃ s', aRun cfg s [.get i, .validate i] = some s' ∧
      s'.calls i = some ⟨q, .done (.err e)⟩ := by
  constructor
  · intro p hv
    simp [aRun, aStep, hc, hd, hg, AState.setPc, AState.note, hv]
  · intro e hv
    simp [aRun, aStep, hc, hd, hg, AState.setPc, AState.note, hv]

/-- The part of C44 on role certificates. -/
def C44_roleCert_statement : Prop :=
  ∀ (cfg : AuthCfg) (certs : List Cert) (act res : Str) (order : List (Str × List Str)) (oracle : List (PolicyView × List CheckAct)),
    cfg.disablePolicyd = true → VerifyRoleCertReturns cfg certs act res order oracle (.ok ()) →
    ∃ d r, NamesRole cfg.roleCertURIPrefix certs d r

/-- It fails: without policies `VerifyRoleCert` accepts also no certificate at all. -/
theorem C44_roleCert_refuted : ¬ C44_roleCert_statement := by
  intro h
  obtain ⟨d, r, x, hx, _⟩ := h { Ex.auCfg with disablePolicyd := true } [] [] [] [] [] rfl rfl
  simp at hx

/-- An empty action with a valid token. -/
example : ∃ s, aRun { Ex.auCfg with disablePolicyd := true } Ex.auInit [.call 0 { Ex.auReq with act := [] }, .get 0, .validate 0, .store 0] = some s ∧
    s.calls 0 = some ⟨{ Ex.auReq with act := [] }, .done (.ok { Ex.auPrincipal with authorizedRoles := [] })⟩ := by
  obtain ⟨s, hs, hp⟩ := Ex.exists_of_map (o := aRun { Ex.auCfg with disablePolicyd := true } Ex.auInit
      [.call 0 { Ex.auReq with act := [] }, .get 0, .validate 0, .store 0])
    (p := fun s => decide (Ex.doneOk s 0 { Ex.auReq with act := [] } = some { Ex.auPrincipal with authorizedRoles := [] })) (by decide +kernel)
  simp only [decide_eq_true_eq] at hp
  exact ⟨s, hs, Ex.doneOk_iff hp⟩

/-! ## C45 the principal -/

/-- **C45**.  The principal of a grant reports what the validated token says; with policies the authorized roles are a non-empty
sub-collection of its roles, without there are none. -/
theorem C45_principal (cfg : AuthCfg) (now : Int) (h0 : 0 ≤ now) (keys : Option KeyProvider) (jwkp : Option JwkProvider) (acts : List AAct)
    (s : AState) (hr : aRun cfg (aInit now keys jwkp) acts = some s) (i : Nat) (q : AReq) (p : Principal)
    (hd : s.calls i = some ⟨q, .done (.ok p)⟩) :
    ∃ j q' t ks jw, s.calls j = some ⟨q', .done (.ok p)⟩ ∧ cacheKey cfg q' = cacheKey cfg q ∧ .validated j t ks jw ∈ s.log ∧
      TokenSays cfg t ks jw q' p ∧
      (cfg.disablePolicyd = false → p.authorizedRoles ≠ [] ∧ ∃ l, p.authorizedRoles.Perm l ∧ l.Sublist p.roles) ∧
      (cfg.disablePolicyd = true → p.authorizedRoles = []) := by
  have roles : ∀ {j q' tb tv}, FullCheck cfg s.log j q' p tb tv →
      cfg.disablePolicyd = false → p.authorizedRoles ≠ [] ∧ ∃ l, p.authorizedRoles.Perm l ∧ l.Sublist p.roles := by
    intro j q' tb tv h hp
    obtain ⟨_, _, seed, view, sched, _, _, act, res, _, hc⟩ := h.policy hp
    exact check_sub hc
  rcases C35_call cfg now h0 keys jwkp acts s hr i q p hd with ⟨tb, tv, h, _⟩ | ⟨_, _, j, q', tb, tv, _, _, _, _, _, h1, h2, h3, _⟩
  · obtain ⟨ks, jw, h4, h5⟩ := h.token
    exact ⟨i, q, tv, ks, jw, hd, rfl, h4, h5, roles h, h.noPolicy⟩
  · obtain ⟨ks, jw, h4, h5⟩ := h3.token
    exact ⟨j, q', tv, ks, jw, h1, h2, h4, h5, roles h3, h3.noPolicy⟩

/-- The principal of a hit is that of the access token: name, role, domain, times and client. -/
example : ∃ s, aRun Ex.auCfg Ex.auInit Ex.auRun = some s ∧
    s.calls 1 = some ⟨Ex.auReq, .done (.ok ⟨"me".toList, ["admin".toList], "dom".toList, 1000, 2000, ["admin".toList], some "me".toList⟩)⟩ := by
  obtain ⟨s, hs, hp⟩ := Ex.exists_of_map (o := aRun Ex.auCfg Ex.auInit Ex.auRun)
    (p := fun s => decide (Ex.doneOk s 1 Ex.auReq = some Ex.auPrincipal)) (by decide +kernel)
  simp only [decide_eq_true_eq] at hp
  exact ⟨s, hs, Ex.doneOk_iff hp⟩

end Athenz
