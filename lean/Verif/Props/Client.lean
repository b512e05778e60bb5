import Verif.Model.Client
import Verif.Proofs.Num

/-! # C55: the retrying transport -/

namespace Athenz

/-- The calls of the inner transport. -/
def Spec.calls : List RtEvent → List Nat
  | [] => []
  | .call n :: es => n :: calls es
  | .sleep _ _ :: es => calls es

/-- After this attempt another one may follow: a response that asks for it, or a temporary error with a pause that ends before the limit. -/
def Spec.GoesOn (cfg : RtCfg) (limit : Int) (cnt : Nat) (a : Attempt) : Prop :=
  (∃ status body, a = .resp status body ∧ (status = 429 ∨ status = 500 ∨ status = 503 ∨ status = 504)) ∨
  (∃ e now, a = .fail true e now ∧ wrap64 (now + cfg.dur cnt) < limit)

/-- The outcome of an attempt as it is. -/
def Spec.asIs : Attempt → Option Resp × Option Str
  | .fail _ e _ => (none, some e)
  | .resp status body => (some ⟨status, body, true⟩, none)

/-- The outcome with the body read to its end and closed. -/
def Spec.drained : Attempt → Option Resp × Option Str
  | .fail _ e _ => (none, some e)
  | .resp status body => (some ⟨status, body, false⟩, none)

open Spec

theorem retryable_iff (status : Nat) : retryable status = true ↔ status = 429 ∨ status = 500 ∨ status = 503 ∨ status = 504 := by
  simp [retryable, or_assoc]

/-- The loop, exactly. -/
theorem rtLoop_spec (cfg : RtCfg) (env : Nat → Attempt) (limit : Int) (fuel : Nat) : ∀ cnt last,
    ∃ n, n ≤ fuel ∧ calls (rtLoop cfg env limit fuel cnt last).1 = List.range' cnt n ∧
      (∀ now d, RtEvent.sleep now d ∈ (rtLoop cfg env limit fuel cnt last).1 → wrap64 (now + d) < limit ∧
        ∃ i e, cnt ≤ i ∧ i < cnt + n ∧ env i = .fail true e now ∧ d = cfg.dur i) ∧
      ((n = fuel ∧ (∀ i, i < n → GoesOn cfg limit (cnt + i) (env (cnt + i))) ∧
          (rtLoop cfg env limit fuel cnt last).2 = if n = 0 then last else asIs (env (cnt + n - 1))) ∨
       (0 < n ∧ (∀ i, i + 1 < n → GoesOn cfg limit (cnt + i) (env (cnt + i))) ∧ ¬ GoesOn cfg limit (cnt + n - 1) (env (cnt + n - 1)) ∧
          (rtLoop cfg env limit fuel cnt last).2 = drained (env (cnt + n - 1)))) := by
  induction fuel with
  | zero =>
    intro cnt last
    exact ⟨0, Nat.le_refl _, rfl, by simp [rtLoop], .inl ⟨rfl, by simp, rfl⟩⟩
  | succ fuel ih =>
    intro cnt last
    -- the loop ends here
    have ends : ∀ r, rtLoop cfg env limit (fuel + 1) cnt last = ([.call cnt], r) → ¬ GoesOn cfg limit cnt (env cnt) → r = drained (env cnt) →
        ∃ n, n ≤ fuel + 1 ∧ calls (rtLoop cfg env limit (fuel + 1) cnt last).1 = List.range' cnt n ∧
          (∀ now d, RtEvent.sleep now d ∈ (rtLoop cfg env limit (fuel + 1) cnt last).1 → wrap64 (now + d) < limit ∧
            ∃ i e, cnt ≤ i ∧ i < cnt + n ∧ env i = .fail true e now ∧ d = cfg.dur i) ∧
          ((n = fuel + 1 ∧ (∀ i, i < n → GoesOn cfg limit (cnt + i) (env (cnt + i))) ∧
              (rtLoop cfg env limit (fuel + 1) cnt last).2 = if n = 0 then last else asIs (env (cnt + n - 1))) ∨
           (0 < n ∧ (∀ i, i + 1 < n → GoesOn cfg limit (cnt + i) (env (cnt + i))) ∧ ¬ GoesOn cfg limit (cnt + n - 1) (env (cnt + n - 1)) ∧
              (rtLoop cfg env limit (fuel + 1) cnt last).2 = drained (env (cnt + n - 1)))) := by
      intro r h hg hr
      rw [h]
      exact ⟨1, by omega, rfl, by simp, .inr ⟨by omega, by omega, hg, hr⟩⟩
    -- the loop goes on
    have goes : ∀ evs, (∀ now d, RtEvent.sleep now d ∈ evs → wrap64 (now + d) < limit ∧ ∃ e, env cnt = .fail true e now ∧ d = cfg.dur cnt) →
        calls evs = [] →
        rtLoop cfg env limit (fuel + 1) cnt last = (.call cnt :: evs ++ (rtLoop cfg env limit fuel (cnt + 1) (asIs (env cnt))).1,
          (rtLoop cfg env limit fuel (cnt + 1) (asIs (env cnt))).2) → GoesOn cfg limit cnt (env cnt) →
        ∃ n, n ≤ fuel + 1 ∧ calls (rtLoop cfg env limit (fuel + 1) cnt last).1 = List.range' cnt n ∧
          (∀ now d, RtEvent.sleep now d ∈ (rtLoop cfg env limit (fuel + 1) cnt last).1 → wrap64 (now + d) < limit ∧
            ∃ i e, cnt ≤ i ∧ i < cnt + n ∧ env i = .fail true e now ∧ d = cfg.dur i) ∧
          ((n = fuel + 1 ∧ (∀ i, i < n → GoesOn cfg limit (cnt + i) (env (cnt + i))) ∧
              (rtLoop cfg env limit (fuel + 1) cnt last).2 = if n = 0 then last else asIs (env (cnt + n - 1))) ∨
           (0 < n ∧ (∀ i, i + 1 < n → GoesOn cfg limit (cnt + i) (env (cnt + i))) ∧ ¬ GoesOn cfg limit (cnt + n - 1) (env (cnt + n - 1)) ∧
              (rtLoop cfg env limit (fuel + 1) cnt last).2 = drained (env (cnt + n - 1)))) := by
      intro evs hev hc h hg
      rw [h]
      obtain ⟨n, h1, h2, h3, h4⟩ := ih (cnt + 1) (asIs (env cnt))
      refine ⟨n + 1, by omega, ?_, ?_, ?_⟩
      · have app : ∀ a b, calls (a ++ b) = calls a ++ calls b := by
          intro a b
          induction a with
          | nil => rfl
          | cons x a ih => cases x <;> simp [calls, ih]
        simp only [List.cons_append, calls, app, hc, h2, List.nil_append, List.range'_succ]
      · intro now d hm
        simp only [List.cons_append, List.mem_cons, reduceCtorEq, false_or, List.mem_append] at hm
        rcases hm with hm | hm
        · obtain ⟨j1, e, j2, j3⟩ := hev now d hm
          exact ⟨j1, cnt, e, by omega, by omega, j2, j3⟩
        · obtain ⟨j1, i, e, j2, j3, j4⟩ := h3 now d hm
          exact ⟨j1, i, e, by omega, by omega, j4⟩
      · have shift : ∀ i, cnt + 1 + i = cnt + (i + 1) := by omega
        rcases h4 with ⟨q1, q2, q3⟩ | ⟨q1, q2, q3, q4⟩
        · left
          refine ⟨by omega, ?_, ?_⟩
          · intro i hi
            cases i with
            | zero => exact hg
            | succ i => rw [← shift]; exact q2 i (by omega)
          · show (rtLoop cfg env limit fuel (cnt + 1) (asIs (env cnt))).2 = _
            have e1 : cnt + (n + 1) - 1 = cnt + n := by omega
            rw [q3, if_neg (Nat.succ_ne_zero n), e1]
            by_cases hz : n = 0
            · rw [if_pos hz, hz]; rfl
            · have e2 : cnt + 1 + n - 1 = cnt + n := by omega
              rw [if_neg hz, e2]
        · right
          have e1 : cnt + (n + 1) - 1 = cnt + 1 + n - 1 := by omega
          refine ⟨by omega, ?_, by rw [e1]; exact q3, by rw [e1]; exact q4⟩
          intro i hi
          cases i with
          | zero => exact hg
          | succ i => rw [← shift]; exact q2 i (by omega)
    cases he : env cnt with
    | fail temporary e now =>
      cases temporary with
      | false =>
        refine ends (none, some e) (by simp [rtLoop, he]) ?_ (by rw [he]; rfl)
        rw [he]
        rintro (⟨_, _, h, _⟩ | ⟨_, _, h, _⟩) <;> cases h
      | true =>
        by_cases hr : wrap64 (now + cfg.dur cnt) < limit
        · refine goes [.sleep now (cfg.dur cnt)] ?_ rfl ?_ (.inr ⟨e, now, he, hr⟩)
          · intro now' d h
            simp only [List.mem_singleton, RtEvent.sleep.injEq] at h
            obtain ⟨rfl, rfl⟩ := h
            exact ⟨hr, e, he, rfl⟩
          · simp [rtLoop, he, canRetry, hr, asIs]
        · refine ends (none, some e) (by simp [rtLoop, he, canRetry, hr]) ?_ (by rw [he]; rfl)
          rw [he]
          rintro (⟨_, _, h, _⟩ | ⟨_, _, h, h'⟩)
          · cases h
          · cases h; exact hr h'
    | resp status body =>
      by_cases hr : retryable status = true
      · exact goes [] (by simp) rfl (by simp [rtLoop, he, hr, asIs]) (.inl ⟨status, body, he, (retryable_iff status).mp hr⟩)
      · refine ends (some ⟨status, body, false⟩, none) (by simp [rtLoop, he, hr]) ?_ (by rw [he]; rfl)
        rw [he]
        rintro (⟨_, _, h, h'⟩ | ⟨_, _, h, _⟩)
        · cases h; exact hr ((retryable_iff status).mpr h')
        · cases h

/-- **C55**, the whole of it: `RoundTrip` calls the transport `n` times, at most `maxRetryCount` times.  All calls but the last one may be followed by
another one.  Either the count is used up, and the outcome of the last call is returned as it is; or the last call may not be followed by
another one, and its outcome is returned, a response with its body read and closed. -/
theorem C55_exact (cfg : RtCfg) (env : Nat → Attempt) (now0 : Int) :
    ∃ n : Nat, n ≤ cfg.maxRetryCount.toNat ∧ calls (roundTrip cfg env now0).1 = List.range n ∧
      (∀ i, i + 1 < n → GoesOn cfg (wrap64 (now0 + cfg.maxRetryTime)) i (env i)) ∧
      (((n = 0 ∧ cfg.maxRetryCount ≤ 0 ∧ (roundTrip cfg env now0).2 = (none, none)) ∨
        (0 < n ∧ n = cfg.maxRetryCount.toNat ∧ GoesOn cfg (wrap64 (now0 + cfg.maxRetryTime)) (n - 1) (env (n - 1)) ∧
          (roundTrip cfg env now0).2 = asIs (env (n - 1)))) ∨
       (0 < n ∧ ¬ GoesOn cfg (wrap64 (now0 + cfg.maxRetryTime)) (n - 1) (env (n - 1)) ∧ (roundTrip cfg env now0).2 = drained (env (n - 1)))) := by
  obtain ⟨n, h1, h2, _, h4⟩ := rtLoop_spec cfg env (wrap64 (now0 + cfg.maxRetryTime)) cfg.maxRetryCount.toNat 0 (none, none)
  simp only [Nat.zero_add] at h4
  refine ⟨n, h1, by rw [List.range_eq_range']; exact h2, ?_, ?_⟩
  · intro i hi
    rcases h4 with ⟨_, q, _⟩ | ⟨_, q, _, _⟩
    · exact q i (by omega)
    · exact q i hi
  · rcases h4 with ⟨q1, q2, q3⟩ | ⟨q1, q2, q3, q4⟩
    · left
      by_cases hn : n = 0
      · left
        rw [if_pos hn] at q3
        exact ⟨hn, by omega, q3⟩
      · right
        rw [if_neg hn] at q3
        exact ⟨by omega, q1, q2 (n - 1) (by omega), q3⟩
    · exact .inr ⟨q1, q3, q4⟩

/-- **C55**.  The transport is called at most `maxRetryCount` times. -/
theorem C55_calls (cfg : RtCfg) (env : Nat → Attempt) (now0 : Int) : ((calls (roundTrip cfg env now0).1).length : Int) ≤ max 0 cfg.maxRetryCount := by
  obtain ⟨n, h1, h2, _⟩ := C55_exact cfg env now0
  rw [h2, List.length_range]
  omega

/-- **C55**.  At the first error that is not temporary, and at the first response that does not ask for another attempt, it returns at once. -/
theorem C55_at_once (cfg : RtCfg) (env : Nat → Attempt) (now0 : Int) (i : Nat) (hi : i ∈ calls (roundTrip cfg env now0).1)
    (hf : (∃ e now, env i = .fail false e now) ∨ (∃ status body, env i = .resp status body ∧ status ∉ [429, 500, 503, 504])) :
    calls (roundTrip cfg env now0).1 = List.range (i + 1) ∧ (roundTrip cfg env now0).2 = drained (env i) := by
  obtain ⟨n, h1, h2, h3, h4⟩ := C55_exact cfg env now0
  have hno : ∀ limit, ¬ GoesOn cfg limit i (env i) := by
    rintro limit (⟨status, body, hq, hs⟩ | ⟨e, now, hq, _⟩)
    · rcases hf with ⟨_, _, hf⟩ | ⟨_, _, hf, hn⟩
      · rw [hf] at hq; cases hq
      · rw [hf] at hq; cases hq; simp only [List.mem_cons, List.not_mem_nil, or_false] at hn; exact hn hs
    · rcases hf with ⟨_, _, hf⟩ | ⟨_, _, hf, _⟩ <;> rw [hf] at hq <;> cases hq
  rw [h2, List.mem_range] at hi
  have hn : n = i + 1 := by
    by_cases hlt : i + 1 < n
    · exact absurd (h3 i hlt) (hno _)
    · omega
  subst hn
  refine ⟨h2, ?_⟩
  rcases h4 with (⟨h, _⟩ | ⟨_, _, hg, _⟩) | ⟨_, _, h⟩
  · omega
  · exact absurd hg (hno _)
  · exact h

/-- **C55**.  A pause is begun only if it ends before the limit, as far as the times can be written as 64-bit nanoseconds. -/
theorem C55_sleep (cfg : RtCfg) (env : Nat → Attempt) (now0 now d : Int) (hs : RtEvent.sleep now d ∈ (roundTrip cfg env now0).1)
    (h0 : IsInt64 (now0 + cfg.maxRetryTime)) (h1 : IsInt64 (now + d)) : now + d < now0 + cfg.maxRetryTime := by
  obtain ⟨n, _, _, h3, _⟩ := rtLoop_spec cfg env (wrap64 (now0 + cfg.maxRetryTime)) cfg.maxRetryCount.toNat 0 (none, none)
  have := (h3 now d hs).1
  rwa [wrap64_id h0, wrap64_id h1] at this

/-- **C55**.  Without pauses there is no other reason to wait: between two calls there is a pause exactly if the first one gave an error. -/
theorem C55_pauses (cfg : RtCfg) (env : Nat → Attempt) (now0 now d : Int) (hs : RtEvent.sleep now d ∈ (roundTrip cfg env now0).1) :
    ∃ i e, i ∈ calls (roundTrip cfg env now0).1 ∧ env i = .fail true e now ∧ d = cfg.dur i := by
  obtain ⟨n, _, h2, h3, _⟩ := rtLoop_spec cfg env (wrap64 (now0 + cfg.maxRetryTime)) cfg.maxRetryCount.toNat 0 (none, none)
  obtain ⟨_, i, e, j1, j2, j3, j4⟩ := h3 now d hs
  refine ⟨i, e, ?_, j3, j4⟩
  show i ∈ calls (rtLoop _ _ _ _ _ _).1
  rw [h2]
  simp only [List.mem_range']
  exact ⟨i, by omega, by omega⟩

/-- The full statement of C55: there is a response or an error, and the caller can read the body of the response. -/
def C55_statement : Prop :=
  ∀ (cfg : RtCfg) (env : Nat → Attempt) (now0 : Int), ((roundTrip cfg env now0).2.1.isSome ∨ (roundTrip cfg env now0).2.2.isSome) ∧
    ∀ r, (roundTrip cfg env now0).2.1 = some r → r.open' = true

/-- **C55**, what holds: with a positive count there is exactly one of the two; and a response has a body that can be read only if it asks for
another attempt, for which the count does not suffice.  Missing: the body of a response that is a success. -/
theorem C55_result_partial (cfg : RtCfg) (env : Nat → Attempt) (now0 : Int) (hc : 0 < cfg.maxRetryCount) :
    ((roundTrip cfg env now0).2.1.isSome ↔ (roundTrip cfg env now0).2.2 = none) ∧
    ∀ r, (roundTrip cfg env now0).2.1 = some r → (r.open' = true ↔ r.status ∈ [429, 500, 503, 504]) := by
  obtain ⟨n, h1, h2, h3, h4⟩ := C55_exact cfg env now0
  rcases h4 with (⟨_, h, _⟩ | ⟨_, _, hg, h⟩) | ⟨_, hg, h⟩
  · omega
  · rw [h]
    rcases hg with ⟨status, body, hq, hs⟩ | ⟨e, now, hq, _⟩
    · rw [hq]
      refine ⟨by simp [asIs], ?_⟩
      intro r hr
      simp only [asIs, Option.some.injEq] at hr
      subst hr
      simpa using hs
    · rw [hq]
      exact ⟨by simp [asIs], by simp [asIs]⟩
  · rw [h]
    cases hq : env (n - 1) with
    | fail t e now => exact ⟨by simp [drained], by simp [drained]⟩
    | resp status body =>
      refine ⟨by simp [drained], ?_⟩
      intro r hr
      simp only [drained, Option.some.injEq] at hr
      subst hr
      simp only [Bool.false_eq_true, false_iff]
      intro hm
      apply hg
      rw [hq]
      exact .inl ⟨status, body, rfl, by simpa using hm⟩

/-- The body of every successful response has already been thrown away. -/
theorem C55_refuted : ¬ C55_statement := by
  intro h
  have := (h ⟨fun _ => 0, 1, 0⟩ (fun _ => .resp 200 "policies".toList) 0).2 ⟨200, "policies".toList, false⟩ (by decide)
  cases this

/-- With a count that is not positive there is neither response nor error. -/
theorem C55_zero (cfg : RtCfg) (env : Nat → Attempt) (now0 : Int) (hc : cfg.maxRetryCount ≤ 0) : roundTrip cfg env now0 = ([], none, none) := by
  unfold roundTrip
  rw [show cfg.maxRetryCount.toNat = 0 by omega]
  rfl

/-- A temporary error, a pause, a response that asks for another attempt, and a success. -/
example : roundTrip ⟨fun n => 2 * n + 1, 5, 100⟩
      (fun n => if n = 0 then .fail true "e".toList 10 else if n = 1 then .resp 503 "busy".toList else .resp 200 "ok".toList) 0 =
    ([.call 0, .sleep 10 1, .call 1, .call 2], some ⟨200, "ok".toList, false⟩, none) := by decide +kernel

end Athenz
