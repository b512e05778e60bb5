import Verif.Proofs.Timing

/-! # C93: how long updates of the policies take, and how they end when they are cancelled -/

namespace Athenz

/-- **C93**, the part about cancellation, as one would want it: an `Update` whose context is cancelled at `T` has returned at `T`, or at once if
it is called later, provided that requests end when their context is cancelled. -/
def C93_statement : Prop :=
  ∀ (delay retryAttempts T now : Int) (doms : List TServer), (∀ env ∈ doms, Spec.EndsOnCancel T env) →
    timedUpdate delay retryAttempts (some T) doms now ≤ max now T

namespace Ex

/-- Requests take 5; the first two fail. -/
def tmFlaky : TServer := fun i _ => ⟨5, decide (2 ≤ i)⟩

/-- Never answers; a context that is cancelled at `T` ends requests. -/
def tmHang (T : Int) : TServer := fun _ t => ⟨(T - t).toNat, false⟩

theorem tmHang_ends (T : Int) : Spec.EndsOnCancel T (tmHang T) :=
  ⟨fun i t h => by simp [tmHang]; omega, fun i t h => ⟨by simp [tmHang]; omega, rfl⟩⟩

theorem tmFlaky_atMost : Spec.AtMost 5 tmFlaky := fun _ _ => Nat.le_refl _

end Ex

/-- **C93**, what a call of `FetchWithRetry` does: requests and pauses, each beginning when the one before is over, at most
`retryAttempts + 1` requests; it ends after the time of its requests and a pause of `retryDelay` for each that failed. -/
theorem C93_fetch (delay retryAttempts now : Int) (env : TServer) :
    Spec.Follows now (timedFetch delay retryAttempts env now).1 (timedFetch delay retryAttempts env now).2.1 ∧
    (timedFetch delay retryAttempts env now).1.countP Spec.isFetch ≤ (retryAttempts + 1).toNat ∧
    (∀ t d, TEvent.sleep t d ∈ (timedFetch delay retryAttempts env now).1 → d = delay.toNat) ∧
    (timedFetch delay retryAttempts env now).2.1
      = now + Spec.requestTime (timedFetch delay retryAttempts env now).1
        + ((timedFetch delay retryAttempts env now).1.countP Spec.isFailed) * delay.toNat :=
  ⟨TimingP.follows _ _ _, TimingP.fetches _ _ _, fun t d h => TimingP.sleeps _ _ _ t d h, TimingP.exact _ _ _⟩

/-- **C93**, success: it ends with the first request that succeeds. -/
theorem C93_success (delay retryAttempts now : Int) (env : TServer) (h : (timedFetch delay retryAttempts env now).2.2 = true) :
    ∃ t f, (timedFetch delay retryAttempts env now).1.getLast? = some (.fetch t f) ∧ f.ok = true ∧
      (timedFetch delay retryAttempts env now).1.countP Spec.isFetch = (timedFetch delay retryAttempts env now).1.countP Spec.isFailed + 1 :=
  TimingP.succeeded _ _ _ h

example : (timedFetch 3 4 Ex.tmFlaky 100).2.2 = true ∧ (timedFetch 3 4 Ex.tmFlaky 100).2.1 = 121 := by decide +kernel

/-- **C93**, failure: all requests were made, and after the last one there is a pause that no request follows. -/
theorem C93_failure (delay retryAttempts now : Int) (env : TServer) (hn : 0 ≤ retryAttempts)
    (h : (timedFetch delay retryAttempts env now).2.2 = false) :
    (timedFetch delay retryAttempts env now).1.countP Spec.isFailed = (retryAttempts + 1).toNat ∧
    ∃ t, (timedFetch delay retryAttempts env now).1.getLast? = some (.sleep t delay.toNat) := by
  refine ⟨(TimingP.failed _ _ _ h).2, ?_⟩
  have e : (retryAttempts + 1).toNat = retryAttempts.toNat + 1 := by omega
  unfold timedFetch at h ⊢
  rw [e] at h ⊢
  exact TimingP.last_pause _ _ _ h

example : (timedFetch 3 1 Ex.tmFlaky 100).2.2 = false ∧ (timedFetch 3 1 Ex.tmFlaky 100).1.getLast? = some (.sleep 113 3) := by decide +kernel

/-- **C93**, the bound: if no request takes longer than `D`, an `Update` is past its fetches after `retryAttempts + 1` times `D` and a pause,
however many domains there are and whatever the answers. -/
theorem C93_bound (delay retryAttempts now : Int) (D : Nat) (cancel : Option Int) (doms : List TServer) (hD : ∀ env ∈ doms, Spec.AtMost D env) :
    now ≤ timedUpdate delay retryAttempts cancel doms now ∧
    timedUpdate delay retryAttempts cancel doms now ≤ now + (retryAttempts + 1).toNat * ((D : Int) + delay.toNat) := by
  have hp : (0 : Int) ≤ (retryAttempts + 1).toNat * ((D : Int) + delay.toNat) := by positivity
  by_cases hc : ∀ t, cancel = some t → now < t
  · obtain ⟨_, h⟩ := TimingP.update_ends (delay := delay) (n := retryAttempts) (doms := doms) hc
    rcases h with h | ⟨env, he, h⟩
    · rw [h]; omega
    · rw [h]; exact ⟨TimingP.mono _ _ _, TimingP.bound (hD env he) _ _ _⟩
  · have : timedUpdate delay retryAttempts cancel doms now = now := by
      cases cancel with
      | none => exact absurd (fun t h => by cases h) hc
      | some t =>
        have : t ≤ now := by
          apply Classical.byContradiction; intro hlt; apply hc; intro t' h'; cases h'; omega
        simp [timedUpdate, this]
    rw [this]; omega

example : (∀ env ∈ [Ex.tmFlaky, Ex.tmFlaky], Spec.AtMost 5 env) ∧ timedUpdate 3 1 none [Ex.tmFlaky, Ex.tmFlaky] 100 = 100 + 2 * (5 + 3) :=
  ⟨by simp [Ex.tmFlaky_atMost], by decide +kernel⟩

/-- **C93**, the slowest decides: an `Update` whose context is not done at its beginning waits for the fetches of all domains, also when one
of them has failed, and ends with the last. -/
theorem C93_waits (delay retryAttempts now : Int) (cancel : Option Int) (doms : List TServer) (h : ∀ t, cancel = some t → now < t) :
    (∀ env ∈ doms, (timedFetch delay retryAttempts env now).2.1 ≤ timedUpdate delay retryAttempts cancel doms now) ∧
    (timedUpdate delay retryAttempts cancel doms now = now ∨
      ∃ env ∈ doms, timedUpdate delay retryAttempts cancel doms now = (timedFetch delay retryAttempts env now).2.1) :=
  TimingP.update_ends h

example : ∀ t, some (200 : Int) = some t → 100 < t := by intro t h; cases h; omega

/-- **C93**, called with a context that is done: `Update` returns at once. -/
theorem C93_done (delay retryAttempts now T : Int) (doms : List TServer) (h : T ≤ now) :
    timedUpdate delay retryAttempts (some T) doms now = now := by
  simp [timedUpdate, h]

example : timedUpdate 3 1 (some 50) [Ex.tmFlaky] 100 = 100 := by decide +kernel

/-- **C93**, one fetch that is cancelled at `T`: pauses go on, one for each attempt that is left and one more if it was pausing.  With `k`
requests begun before `T` it ends at most `retryAttempts + 2 - k` pauses after `T` (`k = 0` counts as 1). -/
theorem C93_fetch_partial (delay retryAttempts now T : Int) (env : TServer) (hc : Spec.EndsOnCancel T env) (h : now ≤ T) :
    (timedFetch delay retryAttempts env now).2.1
      ≤ T + ((retryAttempts + 1).toNat + 1 - max 1 ((timedFetch delay retryAttempts env now).1.countP (Spec.fetchBefore T)) : Nat) * (delay.toNat : Int) :=
  TimingP.cancel hc _ _ _ h

/-- **C93**, cancellation, as far as it holds: an `Update` whose context is cancelled at `T` has ended `retryAttempts + 1` pauses later.
Missing from the full statement: that it does not go on pausing. -/
theorem C93_cancel_partial (delay retryAttempts now T : Int) (doms : List TServer) (hc : ∀ env ∈ doms, Spec.EndsOnCancel T env) :
    timedUpdate delay retryAttempts (some T) doms now ≤ max now T + (retryAttempts + 1).toNat * (delay.toNat : Int) := by
  have hp : (0 : Int) ≤ (retryAttempts + 1).toNat * (delay.toNat : Int) := by positivity
  by_cases h : T ≤ now
  · rw [C93_done _ _ _ _ _ h]; omega
  · obtain ⟨_, h'⟩ := TimingP.update_ends (delay := delay) (n := retryAttempts) (doms := doms) (cancel := some T) (now := now)
      (by intro t e; cases e; omega)
    rcases h' with h' | ⟨env, he, h'⟩
    · rw [h']; omega
    · rw [h']
      refine Int.le_trans (C93_fetch_partial delay retryAttempts now T env (hc env he) (by omega)) ?_
      have hm : (retryAttempts + 1).toNat + 1 - max 1 ((timedFetch delay retryAttempts env now).1.countP (Spec.fetchBefore T)) ≤ (retryAttempts + 1).toNat := by
        omega
      have hd : (0 : Int) ≤ delay.toNat := by positivity
      nlinarith [Int.ofNat_le.mpr hm, Int.le_max_right now T]

example : Spec.EndsOnCancel 200 (Ex.tmHang 200) ∧ timedUpdate 3 1 (some 200) [Ex.tmHang 200] 100 = 206 := ⟨Ex.tmHang_ends 200, by decide +kernel⟩

/-- **C93**, no better bound holds: for every pause, number of attempts and moment, an `Update` whose server does not answer and which is
cancelled during the first request ends exactly `retryAttempts + 1` pauses later. -/
theorem C93_late (delay retryAttempts now T : Int) (h : now < T) :
    ∃ doms : List TServer, (∀ env ∈ doms, Spec.EndsOnCancel T env) ∧
      timedUpdate delay retryAttempts (some T) doms now = max now (if 0 ≤ retryAttempts then T + (retryAttempts + 1) * (delay.toNat : Int) else now) := by
  refine ⟨[Ex.tmHang T], by simp [Ex.tmHang_ends], ?_⟩
  have hc : ¬ T ≤ now := by omega
  simp only [timedUpdate, Option.any_some, hc, decide_false, Bool.false_eq_true, if_false, List.map_cons, List.map_nil, List.foldl_cons, List.foldl_nil]
  congr 1
  unfold timedFetch
  by_cases hn : 0 ≤ retryAttempts
  · obtain ⟨n, rfl⟩ := Int.eq_ofNat_of_zero_le hn
    have e : ((n : Int) + 1).toNat = n + 1 := by omega
    have ht : now + ((T - now).toNat : Int) = T := by omega
    have hd : (0 : Int) ≤ delay.toNat := by positivity
    obtain ⟨a, _⟩ := TimingP.after (delay := delay) (Ex.tmHang_ends T) n 1 (T + delay.toNat) (by omega)
    simp only [hn, if_true, e, retryFrom]
    simp only [Ex.tmHang, Bool.false_eq_true, if_false, ht, Nat.zero_add] at a ⊢
    rw [a]; ring
  · have e : (retryAttempts + 1).toNat = 0 := by omega
    simp [e, hn, retryFrom]

/-- **C93**, the part about cancellation, is false: policy/fetcher.go:163 sleeps whatever the context says, and the loop does not look at it. -/
theorem C93_refuted : ¬ C93_statement := by
  intro h
  have := h 3 1 200 100 [Ex.tmHang 200] (by simp [Ex.tmHang_ends])
  exact absurd this (by decide +kernel)

end Athenz
