import Verif.Spec.Sweep
import Verif.Proofs.Stale

/-! # C98: how old the entries of the cache of results are -/

namespace Athenz
open Spec

namespace SweepP

/-- If the clock shows `x` or later, and what is in the cache under `k` was stored at most the lifetime before `x`, that stays so. -/
theorem young_step {cfg : AuthCfg} (he : 0 ≤ cfg.cacheExp) {x : Int} {k : Str} {s s' : AState} {a : AAct}
    (h : x ≤ s.now ∧ ∀ e, s.cache k = some e → ∃ j t, .stored j t k e.val ∈ s.log ∧ x ≤ t + cfg.cacheExp)
    (hs : aStep cfg s a = some s') :
    x ≤ s'.now ∧ ∀ e, s'.cache k = some e → ∃ j t, .stored j t k e.val ∈ s'.log ∧ x ≤ t + cfg.cacheExp := by
  obtain ⟨h1, h2⟩ := h
  have keep : ∀ s1 : AState, s1.now = s.now → s1.cache = s.cache → (∀ ev ∈ s.log, ev ∈ s1.log) →
      x ≤ s1.now ∧ ∀ e, s1.cache k = some e → ∃ j t, .stored j t k e.val ∈ s1.log ∧ x ≤ t + cfg.cacheExp := by
    intro s1 hn hc hl
    refine ⟨by omega, fun e h => ?_⟩
    rw [hc] at h
    obtain ⟨j, t, h3, h4⟩ := h2 e h
    exact ⟨j, t, hl _ h3, h4⟩
  cases aStep_effect hs with
  | tick d => exact ⟨by show x ≤ s.now + d; omega, h2⟩
  | sweep sel =>
    refine ⟨h1, fun e h => ?_⟩
    simp only [Gache.sweep] at h
    split at h
    · simp at h
    · rename_i e' he'
      split at h
      · simp at h
      · simp only [Option.some.injEq] at h
        subst h
        exact h2 _ he'
  | clear => exact ⟨h1, fun e h => by simp [Gache.empty] at h⟩
  | store i q p hc =>
    refine ⟨h1, fun e h => ?_⟩
    simp only [AState.note, AState.setPc, Gache.set] at h
    split at h
    · rename_i hk
      simp only [Option.some.injEq] at h
      subst h
      exact ⟨i, s.now, by simp [AState.note, hk], by omega⟩
    · obtain ⟨j, t, h3, h4⟩ := h2 e h
      exact ⟨j, t, by simp [AState.note, AState.setPc, h3], h4⟩
  | _ => exact keep _ rfl rfl (fun ev h => by simp [AState.note, AState.setPc, AState.setSess, h])

/-- What a sweep leaves is young enough. -/
theorem young_sweep {cfg : AuthCfg} (he : 0 < cfg.cacheExp) {s : AState} (hi : AInv cfg s) (ho : s.now + cfg.cacheExp < 2 ^ 63) {sel : Str → Bool}
    {k : Str} (hk : sel k = true) (e : GEntry Principal) (h : s.cache.sweep s.now sel k = some e) :
    ∃ j t, .stored j t k e.val ∈ s.log ∧ s.now ≤ t + cfg.cacheExp := by
  simp only [Gache.sweep] at h
  split at h
  · simp at h
  · rename_i e' he'
    split at h
    · simp at h
    · rename_i hv
      simp only [Option.some.injEq] at h
      subst h
      obtain ⟨j, t, h1, h2⟩ := hi.cache k _ he'
      obtain ⟨h3, h4, _⟩ := hi.stored j t k _ h1
      have hv' : Gache.valid s.now e' = true := by
        rw [hk] at hv
        simpa using hv
      exact ⟨j, t, h1, (fresh_of_valid h2 h3 h4 hv').2 he (by omega)⟩

theorem young {cfg : AuthCfg} {now : Int} (h0 : 0 ≤ now) (keys : Option KeyProvider) (jwkp : Option JwkProvider) {acts : List AAct} {s : AState}
    (hr : aRun cfg (aInit now keys jwkp) acts = some s) (he : 0 < cfg.cacheExp) (ho : s.now + cfg.cacheExp < 2 ^ 63) {P : Int}
    (hP : SweptWithin P cfg (aInit now keys jwkp) acts s) {k : Str} {e : GEntry Principal} (hk : s.cache k = some e) :
    ∃ j t, .stored j t k e.val ∈ s.log ∧ s.now ≤ t + cfg.cacheExp + P := by
  rcases hP k with h | ⟨pre, sel, post, s1, rfl, h1, h2, h3⟩
  · have := aRun_ind (P := fun s => now ≤ s.now ∧ ∀ e, s.cache k = some e → ∃ j t, .stored j t k e.val ∈ s.log ∧ now ≤ t + cfg.cacheExp)
      (fun s a s' h hs => young_step (by omega) h hs) ⟨Int.le_refl _, fun e h => by simp [aInit, Gache.empty] at h⟩ hr
    obtain ⟨j, t, a1, a2⟩ := this.2 e hk
    have h : s.now ≤ now + P := h
    exact ⟨j, t, a1, by omega⟩
  · obtain ⟨s2, a1, a2⟩ := aRun_append.mp hr
    rw [h1] at a1
    simp only [Option.some.injEq] at a1
    subst a1
    simp only [aRun, aStep] at a2
    have hn := StaleP.now_run a2
    have := aRun_ind (s := { s1 with cache := s1.cache.sweep s1.now sel })
      (P := fun s => s1.now ≤ s.now ∧ ∀ e, s.cache k = some e → ∃ j t, .stored j t k e.val ∈ s.log ∧ s1.now ≤ t + cfg.cacheExp)
      (fun s a s' h hs => young_step (by omega) h hs)
      ⟨Int.le_refl _, fun e h => young_sweep he (aInv_run h0 h1) (by have : s1.now ≤ s.now := hn; omega) h2 e h⟩ a2
    obtain ⟨j, t, b1, b2⟩ := this.2 e hk
    exact ⟨j, t, b1, by omega⟩

/-- The key, if the event is a store not before `x`. -/
def keySince (x : Int) : AEvent → Option Str
  | .stored _ t k _ => if x ≤ t then some k else none
  | _ => none

theorem length_keySince (x : Int) (l : List AEvent) : (l.filterMap (keySince x)).length = l.countP (storedSince x) := by
  induction l with
  | nil => rfl
  | cons ev l ih =>
    have e : (keySince x ev).isSome = storedSince x ev := by
      cases ev with
      | stored j t k p => by_cases ht : x ≤ t <;> simp [keySince, storedSince, ht]
      | _ => rfl
    cases hk : keySince x ev with
    | none => rw [hk] at e; simp [hk, ih, ← e]
    | some k => rw [hk] at e; simp [hk, ih, ← e]

end SweepP

end Athenz
