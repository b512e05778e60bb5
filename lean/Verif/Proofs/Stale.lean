import Verif.Spec.Stale
import Verif.Proofs.Authority
import Verif.Proofs.Policyd

/-! # C97: when policy checks are made -/

namespace Athenz
open Spec

namespace StaleP

theorem conv_some {U : CaseFns} {a : RawAssertion} {x : Assertion} : a.conv U = some x ↔ newAssertion U a.action a.resource a.effect = .ok x := by
  unfold RawAssertion.conv
  constructor
  · intro h
    split at h
    · simp only [Option.some.injEq] at h; subst h; assumption
    · simp at h
  · intro h; rw [h]

/-- What the log says about when calls began and checked. -/
structure Inv (cfg : AuthCfg) (s0 : AState) (acts : List AAct) (s : AState) : Prop where
  begun : ∀ j t, .begun j t ∈ s.log → s.calls j ≠ none ∧ t ≤ s.now
  checked : ∀ j view sched, .checked j view sched ∈ s.log → s.calls j ≠ none ∧
    ∃ pre post s1, acts = pre ++ .check j view sched :: post ∧ aRun cfg s0 pre = some s1 ∧ ∀ tb, .begun j tb ∈ s.log → tb ≤ s1.now

theorem Inv.keep {cfg : AuthCfg} {s0 s s' : AState} {acts : List AAct} {a : AAct} (hi : Inv cfg s0 acts s)
    (hc : ∀ j, s.calls j ≠ none → s'.calls j ≠ none) (hn : s.now ≤ s'.now) (hb : ∀ j t, AEvent.begun j t ∈ s'.log → .begun j t ∈ s.log)
    (hk : ∀ j view sched, AEvent.checked j view sched ∈ s'.log → .checked j view sched ∈ s.log) : Inv cfg s0 (acts ++ [a]) s' := by
  refine ⟨fun j t h => ?_, fun j view sched h => ?_⟩
  · have := hi.begun j t (hb j t h)
    exact ⟨hc j this.1, by omega⟩
  · obtain ⟨h1, pre, post, s1, rfl, h2, h3⟩ := hi.checked j view sched (hk j view sched h)
    exact ⟨hc j h1, pre, post ++ [a], s1, by simp, h2, fun tb h => h3 tb (hb j tb h)⟩

theorem Inv.fresh {cfg : AuthCfg} {s0 s s' : AState} {acts : List AAct} {a : AAct} (hi : Inv cfg s0 acts s) {i : Nat} (h0 : s.calls i = none)
    (hc : ∀ j, s.calls j ≠ none ∨ j = i → s'.calls j ≠ none) (hn : s'.now = s.now) (hl : ∀ e, e ∈ s'.log ↔ e ∈ s.log ∨ e = .begun i s.now) :
    Inv cfg s0 (acts ++ [a]) s' := by
  refine ⟨fun j t h => ?_, fun j view sched h => ?_⟩
  · rcases (hl _).mp h with h | h
    · have := hi.begun j t h
      exact ⟨hc j (.inl this.1), by omega⟩
    · simp only [AEvent.begun.injEq] at h
      exact ⟨hc j (.inr h.1), by omega⟩
  · rcases (hl _).mp h with h | h
    · obtain ⟨h1, pre, post, s1, rfl, h2, h3⟩ := hi.checked j view sched h
      refine ⟨hc j (.inl h1), pre, post ++ [a], s1, by simp, h2, fun tb h => ?_⟩
      rcases (hl _).mp h with h | h
      · exact h3 tb h
      · simp only [AEvent.begun.injEq] at h
        rw [h.1] at h1
        exact absurd h0 h1
    · simp at h

theorem Inv.check {cfg : AuthCfg} {s0 s s' : AState} {acts : List AAct} (hi : Inv cfg s0 acts s) (hr : aRun cfg s0 acts = some s) {i : Nat}
    {view : PolicyView} {sched : List CheckAct} (h0 : s.calls i ≠ none) (hc : ∀ j, s.calls j ≠ none → s'.calls j ≠ none) (hn : s'.now = s.now)
    (hl : ∀ e, e ∈ s'.log ↔ e ∈ s.log ∨ e = .checked i view sched) : Inv cfg s0 (acts ++ [.check i view sched]) s' := by
  have hb : ∀ j t, AEvent.begun j t ∈ s'.log → .begun j t ∈ s.log := fun j t h => by
    rcases (hl _).mp h with h | h
    · exact h
    · simp at h
  refine ⟨fun j t h => ?_, fun j v sc h => ?_⟩
  · have := hi.begun j t (hb j t h)
    exact ⟨hc j this.1, by omega⟩
  · rcases (hl _).mp h with h | h
    · obtain ⟨h1, pre, post, s1, rfl, h2, h3⟩ := hi.checked j v sc h
      exact ⟨hc j h1, pre, post ++ [.check i view sched], s1, by simp, h2, fun tb h => h3 tb (hb j tb h)⟩
    · simp only [AEvent.checked.injEq] at h
      obtain ⟨rfl, rfl, rfl⟩ := h
      exact ⟨hc _ h0, acts, [], s, rfl, hr, fun tb h => (hi.begun _ tb (hb _ tb h)).2⟩

theorem inv_step {cfg : AuthCfg} {s0 s s' : AState} {acts : List AAct} {a : AAct} (hi : Inv cfg s0 acts s) (hr : aRun cfg s0 acts = some s)
    (h : aStep cfg s a = some s') : Inv cfg s0 (acts ++ [a]) s' := by
  have set : ∀ (s1 : AState) (i : Nat) (q : AReq) (pc : Pc) (j : Nat), s1.calls j ≠ none ∨ j = i → (s1.setPc i q pc).calls j ≠ none := by
    intro s1 i q pc j h
    simp only [AState.setPc]
    split
    · simp
    · rename_i hne
      exact h.resolve_right hne
  cases aStep_effect h with
  | call i q h0 => exact hi.fresh h0 (fun j hj => set s i q .start j hj) rfl (fun e => by simp [AState.note, AState.setPc])
  | sub k i q rest tried hs h0 =>
    exact hi.fresh h0 (fun j hj => set s i q .start j hj) rfl (fun e => by simp [AState.note, AState.setPc, AState.setSess])
  | check i view sched q p act res rs h0 hc =>
    exact hi.check hr (by rw [h0]; simp) (fun j hj => set (s.note _) i q _ j (.inl hj)) rfl (fun e => by simp [AState.note, AState.setPc])
  | checkFail i view sched q p act res r h0 hf hn =>
    exact hi.check hr (by rw [h0]; simp) (fun j hj => set (s.note _) i q _ j (.inl hj)) rfl (fun e => by simp [AState.note, AState.setPc])
  | tick d => exact hi.keep (fun _ h => h) (by show s.now ≤ s.now + d; omega) (fun _ _ h => h) (fun _ _ _ h => h)
  | setKeys | setJwkp | sweep | clear => exact hi.keep (fun _ h => h) (Int.le_refl _) (fun _ _ h => h) (fun _ _ _ h => h)
  | finFails | fin => exact hi.keep (fun _ h => h) (Int.le_refl _) (fun _ _ h => h) (fun _ _ _ h => h)
  | opened =>
    exact hi.keep (fun _ h => h) (Int.le_refl _) (fun j t h => by simpa [AState.note, AState.setSess] using h)
      (fun j v sc h => by simpa [AState.note, AState.setSess] using h)
  | bad i q => exact hi.keep (fun j hj => set s i q _ j (.inl hj)) (Int.le_refl _) (fun _ _ h => h) (fun _ _ _ h => h)
  | miss i q => exact hi.keep (fun j hj => set s i q _ j (.inl hj)) (Int.le_refl _) (fun _ _ h => h) (fun _ _ _ h => h)
  | hit i q | valid i q | invalid i q | trans i _ q | transFail i _ q | store i q =>
    exact hi.keep (fun j hj => set _ i q _ j (.inl hj)) (Int.le_refl _) (fun j t h => by simpa [AState.note, AState.setPc] using h)
      (fun j v sc h => by simpa [AState.note, AState.setPc] using h)

theorem inv_run {cfg : AuthCfg} {s0 : AState} (h0 : s0.log = []) {acts : List AAct} {s : AState} (hr : aRun cfg s0 acts = some s) :
    Inv cfg s0 acts s := by
  have key : ∀ (post pre : List AAct) (s1 s : AState), Inv cfg s0 pre s1 → aRun cfg s0 pre = some s1 → aRun cfg s1 post = some s →
      Inv cfg s0 (pre ++ post) s := by
    intro post
    induction post with
    | nil =>
      intro pre s1 s hi _ h2
      simp only [aRun, Option.some.injEq] at h2
      rw [List.append_nil, ← h2]
      exact hi
    | cons a post ih =>
      intro pre s1 s hi h1 h2
      simp only [aRun] at h2
      split at h2
      · rename_i s2 hs2
        have := ih (pre ++ [a]) s2 s (inv_step hi h1 hs2) (aRun_append.mpr ⟨s1, h1, by simp [aRun, hs2]⟩) h2
        simpa using this
      · simp at h2
  have := key acts [] s0 s ⟨by simp [h0], by simp [h0]⟩ rfl hr
  simpa using this

theorem now_run {cfg : AuthCfg} {s s' : AState} {acts : List AAct} (hr : aRun cfg s acts = some s') : s.now ≤ s'.now := by
  refine aRun_ind (P := fun x => s.now ≤ x.now) (fun x a x' hx h => ?_) (Int.le_refl _) hr
  cases aStep_effect h with
  | tick d => show s.now ≤ x.now + d; omega
  | _ => exact hx

end StaleP

/-- The views of an object whose lists come from `as` show `as`. -/
theorem SoundView.showsOnly {U : CaseFns} {as : List RawAssertion} {v : PolicyView} (h : SoundView U as v) : ShowsOnly U as v :=
  fun role l hl x hx => by
    obtain ⟨a, ha, hr, hc⟩ := (h role).sound l hl x hx
    exact ⟨a, ha, hr, StaleP.conv_some.mp hc⟩

end Athenz
