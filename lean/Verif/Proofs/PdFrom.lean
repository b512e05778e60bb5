import Verif.Proofs.PolicydGood

/-! Like `PdGood`, for the cache objects from number `N` on only. -/

namespace Athenz

/-- Everything in the cache objects from number `N` on, or on the way there, comes from the assertions `A`. -/
structure PdFrom (N : Nat) (U : CaseFns) (A : List RawAssertion) (s : PdState) : Prop where
  objs : ∀ (o : Nat) (g : Gache (List Assertion)), N ≤ o → s.objs[o]? = some g → SoundRp U A g
  tasks : ∀ t ∈ s.tasks, N ≤ t.obj → ∀ j ∈ t.jobs, JobGood U A j
  checks : ∀ c ∈ s.checks, ∀ (o : Nat) (t0 : Int) (g : Gache (List Assertion)), c.loaded = some (o, t0, g) → N ≤ o →
    CheckReached U c.q (SoundView U A) c.cs

theorem PdFrom.mono {N : Nat} {U : CaseFns} {A B : List RawAssertion} {s : PdState} (h : PdFrom N U A s) (hAB : ∀ a ∈ A, a ∈ B) : PdFrom N U B s :=
  ⟨fun o g ho hg => (h.objs o g ho hg).mono hAB, fun t ht hN j hj => (h.tasks t ht hN j hj).mono hAB,
    fun c hc o t g hl hN => (h.checks c hc o t g hl hN).mono fun _ hv k => (hv k).mono hAB⟩

theorem PdFrom.obj {N : Nat} {U : CaseFns} {A : List RawAssertion} {s : PdState} (h : PdFrom N U A s) {o : Nat} (hN : N ≤ o) :
    SoundRp U A ((s.objs[o]?).getD Gache.empty) := by
  cases ho : s.objs[o]? with
  | none => exact soundRp_empty U A
  | some g => exact h.objs o g hN ho

/-- The documents which the step brings into the objects from number `N` on. -/
def PdAct.BringsFrom (N : Nat) (s : PdState) (a : PdAct) (d : PolicyDoc) : Prop :=
  ∃ i j o t, a = .task i (.job j o) ∧ s.tasks[i]? = some t ∧ N ≤ t.obj ∧ t.jobs[j]? = some (.fetching (some d))

theorem PdFrom.setTask {N : Nat} {U : CaseFns} {A : List RawAssertion} {s : PdState} (h : PdFrom N U A s) (i : Nat) (t' : Task)
    (ht' : N ≤ t'.obj → ∀ j ∈ t'.jobs, JobGood U A j) : ∀ t ∈ s.tasks.set i t', N ≤ t.obj → ∀ j ∈ t.jobs, JobGood U A j := by
  intro t ht hN
  rcases mem_set_cases ht with ht | rfl
  · exact h.tasks t ht hN
  · exact ht' hN

theorem PdFrom.setObj {N : Nat} {U : CaseFns} {A : List RawAssertion} {s : PdState} (h : PdFrom N U A s) (o : Nat) (g' : Gache (List Assertion))
    (hg' : N ≤ o → SoundRp U A g') : ∀ (n : Nat) (g : Gache (List Assertion)), N ≤ n → (s.objs.set o g')[n]? = some g → SoundRp U A g := by
  intro n g hN hg
  rcases getElem?_set_cases' hg with ⟨rfl, rfl⟩ | ⟨_, hg⟩
  · exact hg' hN
  · exact h.objs n g hN hg

theorem PdFrom.step {N : Nat} {U : CaseFns} {A : List RawAssertion} {s s' : PdState} (h : PdFrom N U A s) {a : PdAct}
    (hs : pdStep U s a = some s') (hd : ∀ d, a.BringsFrom N s d → ∀ x ∈ d.policies.flatten, x ∈ A) : PdFrom N U A s' := by
  unfold pdStep at hs
  split at hs
  · simp at hs
  cases a with
  | tick d => simp only [Option.some.injEq] at hs; subst hs; exact ⟨h.objs, h.tasks, h.checks⟩
  | update fetch =>
    simp only [Option.some.injEq] at hs; subst hs
    refine ⟨?_, ?_, h.checks⟩
    · intro o g ho hg
      rcases getElem?_append_cases hg with hg | ⟨_, rfl⟩
      · exact h.objs o g ho hg
      · exact soundRp_empty U A
    · intro t ht hN j hj
      rcases List.mem_append.mp ht with ht | ht
      · exact h.tasks t ht hN j hj
      · simp only [List.mem_singleton] at ht; subst ht
        simp only [List.mem_map] at hj
        obtain ⟨f, _, rfl⟩ := hj
        trivial
  | task i a =>
    simp only at hs
    split at hs
    · simp at hs
    · rename_i t ht
      have key : ∀ u, updStep U (s.taskView t) a = some u →
          PdFrom N U A { s with objs := s.objs.set t.obj u.rp, tasks := s.tasks.set i { t with cancelled := u.cancelled, jobs := u.jobs } } := by
        intro u hu
        have hus : N ≤ t.obj → UpdGood U A u := by
          intro hN
          have hus : UpdGood U A (s.taskView t) := ⟨h.obj hN, h.tasks t (List.mem_of_getElem? ht) hN⟩
          exact hus.step hu (by
            rintro i' o d rfl hj
            exact hd d ⟨i, i', o, t, rfl, ht, hN, hj⟩)
        exact ⟨h.setObj _ _ fun hN => (hus hN).rp, h.setTask i _ fun hN => (hus hN).jobs, h.checks⟩
      cases a with
      | tick d => simp at hs
      | _ =>
        simp only at hs
        split at hs
        · simp at hs
        · rename_i u hu
          simp only [Option.some.injEq] at hs; subst hs
          exact key u hu
  | finish i =>
    simp only at hs
    split at hs
    · simp at hs
    · rename_i t ht
      have htj := h.tasks t (List.mem_of_getElem? ht)
      split at hs
      · split at hs
        · simp only [Option.some.injEq] at hs; subst hs; exact ⟨h.objs, h.setTask i _ htj, h.checks⟩
        · simp only [Option.some.injEq] at hs; subst hs; exact ⟨h.objs, h.setTask i _ htj, h.checks⟩
      · simp at hs
  | abort i =>
    simp only at hs
    split at hs
    · simp at hs
    · rename_i t ht
      split at hs
      · simp only [Option.some.injEq] at hs; subst hs
        exact ⟨h.objs, h.setTask i _ (h.tasks t (List.mem_of_getElem? ht)), h.checks⟩
      · simp at hs
  | expire o k =>
    simp only at hs
    split at hs
    · split at hs
      · simp at hs
      · rename_i g hg
        split at hs
        · simp at hs
        · split at hs
          · simp at hs
          · simp only [Option.some.injEq] at hs; subst hs
            exact ⟨h.setObj _ _ fun hN => (h.objs o g hN hg).delete k, h.tasks, h.checks⟩
    · simp at hs
  | hook j fetch =>
    simp only at hs
    split at hs
    · simp at hs
    · split at hs
      · simp only [Option.some.injEq] at hs; subst hs
        refine ⟨h.objs, ?_, h.checks⟩
        intro t ht hN j hj
        rcases List.mem_append.mp ht with ht | ht
        · exact h.tasks t ht hN j hj
        · simp only [List.mem_singleton] at ht; subst ht
          simp only [List.mem_singleton] at hj; subst hj
          trivial
      · simp only [Option.some.injEq] at hs; subst hs; exact ⟨h.objs, h.tasks, h.checks⟩
  | check q =>
    simp only [Option.some.injEq] at hs; subst hs
    refine ⟨h.objs, h.tasks, ?_⟩
    intro c hc o t0 g hl
    rcases List.mem_append.mp hc with hc | hc
    · exact h.checks c hc o t0 g hl
    · simp only [List.mem_singleton] at hc; subst hc; simp at hl
  | load k =>
    simp only at hs
    split at hs
    · simp at hs
    · rename_i c hc
      split at hs
      · simp at hs
      · simp only [Option.some.injEq] at hs; subst hs
        refine ⟨h.objs, h.tasks, ?_⟩
        intro c' hc' o t0 g hl hN
        rcases mem_set_cases hc' with hc' | rfl
        · exact h.checks c' hc' o t0 g hl hN
        · simp only [Option.some.injEq, Prod.mk.injEq] at hl
          obtain ⟨rfl, _⟩ := hl
          exact ⟨_, [], (h.obj hN).view _, rfl, by simp⟩
  | chk k a =>
    simp only at hs
    split at hs
    · simp at hs
    · rename_i c hc
      split at hs
      · simp at hs
      · rename_i o t0 g0 hl
        have key : ∀ cs, (∀ w, a ≠ .mutate w) →
            checkStep U c.q { c.cs with view := viewOf ((s.objs[o]?).getD Gache.empty) s.now } a = some cs →
            PdFrom N U A { s with checks := s.checks.set k { c with cs := cs } } := by
          intro cs ha hcs
          refine ⟨h.objs, h.tasks, ?_⟩
          intro c' hc' o' t' g' hl' hN
          rcases mem_set_cases hc' with hc' | rfl
          · exact h.checks c' hc' o' t' g' hl' hN
          · have hl2 : c.loaded = some (o', t', g') := hl'
            rw [hl] at hl2
            simp only [Option.some.injEq, Prod.mk.injEq] at hl2
            obtain ⟨rfl, _⟩ := hl2
            exact (h.checks c (List.mem_of_getElem? hc) o t0 g0 hl hN).step ((h.obj hN).view _) ha hcs
        cases a with
        | mutate v => simp at hs
        | _ =>
          simp only at hs
          split at hs
          · simp at hs
          · rename_i cs hcs
            simp only [Option.some.injEq] at hs; subst hs
            exact key cs (by simp) hcs

end Athenz
