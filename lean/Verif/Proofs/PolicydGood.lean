import Verif.Proofs.Policyd

/-! Whatever the policy daemon holds comes from the documents which its goroutines got from the fetchers so far. -/

namespace Athenz

/-- Like `JobSound`, but documents that were not fetched yet do not matter. -/
def JobGood (U : CaseFns) (A : List RawAssertion) : Job → Prop
  | .start _ => True
  | .fetching _ => True
  | .merge d m => JobSound U A (.merge d m)
  | .fill ttl todo pc => JobSound U A (.fill ttl todo pc)
  | .done _ => True

theorem JobGood.mono {U : CaseFns} {A B : List RawAssertion} {j : Job} (h : JobGood U A j) (hAB : ∀ a ∈ A, a ∈ B) : JobGood U B j := by
  cases j with
  | start f => trivial
  | fetching f => trivial
  | merge d m => exact JobSound.mono (j := .merge d m) h hAB
  | fill ttl todo pc => exact JobSound.mono (j := .fill ttl todo pc) h hAB
  | done e => trivial

structure UpdGood (U : CaseFns) (A : List RawAssertion) (s : UpdState) : Prop where
  rp : SoundRp U A s.rp
  jobs : ∀ j ∈ s.jobs, JobGood U A j

theorem UpdGood.setJob {U : CaseFns} {A : List RawAssertion} {s : UpdState} (h : UpdGood U A s) {i : Nat} {j : Job} (hj : JobGood U A j) :
    UpdGood U A { s with jobs := s.jobs.set i j } := by
  refine ⟨h.rp, ?_⟩
  intro j' hj'
  rcases mem_set_cases hj' with hj' | rfl
  · exact h.jobs j' hj'
  · exact hj

theorem UpdGood.step {U : CaseFns} {A : List RawAssertion} {s s' : UpdState} (h : UpdGood U A s) {a : UpdAct}
    (hs : updStep U s a = some s')
    (hd : ∀ i o d, a = .job i o → s.jobs[i]? = some (.fetching (some d)) → ∀ x ∈ d.policies.flatten, x ∈ A) : UpdGood U A s' := by
  cases a with
  | job i order =>
    simp only [updStep] at hs
    split at hs
    · split at hs
      · simp only [Option.some.injEq] at hs; subst hs; exact h.setJob trivial
      · simp only [Option.some.injEq] at hs; subst hs; exact h.setJob trivial
    · simp only [Option.some.injEq] at hs; subst hs; exact h.setJob trivial
    · rename_i d hj
      simp only [Option.some.injEq] at hs; subst hs
      exact h.setJob ⟨hd i order d rfl hj, _, mergeInit_inv U d⟩
    · rename_i d m hj
      obtain ⟨hsub, cons, hm⟩ := h.jobs _ (List.mem_of_getElem? hj)
      split at hs
      · rename_i hfin
        split at hs
        · simp only [Option.some.injEq] at hs; subst hs; exact h.setJob trivial
        · rename_i hnf
          split at hs
          · rename_i hperm
            simp only [Option.some.injEq] at hs; subst hs
            refine h.setJob ⟨?_, by simp⟩
            intro a ha
            exact hsub a ((hm.merged hfin (by simpa using hnf)).sub a (hperm.mem_iff.mp ha))
          · simp at hs
      · simp at hs
    · simp only [Option.some.injEq] at hs; subst hs; exact h.setJob trivial
    · rename_i ttl a rest hj
      have hjs : JobSound U A (.fill ttl (a :: rest) none) := h.jobs _ (List.mem_of_getElem? hj)
      split at hs
      · simp only [Option.some.injEq] at hs; subst hs
        refine h.setJob ⟨hjs.1, ?_⟩
        intro old ho a' rest' hr
        simp only [Option.some.injEq] at ho
        simp only [List.cons.injEq] at hr
        obtain ⟨rfl, rfl⟩ := hr
        rw [← ho]
        exact h.rp.get _ _
      · simp only [Option.some.injEq] at hs; subst hs; exact h.setJob trivial
      · simp at hs
    · rename_i ttl a rest old hj
      have hjs : JobSound U A (.fill ttl (a :: rest) (some old)) := h.jobs _ (List.mem_of_getElem? hj)
      split at hs
      · rename_i x hx
        simp only [Option.some.injEq] at hs; subst hs
        refine ⟨?_, ?_⟩
        · intro k e he
          simp only [Gache.set] at he
          split at he
          · rename_i hk
            simp only [Option.some.injEq] at he
            subst he
            rw [hk]
            exact insertAss_soundKey (newAssertion_conv hx) (hjs.1 a (by simp)) (hjs.2 old rfl a rest rfl)
          · exact h.rp k e he
        · intro j hjm
          rcases mem_set_cases hjm with hjm | rfl
          · exact h.jobs j hjm
          · exact ⟨fun b hb => hjs.1 b (by simp [hb]), by simp⟩
      · simp at hs
    · simp at hs
  | merge i k =>
    simp only [updStep] at hs
    split at hs
    · rename_i d m hj
      obtain ⟨hsub, cons, hm⟩ := h.jobs _ (List.mem_of_getElem? hj)
      split at hs
      · rename_i m' hm'
        simp only [Option.some.injEq] at hs; subst hs
        exact h.setJob ⟨hsub, hm.step hm'⟩
      · simp at hs
    · simp at hs
  | tick d => simp only [updStep, Option.some.injEq] at hs; subst hs; exact ⟨h.rp, h.jobs⟩
  | cancel => simp only [updStep, Option.some.injEq] at hs; subst hs; exact ⟨h.rp, h.jobs⟩

/-- Everything in the daemon comes from the assertions `A`. -/
structure PdGood (U : CaseFns) (A : List RawAssertion) (s : PdState) : Prop where
  objs : ∀ g ∈ s.objs, SoundRp U A g
  tasks : ∀ t ∈ s.tasks, ∀ j ∈ t.jobs, JobGood U A j
  checks : ∀ c ∈ s.checks, c.loaded.isSome → CheckReached U c.q (SoundView U A) c.cs

theorem PdGood.mono {U : CaseFns} {A B : List RawAssertion} {s : PdState} (h : PdGood U A s) (hAB : ∀ a ∈ A, a ∈ B) : PdGood U B s :=
  ⟨fun g hg => (h.objs g hg).mono hAB, fun t ht j hj => (h.tasks t ht j hj).mono hAB,
    fun c hc hl => (h.checks c hc hl).mono fun _ hv k => (hv k).mono hAB⟩

theorem pdInit_good (U : CaseFns) (now : Int) (domains : List Str) : PdGood U [] (pdInit now domains) := by
  refine ⟨?_, by simp [pdInit], by simp [pdInit]⟩
  intro g hg k e he
  simp only [pdInit, List.mem_singleton] at hg
  subst hg; simp [Gache.empty] at he

theorem soundRp_empty (U : CaseFns) (A : List RawAssertion) : SoundRp U A Gache.empty := by
  intro k e he; simp [Gache.empty] at he

theorem PdGood.obj {U : CaseFns} {A : List RawAssertion} {s : PdState} (h : PdGood U A s) (o : Nat) :
    SoundRp U A ((s.objs[o]?).getD Gache.empty) := by
  cases ho : s.objs[o]? with
  | none => exact soundRp_empty U A
  | some g => exact h.objs g (List.mem_of_getElem? ho)

/-- The documents which the step brings into the daemon. -/
def PdAct.Brings (s : PdState) (a : PdAct) (d : PolicyDoc) : Prop :=
  ∃ i j o t, a = .task i (.job j o) ∧ s.tasks[i]? = some t ∧ t.jobs[j]? = some (.fetching (some d))

theorem PdGood.step {U : CaseFns} {A : List RawAssertion} {s s' : PdState} (h : PdGood U A s) {a : PdAct}
    (hs : pdStep U s a = some s') (hd : ∀ d, a.Brings s d → ∀ x ∈ d.policies.flatten, x ∈ A) : PdGood U A s' := by
  unfold pdStep at hs
  split at hs
  · simp at hs
  have setTask : ∀ (i : Nat) (t' : Task), (∀ j ∈ t'.jobs, JobGood U A j) → ∀ t ∈ s.tasks.set i t', ∀ j ∈ t.jobs, JobGood U A j := by
    intro i t' ht' t ht
    rcases mem_set_cases ht with ht | rfl
    · exact h.tasks t ht
    · exact ht'
  cases a with
  | tick d => simp only [Option.some.injEq] at hs; subst hs; exact ⟨h.objs, h.tasks, h.checks⟩
  | update fetch =>
    simp only [Option.some.injEq] at hs; subst hs
    refine ⟨?_, ?_, h.checks⟩
    · intro g hg
      rcases List.mem_append.mp hg with hg | hg
      · exact h.objs g hg
      · simp only [List.mem_singleton] at hg; subst hg; exact soundRp_empty U A
    · intro t ht j hj
      rcases List.mem_append.mp ht with ht | ht
      · exact h.tasks t ht j hj
      · simp only [List.mem_singleton] at ht; subst ht
        simp only [List.mem_map] at hj
        obtain ⟨f, _, rfl⟩ := hj
        trivial
  | task i a =>
    simp only at hs
    split at hs
    · simp at hs
    · rename_i t ht
      have key : ∀ u, updStep U (s.taskView t) a = some u →
          PdGood U A { s with objs := s.objs.set t.obj u.rp, tasks := s.tasks.set i { t with cancelled := u.cancelled, jobs := u.jobs } } := by
        intro u hu
        have hus : UpdGood U A (s.taskView t) := ⟨h.obj t.obj, h.tasks t (List.mem_of_getElem? ht)⟩
        have hu' := hus.step hu (by
          rintro i' o d rfl hj
          exact hd d ⟨i, i', o, t, rfl, ht, hj⟩)
        refine ⟨?_, setTask i _ hu'.jobs, h.checks⟩
        intro g hg
        rcases mem_set_cases hg with hg | rfl
        · exact h.objs g hg
        · exact hu'.rp
      cases a with
      | tick d => simp at hs
      | _ =>
        simp only at hs
        split at hs
        · simp at hs
        · rename_i u hu
          simp only [Option.some.injEq] at hs; subst hs
          exact key u hu
  | finish i =>
    simp only at hs
    split at hs
    · simp at hs
    · rename_i t ht
      have htj := h.tasks t (List.mem_of_getElem? ht)
      split at hs
      · split at hs
        · simp only [Option.some.injEq] at hs; subst hs; exact ⟨h.objs, setTask i _ htj, h.checks⟩
        · simp only [Option.some.injEq] at hs; subst hs; exact ⟨h.objs, setTask i _ htj, h.checks⟩
      · simp at hs
  | abort i =>
    simp only at hs
    split at hs
    · simp at hs
    · rename_i t ht
      split at hs
      · simp only [Option.some.injEq] at hs; subst hs
        exact ⟨h.objs, setTask i _ (h.tasks t (List.mem_of_getElem? ht)), h.checks⟩
      · simp at hs
  | expire o k =>
    simp only at hs
    split at hs
    · split at hs
      · simp at hs
      · rename_i g hg
        split at hs
        · simp at hs
        · split at hs
          · simp at hs
          · simp only [Option.some.injEq] at hs; subst hs
            refine ⟨?_, h.tasks, h.checks⟩
            intro g' hg'
            rcases mem_set_cases hg' with hg' | rfl
            · exact h.objs g' hg'
            · exact (h.objs g (List.mem_of_getElem? hg)).delete k
    · simp at hs
  | hook j fetch =>
    simp only at hs
    split at hs
    · simp at hs
    · split at hs
      · simp only [Option.some.injEq] at hs; subst hs
        refine ⟨h.objs, ?_, h.checks⟩
        intro t ht j hj
        rcases List.mem_append.mp ht with ht | ht
        · exact h.tasks t ht j hj
        · simp only [List.mem_singleton] at ht; subst ht
          simp only [List.mem_singleton] at hj; subst hj
          trivial
      · simp only [Option.some.injEq] at hs; subst hs; exact ⟨h.objs, h.tasks, h.checks⟩
  | check q =>
    simp only [Option.some.injEq] at hs; subst hs
    refine ⟨h.objs, h.tasks, ?_⟩
    intro c hc hl
    rcases List.mem_append.mp hc with hc | hc
    · exact h.checks c hc hl
    · simp only [List.mem_singleton] at hc; subst hc; simp at hl
  | load k =>
    simp only at hs
    split at hs
    · simp at hs
    · rename_i c hc
      split at hs
      · simp at hs
      · simp only [Option.some.injEq] at hs; subst hs
        refine ⟨h.objs, h.tasks, ?_⟩
        intro c' hc' hl
        rcases mem_set_cases hc' with hc' | rfl
        · exact h.checks c' hc' hl
        · exact ⟨_, [], (h.obj s.live).view _, rfl, by simp⟩
  | chk k a =>
    simp only at hs
    split at hs
    · simp at hs
    · rename_i c hc
      split at hs
      · simp at hs
      · rename_i o t0 g0 hl
        have key : ∀ cs, (∀ w, a ≠ .mutate w) →
            checkStep U c.q { c.cs with view := viewOf ((s.objs[o]?).getD Gache.empty) s.now } a = some cs →
            PdGood U A { s with checks := s.checks.set k { c with cs := cs } } := by
          intro cs ha hcs
          refine ⟨h.objs, h.tasks, ?_⟩
          intro c' hc' hl'
          rcases mem_set_cases hc' with hc' | rfl
          · exact h.checks c' hc' hl'
          · exact (h.checks c (List.mem_of_getElem? hc) (by rw [hl]; rfl)).step ((h.obj o).view _) ha hcs
        cases a with
        | mutate v => simp at hs
        | _ =>
          simp only at hs
          split at hs
          · simp at hs
          · rename_i cs hcs
            simp only [Option.some.injEq] at hs; subst hs
            exact key cs (by simp) hcs

end Athenz
