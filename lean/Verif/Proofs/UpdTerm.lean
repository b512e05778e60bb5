import Verif.Proofs.Update

/-! A policy update makes finitely many steps and never gets stuck. -/

namespace Athenz

/-- Steps of the goroutines, as opposed to the clock and the context. -/
def UpdAct.isWork : UpdAct → Bool
  | .job _ _ => true
  | .merge _ _ => true
  | _ => false

/-- The job whose goroutines make the step. -/
def UpdAct.jobNo : UpdAct → Option Nat
  | .job i _ => some i
  | .merge i _ => some i
  | _ => none

def MThread.left (t : MThread) : Nat := 4 * t.todo.length - (if t.pc = .idle then 0 else 1)

def MergeState.left (m : MergeState) : Nat := (m.threads.map MThread.left).sum + 2 * m.map.length

/-- An upper bound on the steps a job still makes. -/
def Job.left : Job → Nat
  | .start none => 2
  | .start (some d) => d.mergeInit.left + 4
  | .fetching none => 1
  | .fetching (some d) => d.mergeInit.left + 3
  | .merge _ m => m.left + 2
  | .fill _ todo pc => 2 * todo.length + 1 - (if pc.isSome ∧ todo ≠ [] then 1 else 0)
  | .done _ => 0

def UpdState.left (s : UpdState) : Nat := (s.jobs.map Job.left).sum

theorem AssMap.store_length (m : AssMap) (k : Str) (a : RawAssertion) : (m.store k a).length ≤ m.length + 1 := by
  unfold AssMap.store
  split <;> simp

theorem sum_map_set {α : Type} (f : α → Nat) : ∀ (l : List α) (i : Nat) (x y : α), l[i]? = some x →
    ((l.set i y).map f).sum + f x = (l.map f).sum + f y
  | [], i, x, y, h => by simp at h
  | z :: l, 0, x, y, h => by
    simp only [List.getElem?_cons_zero, Option.some.injEq] at h
    subst h
    simp only [List.set_cons_zero, List.map_cons, List.sum_cons]
    omega
  | z :: l, i + 1, x, y, h => by
    simp only [List.getElem?_cons_succ] at h
    have := sum_map_set f l i x y h
    simp only [List.set_cons_succ, List.map_cons, List.sum_cons]
    omega

theorem mergeStep_left {U : CaseFns} {c : Bool} {m m' : MergeState} {k : Nat} (h : mergeStep U c m k = some m') : m'.left < m.left := by
  unfold mergeStep at h
  split at h
  · simp at h
  · rename_i t ht
    split at h
    · simp at h
    · rename_i a rest htodo hpc
      split at h
      · simp only [Option.some.injEq] at h; subst h
        have hs := sum_map_set MThread.left m.threads k t ⟨[], .idle, true⟩ ht
        simp only [MThread.left, htodo, hpc, List.length_cons, List.length_nil, if_true] at hs
        simp only [MergeState.left]
        omega
      · simp only [Option.some.injEq] at h; subst h
        have hs := sum_map_set MThread.left m.threads k t ⟨a :: rest, .loaded (m.map.load a.key).isSome, t.failed⟩ ht
        simp only [MThread.left, htodo, hpc, List.length_cons, if_true, reduceCtorEq, if_false] at hs
        simp only [MergeState.left]
        omega
    · rename_i a rest present htodo hpc
      have hs := sum_map_set MThread.left m.threads k t ⟨rest, .idle, t.failed⟩ ht
      simp only [MThread.left, htodo, hpc, List.length_cons, if_true, reduceCtorEq, if_false] at hs
      have hl := AssMap.store_length m.map a.key a
      simp only at h
      split at h
      · simp only [Option.some.injEq] at h; subst h
        simp only [MergeState.left]
        omega
      · simp only [Option.some.injEq] at h; subst h
        simp only [MergeState.left]
        omega

theorem setJob_left {s : UpdState} {i : Nat} {j j' : Job} {rp : Gache (List Assertion)} (h : s.jobs[i]? = some j) (hl : j'.left < j.left) :
    UpdState.left { s with rp := rp, jobs := s.jobs.set i j' } < s.left := by
  have := sum_map_set Job.left s.jobs i j j' h
  simp only [UpdState.left]
  omega

theorem updStep_left {U : CaseFns} {s s' : UpdState} {a : UpdAct} (h : updStep U s a = some s') :
    (a.isWork = true → s'.left < s.left) ∧ (a.isWork = false → s'.left = s.left) := by
  cases a with
  | tick d => simp only [updStep, Option.some.injEq] at h; subst h; exact ⟨by simp [UpdAct.isWork], fun _ => rfl⟩
  | cancel => simp only [updStep, Option.some.injEq] at h; subst h; exact ⟨by simp [UpdAct.isWork], fun _ => rfl⟩
  | merge i k =>
    refine ⟨fun _ => ?_, by simp [UpdAct.isWork]⟩
    simp only [updStep] at h
    split at h
    · rename_i d m hj
      split at h
      · rename_i m' hm
        simp only [Option.some.injEq] at h; subst h
        exact setJob_left (rp := s.rp) hj (by have := mergeStep_left hm; simp only [Job.left]; omega)
      · simp at h
    · simp at h
  | job i order =>
    refine ⟨fun _ => ?_, by simp [UpdAct.isWork]⟩
    simp only [updStep] at h
    split at h
    · rename_i f hj
      split at h <;> simp only [Option.some.injEq] at h <;> subst h
      · exact setJob_left (rp := s.rp) hj (by cases f <;> simp [Job.left])
      · exact setJob_left (rp := s.rp) hj (by cases f <;> simp [Job.left])
    · rename_i hj
      simp only [Option.some.injEq] at h; subst h
      exact setJob_left (rp := s.rp) hj (by simp [Job.left])
    · rename_i d hj
      simp only [Option.some.injEq] at h; subst h
      exact setJob_left (rp := s.rp) hj (by simp [Job.left])
    · rename_i d m hj
      split at h
      · split at h
        · simp only [Option.some.injEq] at h; subst h
          exact setJob_left (rp := s.rp) hj (by simp [Job.left])
        · split at h
          · rename_i hperm
            simp only [Option.some.injEq] at h; subst h
            refine setJob_left (rp := s.rp) hj ?_
            have := hperm.length_eq
            simp only [List.length_map] at this
            simp only [Job.left, Option.isSome_none, Bool.false_eq_true, false_and, if_false, MergeState.left]
            omega
          · simp at h
      · simp at h
    · rename_i hj
      simp only [Option.some.injEq] at h; subst h
      exact setJob_left (rp := s.rp) hj (by simp [Job.left])
    · rename_i ttl a rest hj
      split at h
      · simp only [Option.some.injEq] at h; subst h
        exact setJob_left (rp := s.rp) hj (by simp [Job.left])
      · simp only [Option.some.injEq] at h; subst h
        exact setJob_left (rp := s.rp) hj (by simp [Job.left])
      · simp at h
    · rename_i ttl a rest old hj
      split at h
      · simp only [Option.some.injEq] at h; subst h
        exact setJob_left hj (by simp [Job.left]; omega)
      · simp at h
    · simp at h

theorem updRun_left {U : CaseFns} {s s' : UpdState} {as : List UpdAct} (h : updRun U s as = some s') :
    (as.filter UpdAct.isWork).length + s'.left ≤ s.left := by
  induction as generalizing s with
  | nil => simp only [updRun, Option.some.injEq] at h; subst h; simp
  | cons a as ih =>
    simp only [updRun] at h
    split at h
    · simp at h
    · rename_i s1 hs1
      have h1 := updStep_left hs1
      have h2 := ih h
      cases hw : a.isWork with
      | true => have := h1.1 hw; simp [hw]; omega
      | false => have := h1.2 hw; simp [hw]; omega

theorem mergeInit_left (d : PolicyDoc) : d.mergeInit.left = 4 * d.policies.flatten.length := by
  simp only [PolicyDoc.mergeInit, MergeState.left, List.length_nil, List.map_map]
  induction d.policies with
  | nil => rfl
  | cons p ps ih =>
    simp only [List.map_cons, List.sum_cons, List.flatten_cons, List.length_append, Function.comp, MThread.left, if_true] at ih ⊢
    omega

/-! ### No goroutine waits for another job -/

/-- The second half of the loop body is only reached with an assertion that could be made. -/
def JobFine (U : CaseFns) : Job → Prop
  | .fill _ (a :: _) (some _) => ∃ x, newAssertion U a.action a.resource a.effect = .ok x
  | _ => True

def UpdFine (U : CaseFns) (s : UpdState) : Prop := ∀ j ∈ s.jobs, JobFine U j

theorem UpdFine.set {U : CaseFns} {jobs : List Job} {i : Nat} {j : Job} (h : ∀ j ∈ jobs, JobFine U j) (hj : JobFine U j) :
    ∀ x ∈ jobs.set i j, JobFine U x := by
  intro x hx
  rcases List.mem_or_eq_of_mem_set hx with hx | rfl
  · exact h x hx
  · exact hj

theorem UpdFine.step {U : CaseFns} {s s' : UpdState} {a : UpdAct} (hf : UpdFine U s) (h : updStep U s a = some s') : UpdFine U s' := by
  cases a with
  | tick d => simp only [updStep, Option.some.injEq] at h; subst h; exact hf
  | cancel => simp only [updStep, Option.some.injEq] at h; subst h; exact hf
  | merge i k =>
    simp only [updStep] at h
    split at h
    · split at h
      · simp only [Option.some.injEq] at h; subst h
        exact UpdFine.set hf trivial
      · simp at h
    · simp at h
  | job i order =>
    simp only [updStep] at h
    split at h
    · split at h <;> simp only [Option.some.injEq] at h <;> subst h <;> exact UpdFine.set hf trivial
    · simp only [Option.some.injEq] at h; subst h; exact UpdFine.set hf trivial
    · simp only [Option.some.injEq] at h; subst h; exact UpdFine.set hf trivial
    · split at h
      · split at h
        · simp only [Option.some.injEq] at h; subst h; exact UpdFine.set hf trivial
        · split at h
          · simp only [Option.some.injEq] at h; subst h
            exact UpdFine.set hf (by cases order <;> trivial)
          · simp at h
      · simp at h
    · simp only [Option.some.injEq] at h; subst h; exact UpdFine.set hf trivial
    · rename_i a rest _
      split at h
      · rename_i x hx
        simp only [Option.some.injEq] at h; subst h; exact UpdFine.set hf ⟨x, hx⟩
      · simp only [Option.some.injEq] at h; subst h; exact UpdFine.set hf trivial
      · simp at h
    · rename_i rest _ _
      split at h
      · simp only [Option.some.injEq] at h; subst h; exact UpdFine.set hf (by cases rest <;> trivial)
      · simp at h
    · simp at h

theorem UpdFine.run {U : CaseFns} {s s' : UpdState} {as : List UpdAct} (hf : UpdFine U s) (h : updRun U s as = some s') : UpdFine U s' := by
  induction as generalizing s with
  | nil => simp only [updRun, Option.some.injEq] at h; subst h; exact hf
  | cons a as ih =>
    simp only [updRun] at h
    split at h
    · simp at h
    · rename_i s1 hs1; exact ih (hf.step hs1) h

theorem updInit_fine (U : CaseFns) (T0 : Int) (docs : List (Option PolicyDoc)) : UpdFine U (updInit T0 docs) := by
  intro j hj
  simp only [updInit, List.mem_map] at hj
  obtain ⟨f, _, rfl⟩ := hj
  trivial

theorem mergeStep_ready {U : CaseFns} {c : Bool} {m : MergeState} (h : m.finished = false) : ∃ k m', mergeStep U c m k = some m' := by
  simp only [MergeState.finished, List.all_eq_false] at h
  obtain ⟨t, ht, hne⟩ := h
  obtain ⟨k, hk⟩ := List.mem_iff_getElem?.mp ht
  refine ⟨k, ?_⟩
  unfold mergeStep
  rw [hk]
  cases htd : t.todo with
  | nil => simp [htd] at hne
  | cons a rest =>
    cases hpc : t.pc with
    | idle => cases c <;> simp [htd, hpc]
    | loaded p => simp only [htd, hpc]; split <;> exact ⟨_, rfl⟩

/-- Every unfinished job can go on, whatever the others do. -/
theorem job_ready {U : CaseFns} {s : UpdState} (hf : UpdFine U s) {i : Nat} {j : Job} (hj : s.jobs[i]? = some j) (hd : ∀ e, j ≠ .done e) :
    ∃ a s', a.jobNo = some i ∧ a.isWork = true ∧ updStep U s a = some s' := by
  cases j with
  | start f =>
    refine ⟨.job i [], ?_⟩
    cases hc : s.cancelled <;> simp [updStep, hj, hc, UpdAct.jobNo, UpdAct.isWork]
  | fetching f => refine ⟨.job i [], ?_⟩; cases f <;> simp [updStep, hj, UpdAct.jobNo, UpdAct.isWork]
  | merge d m =>
    cases hfin : m.finished with
    | false =>
      obtain ⟨k, m', hm⟩ := mergeStep_ready (U := U) (c := s.cancelled) hfin
      exact ⟨.merge i k, _, rfl, rfl, by simp only [updStep, hj, hm]; rfl⟩
    | true =>
      refine ⟨.job i (m.map.map (·.2)), ?_⟩
      cases hfl : m.failed <;> simp [updStep, hj, hfin, hfl, UpdAct.jobNo, UpdAct.isWork]
  | fill ttl todo pc =>
    refine ⟨.job i [], ?_⟩
    cases todo with
    | nil => simp [updStep, hj, UpdAct.jobNo, UpdAct.isWork]
    | cons a rest =>
      cases pc with
      | none =>
        rcases newAssertion_total U a.action a.resource a.effect with ⟨x, hx⟩ | hx <;>
          simp [updStep, hj, hx, UpdAct.jobNo, UpdAct.isWork]
      | some old =>
        obtain ⟨x, hx⟩ := hf _ (List.mem_of_getElem? hj)
        simp [updStep, hj, hx, UpdAct.jobNo, UpdAct.isWork]
  | done e => exact absurd rfl (hd e)

end Athenz
