import Verif.Proofs.UpdTerm
import Verif.Proofs.Policyd

/-! Termination of `Update` calls and hooks among everything else the policy daemon does. -/

namespace Athenz

/-- The step belongs to the call (or hook) `i`: one of its goroutines goes on, or the call returns. -/
def PdAct.worksFor (i : Nat) : PdAct → Bool
  | .task k u => k == i && u.isWork
  | .finish k => k == i
  | .abort k => k == i
  | _ => false

def Task.left (t : Task) : Nat := (t.jobs.map Job.left).sum + (if t.isUpdate = true ∧ t.ret = none then 1 else 0)

def PdFine (U : CaseFns) (s : PdState) : Prop := ∀ t ∈ s.tasks, ∀ j ∈ t.jobs, JobFine U j

theorem PdFine.append {U : CaseFns} {l : List Task} {t : Task} (h : ∀ t ∈ l, ∀ j ∈ t.jobs, JobFine U j) (ht : ∀ j ∈ t.jobs, JobFine U j) :
    ∀ x ∈ l ++ [t], ∀ j ∈ x.jobs, JobFine U j := by
  intro x hx
  rcases List.mem_append.mp hx with hx | hx
  · exact h x hx
  · rw [List.mem_singleton.mp hx]; exact ht

theorem PdFine.set {U : CaseFns} {l : List Task} {t : Task} {i : Nat} (h : ∀ t ∈ l, ∀ j ∈ t.jobs, JobFine U j)
    (ht : ∀ j ∈ t.jobs, JobFine U j) : ∀ x ∈ l.set i t, ∀ j ∈ x.jobs, JobFine U j := by
  intro x hx
  rcases List.mem_or_eq_of_mem_set hx with hx | rfl
  · exact h x hx
  · exact ht

theorem PdFine.step {U : CaseFns} {s s' : PdState} {a : PdAct} (hf : PdFine U s) (h : pdStep U s a = some s') : PdFine U s' := by
  unfold pdStep at h
  split at h
  · simp at h
  cases a with
  | tick d => simp only [Option.some.injEq] at h; subst h; exact hf
  | update fetch =>
    simp only [Option.some.injEq] at h; subst h
    refine PdFine.append hf ?_
    intro j hj
    simp only [List.mem_map] at hj
    obtain ⟨f, _, rfl⟩ := hj
    trivial
  | task i u =>
    simp only at h
    split at h
    · simp at h
    · rename_i t ht
      split at h
      · simp at h
      · split at h
        · simp at h
        · rename_i v hv
          simp only [Option.some.injEq] at h; subst h
          have h0 : UpdFine U (s.taskView t) := hf t (List.mem_of_getElem? ht)
          exact PdFine.set hf (h0.step hv)
  | finish i =>
    simp only at h
    split at h
    · simp at h
    · rename_i t ht
      have h0 := hf t (List.mem_of_getElem? ht)
      split at h
      · split at h <;> simp only [Option.some.injEq] at h <;> subst h <;> exact PdFine.set hf h0
      · simp at h
  | abort i =>
    simp only at h
    split at h
    · simp at h
    · rename_i t ht
      have h0 := hf t (List.mem_of_getElem? ht)
      split at h
      · simp only [Option.some.injEq] at h; subst h; exact PdFine.set hf h0
      · simp at h
  | expire o k =>
    simp only at h
    repeat' split at h
    all_goals first
      | (simp only [Option.some.injEq] at h; subst h; exact hf)
      | (simp at h)
  | hook j fetch =>
    simp only at h
    split at h
    · simp at h
    · split at h
      · simp only [Option.some.injEq] at h; subst h
        refine PdFine.append hf ?_
        intro j hj
        rw [List.mem_singleton.mp hj]
        trivial
      · simp only [Option.some.injEq] at h; subst h; exact hf
  | check q => simp only [Option.some.injEq] at h; subst h; exact hf
  | load k =>
    simp only at h
    repeat' split at h
    all_goals first
      | (simp only [Option.some.injEq] at h; subst h; exact hf)
      | (simp at h)
  | chk k a =>
    simp only at h
    repeat' split at h
    all_goals first
      | (simp only [Option.some.injEq] at h; subst h; exact hf)
      | (simp at h)

theorem PdFine.run {U : CaseFns} {s s' : PdState} {as : List PdAct} (hf : PdFine U s) (h : pdRun U s as = some s') : PdFine U s' := by
  induction as generalizing s with
  | nil => simp only [pdRun, Option.some.injEq] at h; subst h; exact hf
  | cons a as ih =>
    simp only [pdRun] at h
    split at h
    · simp at h
    · rename_i s1 hs1; exact ih (hf.step hs1) h

theorem pdInit_fine (U : CaseFns) (now : Int) (domains : List Str) : PdFine U (pdInit now domains) := by
  intro t ht; simp [pdInit] at ht

/-- Steps of the call bring it nearer to its end; other steps change nothing about that. -/
def LeftOk (i : Nat) (a : PdAct) (t t' : Task) : Prop :=
  t'.isUpdate = t.isUpdate ∧ (a.worksFor i = true → t'.left < t.left) ∧ (a.worksFor i = false → t'.left = t.left)

theorem LeftOk.same {i : Nat} {a : PdAct} {t : Task} (h : a.worksFor i = false) : LeftOk i a t t :=
  ⟨rfl, by simp [h], fun _ => rfl⟩

theorem getElem?_append_left' {α : Type} {l : List α} {x y : α} {i : Nat} (h : l[i]? = some y) : (l ++ [x])[i]? = some y := by
  rw [List.getElem?_append_left (List.getElem?_eq_some_iff.mp h).1]; exact h

theorem pdStep_left {U : CaseFns} {s s' : PdState} {a : PdAct} (h : pdStep U s a = some s') {i : Nat} {t : Task}
    (ht : s.tasks[i]? = some t) : ∃ t', s'.tasks[i]? = some t' ∧ LeftOk i a t t' := by
  have hlt : i < s.tasks.length := (List.getElem?_eq_some_iff.mp ht).1
  unfold pdStep at h
  split at h
  · simp at h
  cases a with
  | tick d => simp only [Option.some.injEq] at h; subst h; exact ⟨t, ht, .same rfl⟩
  | update fetch => simp only [Option.some.injEq] at h; subst h; exact ⟨t, getElem?_append_left' ht, .same rfl⟩
  | task k u =>
    simp only at h
    split at h
    · simp at h
    · rename_i t0 ht0
      split at h
      · simp at h
      · split at h
        · simp at h
        · rename_i v hv
          simp only [Option.some.injEq] at h; subst h
          by_cases hk : k = i
          · subst hk
            obtain rfl : t0 = t := by rw [ht0] at ht; exact Option.some.inj ht
            refine ⟨_, List.getElem?_set_self hlt, rfl, fun hw => ?_, fun hw => ?_⟩
            · have := (updStep_left hv).1 (by simpa [PdAct.worksFor] using hw)
              simp only [UpdState.left, PdState.taskView] at this
              simp only [Task.left]; omega
            · have := (updStep_left hv).2 (by simpa [PdAct.worksFor] using hw)
              simp only [UpdState.left, PdState.taskView] at this
              simp only [Task.left]; omega
          · refine ⟨t, by rw [List.getElem?_set_ne hk]; exact ht, .same (by simp [PdAct.worksFor, hk])⟩
  | finish k =>
    simp only at h
    split at h
    · simp at h
    · rename_i t0 ht0
      split at h
      · rename_i hc
        simp only [Bool.and_eq_true, Option.isNone_iff_eq_none] at hc
        by_cases hk : k = i
        · subst hk
          obtain rfl : t0 = t := by rw [ht0] at ht; exact Option.some.inj ht
          split at h <;> simp only [Option.some.injEq] at h <;> subst h <;>
            exact ⟨_, List.getElem?_set_self hlt, rfl, fun _ => by simp [Task.left, hc], by simp [PdAct.worksFor]⟩
        · split at h <;> simp only [Option.some.injEq] at h <;> subst h <;>
            exact ⟨t, by rw [List.getElem?_set_ne hk]; exact ht, .same (by simp [PdAct.worksFor, hk])⟩
      · simp at h
  | abort k =>
    simp only at h
    split at h
    · simp at h
    · rename_i t0 ht0
      split at h
      · rename_i hc
        simp only [Bool.and_eq_true, Option.isNone_iff_eq_none] at hc
        simp only [Option.some.injEq] at h; subst h
        by_cases hk : k = i
        · subst hk
          obtain rfl : t0 = t := by rw [ht0] at ht; exact Option.some.inj ht
          exact ⟨_, List.getElem?_set_self hlt, rfl, fun _ => by simp [Task.left, hc], by simp [PdAct.worksFor]⟩
        · exact ⟨t, by rw [List.getElem?_set_ne hk]; exact ht, .same (by simp [PdAct.worksFor, hk])⟩
      · simp at h
  | expire o k =>
    simp only at h
    repeat' split at h
    all_goals first
      | (simp only [Option.some.injEq] at h; subst h; exact ⟨t, ht, .same rfl⟩)
      | (simp at h)
  | hook j fetch =>
    simp only at h
    split at h
    · simp at h
    · split at h
      · simp only [Option.some.injEq] at h; subst h; exact ⟨t, getElem?_append_left' ht, .same rfl⟩
      · simp only [Option.some.injEq] at h; subst h; exact ⟨t, ht, .same rfl⟩
  | check q => simp only [Option.some.injEq] at h; subst h; exact ⟨t, ht, .same rfl⟩
  | load k =>
    simp only at h
    repeat' split at h
    all_goals first
      | (simp only [Option.some.injEq] at h; subst h; exact ⟨t, ht, .same rfl⟩)
      | (simp at h)
  | chk k a =>
    simp only at h
    repeat' split at h
    all_goals first
      | (simp only [Option.some.injEq] at h; subst h; exact ⟨t, ht, .same rfl⟩)
      | (simp at h)

theorem pdRun_left {U : CaseFns} {s s' : PdState} {as : List PdAct} (h : pdRun U s as = some s') {i : Nat} {t : Task}
    (ht : s.tasks[i]? = some t) :
    ∃ t', s'.tasks[i]? = some t' ∧ t'.isUpdate = t.isUpdate ∧ (as.filter (PdAct.worksFor i)).length + t'.left ≤ t.left := by
  induction as generalizing s t with
  | nil => simp only [pdRun, Option.some.injEq] at h; subst h; exact ⟨t, ht, rfl, by simp⟩
  | cons a as ih =>
    simp only [pdRun] at h
    split at h
    · simp at h
    · rename_i s1 hs1
      obtain ⟨t1, ht1, he1, hw1, hn1⟩ := pdStep_left hs1 ht
      obtain ⟨t', ht', he', hl'⟩ := ih h ht1
      refine ⟨t', ht', he'.trans he1, ?_⟩
      cases hw : a.worksFor i with
      | true => have := hw1 hw; simp [hw]; omega
      | false => have := hn1 hw; simp [hw]; omega

theorem Job.left_zero {j : Job} (h : j.left = 0) : ∃ e, j = .done e := by
  cases j with
  | start f => cases f <;> simp [Job.left] at h
  | fetching f => cases f <;> simp [Job.left] at h
  | merge d m => simp [Job.left] at h
  | fill ttl todo pc =>
    cases todo with
    | nil => simp [Job.left] at h
    | cons a rest => cases pc <;> simp [Job.left] at h
  | done e => exact ⟨e, rfl⟩

theorem Task.left_zero {t : Task} (h : t.left = 0) : t.allDone = true ∧ (t.isUpdate = true → t.ret ≠ none) := by
  simp only [Task.left, Nat.add_eq_zero_iff, List.sum_eq_zero_iff_forall_eq_nat] at h
  refine ⟨Task.allDone_iff.mpr fun j hj => Job.left_zero (h.1 _ (List.mem_map.mpr ⟨j, hj, rfl⟩)), fun hu hr => ?_⟩
  simp [hu, hr] at h

theorem task_ready {U : CaseFns} {s : PdState} (hf : PdFine U s) (hc : s.crashed = false) {i : Nat} {t : Task} (ht : s.tasks[i]? = some t)
    (hl : t.left ≠ 0) : ∃ a s', a.worksFor i = true ∧ pdStep U s a = some s' := by
  by_cases hd : t.allDone = true
  · have hz : (t.jobs.map Job.left).sum = 0 := by
      simp only [List.sum_eq_zero_iff_forall_eq_nat, List.mem_map]
      rintro _ ⟨j, hj, rfl⟩
      obtain ⟨e, rfl⟩ := Task.allDone_iff.mp hd j hj
      rfl
    have hu : t.isUpdate = true ∧ t.ret = none := by
      refine Classical.byContradiction fun hn => hl ?_
      simp only [Task.left, hz, if_neg hn]
    refine ⟨.finish i, ?_⟩
    cases hok : t.allOk <;> simp [pdStep, hc, ht, hu, hd, hok, PdAct.worksFor]
  · rw [Task.allDone_iff] at hd
    simp only [Classical.not_forall] at hd
    obtain ⟨j, hj, hne⟩ := hd
    replace hne : ∀ e, j ≠ .done e := fun e he => hne ⟨e, he⟩
    obtain ⟨n, hn⟩ := List.mem_iff_getElem?.mp hj
    have h0 : UpdFine U (s.taskView t) := hf t (List.mem_of_getElem? ht)
    obtain ⟨u, u', _, hw, hs⟩ := job_ready h0 (i := n) (j := j) hn hne
    refine ⟨.task i u, ?_⟩
    cases u with
    | tick d => simp [UpdAct.isWork] at hw
    | cancel => simp [UpdAct.isWork] at hw
    | merge a b => simp [pdStep, hc, ht, hs, PdAct.worksFor, UpdAct.isWork]
    | job a b => simp [pdStep, hc, ht, hs, PdAct.worksFor, UpdAct.isWork]

end Athenz
