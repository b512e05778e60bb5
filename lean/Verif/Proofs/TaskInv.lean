import Verif.Proofs.InForce
import Verif.Proofs.UpdResult

/-! The calls of `Update` and the refreshes of expired entries, in every schedule. -/

namespace Athenz

/-- What a step does with the tasks there are, refreshes included. -/
theorem pdStep_task {U : CaseFns} {s s' : PdState} {a : PdAct} (h : pdStep U s a = some s') {i : Nat} {t : Task} (ht : s.tasks[i]? = some t) :
    ∃ t', s'.tasks[i]? = some t' ∧ t'.isUpdate = t.isUpdate ∧ t'.obj = t.obj ∧ (t.ret ≠ none → t'.ret = t.ret) ∧
      (t'.ret ≠ t.ret → t.isUpdate = true) ∧ (t'.ret = some true → t.ret ≠ some true → a = .finish i ∧ t'.allOk = true ∧ s'.live = t.obj) ∧
      (t.allDone = true → t'.jobs = t.jobs) := by
  have same : s'.tasks[i]? = some t → ∃ t', s'.tasks[i]? = some t' ∧ t'.isUpdate = t.isUpdate ∧ t'.obj = t.obj ∧ (t.ret ≠ none → t'.ret = t.ret) ∧
      (t'.ret ≠ t.ret → t.isUpdate = true) ∧ (t'.ret = some true → t.ret ≠ some true → a = .finish i ∧ t'.allOk = true ∧ s'.live = t.obj) ∧
      (t.allDone = true → t'.jobs = t.jobs) :=
    fun h => ⟨t, h, rfl, rfl, fun _ => rfl, fun hn => absurd rfl hn, fun h1 h2 => absurd h1 h2, fun _ => rfl⟩
  unfold pdStep at h
  split at h
  · simp at h
  cases a with
  | update fetch =>
    simp only [Option.some.injEq] at h; subst h
    exact same (by simp only; rw [List.getElem?_append_left (lt_of_getElem? ht)]; exact ht)
  | task i0 u =>
    simp only at h
    split at h
    · simp at h
    · rename_i t0 ht0
      have key : ∀ u', updStep U (s.taskView t0) u = some u' →
          ∃ t', (s.tasks.set i0 { t0 with cancelled := u'.cancelled, jobs := u'.jobs })[i]? = some t' ∧ t'.isUpdate = t.isUpdate ∧ t'.obj = t.obj ∧
            t'.ret = t.ret ∧ (t.allDone = true → t'.jobs = t.jobs) := by
        intro u' hu
        by_cases hi : i0 = i
        · subst hi
          rw [ht] at ht0
          obtain rfl := Option.some.inj ht0
          exact ⟨_, List.getElem?_set_self (lt_of_getElem? ht), rfl, rfl, rfl,
            fun hd => updStep_allDone_same hu (by simpa [PdState.taskView] using Task.allDone_iff.mp hd)⟩
        · exact ⟨t, by rw [List.getElem?_set_ne hi]; exact ht, rfl, rfl, rfl, fun _ => rfl⟩
      have fin : ∀ u', updStep U (s.taskView t0) u = some u' →
          s' = { s with objs := s.objs.set t0.obj u'.rp, tasks := s.tasks.set i0 { t0 with cancelled := u'.cancelled, jobs := u'.jobs } } →
          ∃ t', s'.tasks[i]? = some t' ∧ t'.isUpdate = t.isUpdate ∧ t'.obj = t.obj ∧ (t.ret ≠ none → t'.ret = t.ret) ∧
            (t'.ret ≠ t.ret → t.isUpdate = true) ∧
            (t'.ret = some true → t.ret ≠ some true → PdAct.task i0 u = .finish i ∧ t'.allOk = true ∧ s'.live = t.obj) ∧
            (t.allDone = true → t'.jobs = t.jobs) := by
        intro u' hu hs'
        obtain ⟨t', h1, h2, h3, h4, h5⟩ := key u' hu
        subst hs'
        exact ⟨t', h1, h2, h3, fun _ => h4, fun hn => absurd h4 hn, fun h6 h7 => absurd (h4 ▸ h6) h7, h5⟩
      cases u with
      | tick d => simp at h
      | _ =>
        simp only at h
        split at h
        · simp at h
        · rename_i u' hu
          simp only [Option.some.injEq] at h
          exact fin u' hu h.symm
  | finish i0 =>
    simp only at h
    split at h
    · simp at h
    · rename_i t0 ht0
      split at h
      · rename_i hc
        simp only [Bool.and_eq_true, Option.isNone_iff_eq_none] at hc
        by_cases hi : i0 = i
        · subst hi
          rw [ht] at ht0
          obtain rfl := Option.some.inj ht0
          split at h
          · rename_i hok
            simp only [Option.some.injEq] at h; subst h
            exact ⟨_, List.getElem?_set_self (lt_of_getElem? ht), rfl, rfl, fun hn => absurd hc.1.2 hn, fun _ => hc.1.1,
              fun _ _ => ⟨rfl, hok, rfl⟩, fun _ => rfl⟩
          · simp only [Option.some.injEq] at h; subst h
            exact ⟨_, List.getElem?_set_self (lt_of_getElem? ht), rfl, rfl, fun hn => absurd hc.1.2 hn, fun _ => hc.1.1,
              fun h1 _ => by simp at h1, fun _ => rfl⟩
        · split at h <;> simp only [Option.some.injEq] at h <;> subst h <;>
            exact same (by simp only; rw [List.getElem?_set_ne hi]; exact ht)
      · simp at h
  | abort i0 =>
    simp only at h
    split at h
    · simp at h
    · rename_i t0 ht0
      split at h
      · rename_i hc
        simp only [Bool.and_eq_true, Option.isNone_iff_eq_none] at hc
        simp only [Option.some.injEq] at h; subst h
        by_cases hi : i0 = i
        · subst hi
          rw [ht] at ht0
          obtain rfl := Option.some.inj ht0
          exact ⟨_, List.getElem?_set_self (lt_of_getElem? ht), rfl, rfl, fun hn => absurd hc.1.2 hn, fun _ => hc.1.1,
            fun h1 _ => by simp at h1, fun _ => rfl⟩
        · exact same (by simp only; rw [List.getElem?_set_ne hi]; exact ht)
      · simp at h
  | hook n f =>
    simp only at h
    split at h
    · simp at h
    · split at h
      · simp only [Option.some.injEq] at h; subst h
        exact same (by simp only; rw [List.getElem?_append_left (lt_of_getElem? ht)]; exact ht)
      · simp only [Option.some.injEq] at h; subst h; exact same ht
  | _ =>
    simp only at h
    repeat' split at h
    all_goals first
      | (simp at h; done)
      | (simp only [Option.some.injEq] at h; subst h; exact same ht)

/-- The tasks that a step adds. -/
theorem pdStep_newTask {U : CaseFns} {s s' : PdState} {a : PdAct} (h : pdStep U s a = some s') {i : Nat} {t' : Task} (ht' : s'.tasks[i]? = some t') :
    (∃ t, s.tasks[i]? = some t) ∨ (i = s.tasks.length ∧ t'.ret = none ∧
      ((∃ fetch, a = .update fetch ∧ t'.isUpdate = true ∧ t'.obj = s.objs.length ∧ t'.jobs = fetch.map .start ∧ t'.cancelled = false) ∨
        ∃ n f, a = .hook n f ∧ t'.isUpdate = false ∧ t'.obj = s.live ∧ t'.jobs = [.fetching f])) := by
  by_cases hi : i < s.tasks.length
  · exact .inl ⟨_, List.getElem?_eq_getElem hi⟩
  have old : s'.tasks.length = s.tasks.length → (∃ t, s.tasks[i]? = some t) ∨ (i = s.tasks.length ∧ t'.ret = none ∧
      ((∃ fetch, a = .update fetch ∧ t'.isUpdate = true ∧ t'.obj = s.objs.length ∧ t'.jobs = fetch.map .start ∧ t'.cancelled = false) ∨
        ∃ n f, a = .hook n f ∧ t'.isUpdate = false ∧ t'.obj = s.live ∧ t'.jobs = [.fetching f])) := by
    intro hl
    have := lt_of_getElem? ht'
    omega
  unfold pdStep at h
  split at h
  · simp at h
  cases a with
  | update fetch =>
    simp only [Option.some.injEq] at h; subst h
    rcases getElem?_append_cases ht' with ht' | ⟨rfl, rfl⟩
    · exact .inl ⟨_, ht'⟩
    · exact .inr ⟨rfl, rfl, .inl ⟨fetch, rfl, rfl, rfl, rfl, rfl⟩⟩
  | hook n f =>
    simp only at h
    split at h
    · simp at h
    · split at h
      · simp only [Option.some.injEq] at h; subst h
        rcases getElem?_append_cases ht' with ht' | ⟨rfl, rfl⟩
        · exact .inl ⟨_, ht'⟩
        · exact .inr ⟨rfl, rfl, .inr ⟨n, f, rfl, rfl, rfl, rfl⟩⟩
      · simp only [Option.some.injEq] at h; subst h; exact .inl ⟨_, ht'⟩
  | _ =>
    simp only at h
    repeat' split at h
    all_goals first
      | (simp at h; done)
      | (simp only [Option.some.injEq] at h; subst h; exact old (by simp))

/-- The objects only become more. -/
theorem pdStep_objs_len {U : CaseFns} {s s' : PdState} {a : PdAct} (h : pdStep U s a = some s') :
    s'.objs.length = s.objs.length + a.newSrcs.length := by
  unfold pdStep at h
  split at h
  · simp at h
  cases a with
  | update fetch => simp only [Option.some.injEq] at h; subst h; simp [PdAct.newSrcs]
  | _ =>
    simp only at h
    repeat' split at h
    all_goals first
      | (simp at h; done)
      | (simp only [Option.some.injEq] at h; subst h; simp [PdAct.newSrcs])

structure TaskInv (s : PdState) : Prop where
  ne : 0 < s.objs.length
  lt : ∀ (i : Nat) (t : Task), s.tasks[i]? = some t → t.obj < s.objs.length
  pos : ∀ (i : Nat) (t : Task), s.tasks[i]? = some t → t.isUpdate = true → 0 < t.obj
  live : s.live < s.objs.length
  ret : ∀ (i : Nat) (t : Task), s.tasks[i]? = some t → t.isUpdate = false → t.ret = none
  ok : ∀ (i : Nat) (t : Task), s.tasks[i]? = some t → t.ret = some true → t.allOk = true
  distinct : ∀ (i j : Nat) (t t' : Task), s.tasks[i]? = some t → s.tasks[j]? = some t' → t.isUpdate = true → t'.isUpdate = true →
    t.obj = t'.obj → i = j

theorem pdInit_taskInv (now : Int) (domains : List Str) : TaskInv (pdInit now domains) :=
  ⟨by simp [pdInit], by simp [pdInit], by simp [pdInit], by simp [pdInit], by simp [pdInit], by simp [pdInit], by simp [pdInit]⟩

theorem TaskInv.step {U : CaseFns} {s s' : PdState} {a : PdAct} (hi : TaskInv s) (h : pdStep U s a = some s') : TaskInv s' := by
  have hlen := pdStep_objs_len h
  -- what a task was before
  have was : ∀ (i : Nat) (t' : Task), s'.tasks[i]? = some t' → (∃ t, s.tasks[i]? = some t ∧ t'.isUpdate = t.isUpdate ∧ t'.obj = t.obj ∧
      (t'.ret ≠ t.ret → t.isUpdate = true) ∧ (t'.ret = some true → t.ret ≠ some true → t'.allOk = true) ∧ (t.allDone = true → t'.jobs = t.jobs)) ∨
      (t'.ret = none ∧ ((t'.isUpdate = true ∧ t'.obj = s.objs.length ∧ i = s.tasks.length ∧ a.newSrcs.length = 1) ∨
        (t'.isUpdate = false ∧ t'.obj = s.live))) := by
    intro i t' ht'
    rcases pdStep_newTask h ht' with ⟨t, ht⟩ | ⟨rfl, hr, ⟨fetch, rfl, h1, h2, _⟩ | ⟨n, f, rfl, h1, h2, _⟩⟩
    · obtain ⟨t2, h1, h2, h3, _, h5, h6, h7⟩ := pdStep_task h ht
      rw [ht'] at h1
      obtain rfl := Option.some.inj h1
      exact .inl ⟨t, ht, h2, h3, h5, fun h8 h9 => (h6 h8 h9).2.1, h7⟩
    · exact .inr ⟨hr, .inl ⟨h1, h2, rfl, rfl⟩⟩
    · exact .inr ⟨hr, .inr ⟨h1, h2⟩⟩
  refine ⟨by have := hi.ne; omega, ?_, ?_, ?_, ?_, ?_, ?_⟩
  · intro i t' ht'
    rcases was i t' ht' with ⟨t, ht, _, ho, _⟩ | ⟨_, ⟨_, ho, _, h1⟩ | ⟨_, ho⟩⟩
    · have := hi.lt i t ht; omega
    · omega
    · have := hi.live; omega
  · intro i t' ht' hu
    rcases was i t' ht' with ⟨t, ht, h1, ho, _⟩ | ⟨_, ⟨_, ho, _, h1⟩ | ⟨h1, ho⟩⟩
    · have := hi.pos i t ht (h1 ▸ hu); omega
    · have := hi.ne; omega
    · rw [h1] at hu; simp at hu
  · -- the published object
    by_cases hl : s'.live = s.live
    · have := hi.live; omega
    · unfold pdStep at h
      split at h
      · simp at h
      cases a with
      | finish i =>
        simp only at h
        split at h
        · simp at h
        · rename_i t ht
          have := hi.lt i t ht
          split at h
          · split at h
            · simp only [Option.some.injEq] at h; subst h; exact this
            · simp only [Option.some.injEq] at h; subst h; exact absurd rfl hl
          · simp at h
      | _ =>
        simp only at h
        repeat' split at h
        all_goals first
          | (simp at h; done)
          | (simp only [Option.some.injEq] at h; subst h; exact absurd rfl hl)
  · intro i t' ht' hu
    rcases was i t' ht' with ⟨t, ht, h1, ho, h2, _⟩ | ⟨h1, _⟩
    · have hu' : t.isUpdate = false := h1 ▸ hu
      have : t'.ret = t.ret := Classical.byContradiction fun hn => by rw [h2 hn] at hu'; simp at hu'
      rw [this]; exact hi.ret i t ht hu'
    · exact h1
  · intro i t' ht' hr
    rcases was i t' ht' with ⟨t, ht, h1, ho, h2, h3, h4⟩ | ⟨h1, _⟩
    · by_cases hr' : t.ret = some true
      · have hok := hi.ok i t ht hr'
        have := h4 (Task.allOk_done hok)
        simpa [Task.allOk, this] using hok
      · exact h3 hr hr'
    · rw [h1] at hr; simp at hr
  · intro i j t t' ht ht' hu hu' hoo
    rcases was i t ht with ⟨t0, ht0, h1, ho, _⟩ | ⟨_, ⟨_, ho, hi', _⟩ | ⟨h1, _⟩⟩
    · rcases was j t' ht' with ⟨t1, ht1, h2, ho', _⟩ | ⟨_, ⟨_, ho', _⟩ | ⟨h2, _⟩⟩
      · exact hi.distinct i j t0 t1 ht0 ht1 (h1 ▸ hu) (h2 ▸ hu') (by omega)
      · have := hi.lt i t0 ht0; omega
      · rw [h2] at hu'; simp at hu'
    · rcases was j t' ht' with ⟨t1, ht1, h2, ho', _⟩ | ⟨_, ⟨_, ho', hj', _⟩ | ⟨h2, _⟩⟩
      · have := hi.lt j t1 ht1; omega
      · omega
      · rw [h2] at hu'; simp at hu'
    · rw [h1] at hu; simp at hu

end Athenz
