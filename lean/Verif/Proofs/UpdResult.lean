import Verif.Proofs.PdTerm

/-! Which error a policy update ends with, if any. -/

namespace Athenz

/-- A merging goroutine gives up only if the context was cancelled (`c`). -/
def MFrom (c : Bool) (m : MergeState) : Prop := ∀ t ∈ m.threads, t.failed = true → c = true

/-- The goroutine of a domain came from this answer of `FetchWithRetry`. -/
def JobFrom (U : CaseFns) (f : Option PolicyDoc) (c : Bool) : Job → Prop
  | .start g => g = f
  | .fetching g => g = f
  | .merge d m => f = some d ∧ (∃ cons, MergeInv U d m cons) ∧ MFrom c m
  | .fill _ todo _ => ∃ d filled, f = some d ∧ Merged U d (filled ++ todo) ∧ ∀ a ∈ filled, ∃ x, a.conv U = some x
  | .done none => ∃ d filled, f = some d ∧ Merged U d filled ∧ ∀ a ∈ filled, ∃ x, a.conv U = some x
  | .done (some _) => c = true ∨ f = none ∨ ∃ d a, f = some d ∧ a ∈ d.policies.flatten ∧ a.conv U = none

theorem JobFrom.mono {U : CaseFns} {f : Option PolicyDoc} {c : Bool} {j : Job} (h : JobFrom U f c j) : JobFrom U f true j := by
  cases j with
  | start g => exact h
  | fetching g => exact h
  | merge d m => exact ⟨h.1, h.2.1, fun _ _ _ => rfl⟩
  | fill ttl todo pc => exact h
  | done e => cases e with
    | none => exact h
    | some e => exact .inl rfl

theorem mFrom_init (d : PolicyDoc) (c : Bool) : MFrom c d.mergeInit := by
  intro t ht
  simp only [PolicyDoc.mergeInit, List.mem_map] at ht
  obtain ⟨p, hp, rfl⟩ := ht
  simp

theorem MFrom.step {U : CaseFns} {c : Bool} {m m' : MergeState} {k : Nat} (h : MFrom c m) (hs : mergeStep U c m k = some m') :
    MFrom c m' := by
  unfold mergeStep at hs
  split at hs
  · simp at hs
  · rename_i t ht
    have hm := h t (List.mem_of_getElem? ht)
    have hset : ∀ t' : MThread, (t'.failed = true → c = true) → ∀ x ∈ m.threads.set k t', x.failed = true → c = true := by
      intro t' ht' x hx
      rcases List.mem_or_eq_of_mem_set hx with hx | rfl
      · exact h x hx
      · exact ht'
    split at hs
    · simp at hs
    · split at hs
      · rename_i hc
        simp only [Option.some.injEq] at hs; subst hs
        exact hset _ fun _ => hc
      · simp only [Option.some.injEq] at hs; subst hs
        exact hset _ hm
    · simp only at hs
      split at hs <;> simp only [Option.some.injEq] at hs <;> subst hs <;> exact hset _ hm

/-- Job by job. -/
def UpdFrom (U : CaseFns) (docs : List (Option PolicyDoc)) (c : Bool) (jobs : List Job) : Prop :=
  jobs.length = docs.length ∧ ∀ (i : Nat) (j : Job) (f : Option PolicyDoc), jobs[i]? = some j → docs[i]? = some f → JobFrom U f c j

theorem updFrom_init (U : CaseFns) (docs : List (Option PolicyDoc)) : UpdFrom U docs false (docs.map .start) := by
  refine ⟨by simp, ?_⟩
  intro i j f hj hf
  simp only [List.getElem?_map, hf, Option.map_some, Option.some.injEq] at hj
  subst hj
  rfl

theorem UpdFrom.setJob {U : CaseFns} {docs : List (Option PolicyDoc)} {c : Bool} {jobs : List Job} (h : UpdFrom U docs c jobs) {i : Nat}
    {j0 j : Job} (h0 : jobs[i]? = some j0) (hj : ∀ f, JobFrom U f c j0 → JobFrom U f c j) : UpdFrom U docs c (jobs.set i j) := by
  refine ⟨by simpa using h.1, ?_⟩
  intro i' j' f hj' hf
  rcases getElem?_set_cases h0 hj' with ⟨rfl, rfl⟩ | ⟨hne, hj'⟩
  · exact hj f (h.2 _ _ f h0 hf)
  · exact h.2 i' j' f hj' hf

theorem UpdFrom.step {U : CaseFns} {docs : List (Option PolicyDoc)} {s s' : UpdState} {a : UpdAct} (h : UpdFrom U docs s.cancelled s.jobs)
    (hs : updStep U s a = some s') : UpdFrom U docs s'.cancelled s'.jobs := by
  cases a with
  | tick d => simp only [updStep, Option.some.injEq] at hs; subst hs; exact h
  | cancel =>
    simp only [updStep, Option.some.injEq] at hs; subst hs
    exact ⟨h.1, fun i j f hj hf => (h.2 i j f hj hf).mono⟩
  | merge i k =>
    simp only [updStep] at hs
    split at hs
    · rename_i d m hj
      split at hs
      · rename_i m' hm
        simp only [Option.some.injEq] at hs; subst hs
        refine h.setJob hj fun f hf => ⟨hf.1, ?_, hf.2.2.step hm⟩
        obtain ⟨cons, hmi⟩ := hf.2.1
        exact hmi.step hm
      · simp at hs
    · simp at hs
  | job i order =>
    simp only [updStep] at hs
    split at hs
    · rename_i f0 hj
      split at hs
      · rename_i hc
        simp only [Option.some.injEq] at hs; subst hs
        exact h.setJob hj fun f _ => .inl hc
      · simp only [Option.some.injEq] at hs; subst hs
        exact h.setJob hj fun f hf => hf
    · rename_i hj
      simp only [Option.some.injEq] at hs; subst hs
      exact h.setJob hj fun f hf => .inr (.inl hf.symm)
    · rename_i d hj
      simp only [Option.some.injEq] at hs; subst hs
      exact h.setJob hj fun f hf => ⟨hf.symm, ⟨_, mergeInit_inv U d⟩, mFrom_init d _⟩
    · rename_i d m hj
      split at hs
      · rename_i hfin
        split at hs
        · rename_i hfail
          simp only [Option.some.injEq] at hs; subst hs
          refine h.setJob hj fun f hf => .inl ?_
          simp only [MergeState.failed, List.any_eq_true] at hfail
          obtain ⟨t, ht, hft⟩ := hfail
          exact hf.2.2 t ht hft
        · rename_i hnf
          split at hs
          · rename_i hperm
            simp only [Option.some.injEq] at hs; subst hs
            refine h.setJob hj fun f hf => ?_
            obtain ⟨cons, hmi⟩ := hf.2.1
            exact ⟨d, [], hf.1, by simpa using (hmi.merged hfin (by simpa using hnf)).perm hperm, by simp⟩
          · simp at hs
      · simp at hs
    · rename_i hj
      simp only [Option.some.injEq] at hs; subst hs
      refine h.setJob hj fun f hf => ?_
      obtain ⟨d, filled, rfl, hm, hok⟩ := hf
      exact ⟨d, filled, rfl, by simpa using hm, hok⟩
    · rename_i ttl a rest hj
      split at hs
      · simp only [Option.some.injEq] at hs; subst hs
        exact h.setJob hj fun f hf => hf
      · rename_i e he
        simp only [Option.some.injEq] at hs; subst hs
        refine h.setJob hj fun f hf => ?_
        obtain ⟨d, filled, rfl, hm, hok⟩ := hf
        exact .inr (.inr ⟨d, a, rfl, hm.sub a (by simp), by simp [RawAssertion.conv, he]⟩)
      · simp at hs
    · rename_i ttl a rest old hj
      split at hs
      · rename_i x hx
        simp only [Option.some.injEq] at hs; subst hs
        refine h.setJob hj fun f hf => ?_
        obtain ⟨d, filled, rfl, hm, hok⟩ := hf
        refine ⟨d, filled ++ [a], rfl, by simpa using hm, fun b hb => ?_⟩
        rcases List.mem_append.mp hb with hb | hb
        · exact hok b hb
        · rw [List.mem_singleton.mp hb]; exact ⟨x, by simp [RawAssertion.conv, hx]⟩
      · simp at hs
    · simp at hs

/-- The context of call `i` is cancelled. -/
def PdAct.isCancelOf (i : Nat) (a : PdAct) : Prop := a = .task i .cancel

/-- What call `i` of `Update` is about: its answers, and what it returns. -/
structure CallOf (U : CaseFns) (docs : List (Option PolicyDoc)) (t : Task) : Prop where
  upd : t.isUpdate = true
  jobs : UpdFrom U docs t.cancelled t.jobs
  ok : t.ret = some true → t.allOk = true
  bad : t.ret = some false → t.cancelled = true ∨ (t.allDone = true ∧ t.allOk = false)

theorem updStep_cancelled {U : CaseFns} {s s' : UpdState} {a : UpdAct} (h : updStep U s a = some s') (ha : a ≠ .cancel) :
    s'.cancelled = s.cancelled := by
  cases a with
  | cancel => exact absurd rfl ha
  | tick d => simp only [updStep, Option.some.injEq] at h; subst h; rfl
  | merge i k =>
    simp only [updStep] at h
    repeat' split at h
    all_goals first
      | (simp only [Option.some.injEq] at h; subst h; rfl)
      | (simp at h)
  | job i order =>
    simp only [updStep] at h
    repeat' split at h
    all_goals first
      | (simp only [Option.some.injEq] at h; subst h; rfl)
      | (simp at h)

theorem updStep_allDone_same {U : CaseFns} {s s' : UpdState} {a : UpdAct} (h : updStep U s a = some s')
    (hd : ∀ j ∈ s.jobs, ∃ e, j = .done e) : s'.jobs = s.jobs := by
  have hn : ∀ (i : Nat) (j : Job), s.jobs[i]? = some j → ∃ e, j = .done e := fun i j hj => hd j (List.mem_of_getElem? hj)
  cases a with
  | cancel => simp only [updStep, Option.some.injEq] at h; subst h; rfl
  | tick d => simp only [updStep, Option.some.injEq] at h; subst h; rfl
  | merge i k =>
    simp only [updStep] at h
    split at h
    · rename_i hj; obtain ⟨e, he⟩ := hn _ _ hj; simp at he
    · simp at h
  | job i order =>
    simp only [updStep] at h
    split at h
    all_goals first
      | (rename_i hj; obtain ⟨e, he⟩ := hn _ _ hj; simp at he; done)
      | (simp at h; done)

theorem CallOf.step {U : CaseFns} {s s' : PdState} {a : PdAct} {docs : List (Option PolicyDoc)} (h : pdStep U s a = some s') {i : Nat} {t : Task}
    (ht : s.tasks[i]? = some t) (hc : CallOf U docs t) :
    ∃ t', s'.tasks[i]? = some t' ∧ CallOf U docs t' ∧ (¬ a.isCancelOf i → t'.cancelled = t.cancelled) := by
  have hlt : i < s.tasks.length := (List.getElem?_eq_some_iff.mp ht).1
  unfold pdStep at h
  split at h
  · simp at h
  cases a with
  | tick d => simp only [Option.some.injEq] at h; subst h; exact ⟨t, ht, hc, fun _ => rfl⟩
  | update fetch => simp only [Option.some.injEq] at h; subst h; exact ⟨t, getElem?_append_left' ht, hc, fun _ => rfl⟩
  | task k u =>
    simp only at h
    split at h
    · simp at h
    · rename_i t0 ht0
      split at h
      · simp at h
      · split at h
        · simp at h
        · rename_i v hv
          simp only [Option.some.injEq] at h; subst h
          by_cases hk : k = i
          · subst hk
            obtain rfl : t0 = t := by rw [ht0] at ht; exact Option.some.inj ht
            have hj : UpdFrom U docs v.cancelled v.jobs := UpdFrom.step (s := s.taskView t0) hc.jobs hv
            have hsame : t0.allDone = true → v.jobs = t0.jobs := fun hd =>
              updStep_allDone_same hv (Task.allDone_iff.mp hd)
            have hcan : u ≠ .cancel → v.cancelled = t0.cancelled := fun hu => updStep_cancelled hv hu
            have hcan' : t0.cancelled = true → v.cancelled = true := by
              intro htc
              by_cases hu : u = .cancel
              · subst hu; simp only [updStep, Option.some.injEq] at hv; subst hv; rfl
              · rw [hcan hu]; exact htc
            refine ⟨_, List.getElem?_set_self hlt, ⟨hc.upd, hj, ?_, ?_⟩, ?_⟩
            · intro hr
              have hok := hc.ok hr
              have := hsame (Task.allOk_done hok)
              simpa [Task.allOk, this] using hok
            · intro hr
              rcases hc.bad hr with hcc | ⟨hd, hok⟩
              · exact .inl (hcan' hcc)
              · have := hsame hd
                exact .inr ⟨by simpa [Task.allDone, this] using hd, by simpa [Task.allOk, this] using hok⟩
            · intro hn
              exact hcan fun hu => hn (by subst hu; rfl)
          · exact ⟨t, by rw [List.getElem?_set_ne hk]; exact ht, hc, fun _ => rfl⟩
  | finish k =>
    simp only at h
    split at h
    · simp at h
    · rename_i t0 ht0
      split at h
      · rename_i hcond
        simp only [Bool.and_eq_true, Option.isNone_iff_eq_none] at hcond
        by_cases hk : k = i
        · subst hk
          obtain rfl : t0 = t := by rw [ht0] at ht; exact Option.some.inj ht
          split at h <;> rename_i hok <;> simp only [Option.some.injEq] at h <;> subst h
          · exact ⟨_, List.getElem?_set_self hlt, ⟨hc.upd, hc.jobs, fun _ => hok, by simp⟩, fun _ => rfl⟩
          · exact ⟨_, List.getElem?_set_self hlt, ⟨hc.upd, hc.jobs, by simp, fun _ => .inr ⟨hcond.2, show t0.allOk = false by simpa using hok⟩⟩, fun _ => rfl⟩
        · split at h <;> simp only [Option.some.injEq] at h <;> subst h <;>
            exact ⟨t, by rw [List.getElem?_set_ne hk]; exact ht, hc, fun _ => rfl⟩
      · simp at h
  | abort k =>
    simp only at h
    split at h
    · simp at h
    · rename_i t0 ht0
      split at h
      · rename_i hcond
        simp only [Bool.and_eq_true, Option.isNone_iff_eq_none] at hcond
        simp only [Option.some.injEq] at h; subst h
        by_cases hk : k = i
        · subst hk
          obtain rfl : t0 = t := by rw [ht0] at ht; exact Option.some.inj ht
          exact ⟨_, List.getElem?_set_self hlt, ⟨hc.upd, hc.jobs, by simp, fun _ => .inl hcond.2⟩, fun _ => rfl⟩
        · exact ⟨t, by rw [List.getElem?_set_ne hk]; exact ht, hc, fun _ => rfl⟩
      · simp at h
  | expire o k =>
    simp only at h
    repeat' split at h
    all_goals first
      | (simp only [Option.some.injEq] at h; subst h; exact ⟨t, ht, hc, fun _ => rfl⟩)
      | (simp at h)
  | hook j fetch =>
    simp only at h
    split at h
    · simp at h
    · split at h
      · simp only [Option.some.injEq] at h; subst h; exact ⟨t, getElem?_append_left' ht, hc, fun _ => rfl⟩
      · simp only [Option.some.injEq] at h; subst h; exact ⟨t, ht, hc, fun _ => rfl⟩
  | check q => simp only [Option.some.injEq] at h; subst h; exact ⟨t, ht, hc, fun _ => rfl⟩
  | load k =>
    simp only at h
    repeat' split at h
    all_goals first
      | (simp only [Option.some.injEq] at h; subst h; exact ⟨t, ht, hc, fun _ => rfl⟩)
      | (simp at h)
  | chk k a =>
    simp only at h
    repeat' split at h
    all_goals first
      | (simp only [Option.some.injEq] at h; subst h; exact ⟨t, ht, hc, fun _ => rfl⟩)
      | (simp at h)

theorem CallOf.run {U : CaseFns} {s s' : PdState} {as : List PdAct} {docs : List (Option PolicyDoc)} (h : pdRun U s as = some s') {i : Nat}
    {t : Task} (ht : s.tasks[i]? = some t) (hc : CallOf U docs t) :
    ∃ t', s'.tasks[i]? = some t' ∧ CallOf U docs t' ∧ ((∀ a ∈ as, ¬ a.isCancelOf i) → t'.cancelled = t.cancelled) := by
  induction as generalizing s t with
  | nil => simp only [pdRun, Option.some.injEq] at h; subst h; exact ⟨t, ht, hc, fun _ => rfl⟩
  | cons a as ih =>
    simp only [pdRun] at h
    split at h
    · simp at h
    · rename_i s1 hs1
      obtain ⟨t1, ht1, hc1, hn1⟩ := CallOf.step hs1 ht hc
      obtain ⟨t', ht', hc', hn'⟩ := ih h ht1 hc1
      exact ⟨t', ht', hc', fun hall => (hn' fun b hb => hall b (List.mem_cons_of_mem _ hb)).trans (hn1 (hall a (by simp)))⟩

end Athenz
