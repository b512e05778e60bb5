import Verif.Proofs.Policyd

/-! The version invariant is preserved by every step that is not a hook. -/

namespace Athenz

def ChecksOk (U : CaseFns) (s : PdState) (cs : List Chk) : Prop :=
  ∀ (k : Nat) (c : Chk) (o : Nat) (t0 : Int) (g : Gache (List Assertion)), cs[k]? = some c →
    c.loaded = some (o, t0, g) → Quiet s o ∧ t0 ≤ s.now ∧
      (∃ g', s.objs[o]? = some g' ∧ SameFrom s.now g' g) ∧
      ∃ sched, checkRun U c.q (c.q.init (viewOf g t0)) sched = some c.cs ∧
        ∀ v, CheckAct.mutate v ∈ sched → ∃ t, t0 ≤ t ∧ t ≤ s.now ∧ v = viewOf g t

theorem ChecksOk.frame {U : CaseFns} {s s' : PdState} {cs : List Chk} (h : ChecksOk U s cs) (hn : s.now ≤ s'.now)
    (hq : ∀ o, Quiet s o → Quiet s' o)
    (ho : ∀ o g, Quiet s o → s.objs[o]? = some g → ∃ g', s'.objs[o]? = some g' ∧ SameFrom s'.now g' g) : ChecksOk U s' cs := by
  intro k c o t0 g hc hl
  obtain ⟨h1, h2, ⟨g', h3, h4⟩, sched, h5, h6⟩ := h k c o t0 g hc hl
  refine ⟨hq o h1, by omega, ?_, sched, h5, ?_⟩
  · obtain ⟨g'', h7, h8⟩ := ho o g' h1 h3
    exact ⟨g'', h7, h8.trans (h4.later hn)⟩
  · intro v hv
    obtain ⟨t, ht1, ht2, rfl⟩ := h6 v hv
    exact ⟨t, ht1, by omega, rfl⟩

theorem quiet_set {s s' : PdState} {i : Nat} {t t' : Task} (ht : s.tasks[i]? = some t) (hs : s'.tasks = s.tasks.set i t')
    (ho : t'.obj = t.obj) (hd : t.allDone = true → t'.allDone = true) {o : Nat} (h : Quiet s o) : Quiet s' o := by
  rcases h with rfl | ⟨j, t1, hj, rfl, hd1⟩
  · exact .inl rfl
  · by_cases hij : i = j
    · subst hij
      rw [ht] at hj; simp only [Option.some.injEq] at hj; subst hj
      refine .inr ⟨i, t', ?_, ho, hd hd1⟩
      rw [hs, List.getElem?_set_self]
      exact (List.getElem?_eq_some_iff.mp ht).1
    · refine .inr ⟨j, t1, ?_, rfl, hd1⟩
      rw [hs, List.getElem?_set_ne hij]; exact hj

theorem distinct_set {s : PdState} {i : Nat} {t t' : Task} (ht : s.tasks[i]? = some t)
    (h : ∀ (i j : Nat) (t t' : Task), s.tasks[i]? = some t → s.tasks[j]? = some t' → t.obj = t'.obj → i = j)
    (ho : t'.obj = t.obj) :
    ∀ (a b : Nat) (x y : Task), (s.tasks.set i t')[a]? = some x → (s.tasks.set i t')[b]? = some y → x.obj = y.obj → a = b := by
  intro a b x y hx hy hxy
  rcases getElem?_set_cases' hx with ⟨rfl, rfl⟩ | ⟨_, hx'⟩
  · rcases getElem?_set_cases' hy with ⟨rfl, _⟩ | ⟨_, hy⟩
    · rfl
    · exact h _ _ _ _ ht hy (by rw [← ho]; exact hxy)
  · rcases getElem?_set_cases' hy with ⟨rfl, rfl⟩ | ⟨_, hy⟩
    · exact h _ _ _ _ hx' ht (by rw [← ho]; exact hxy)
    · exact h _ _ _ _ hx' hy hxy

/-- Changing only the return value of a task. -/
theorem PdVer.setRet {U : CaseFns} {n0 : Int} {s : PdState} (h : PdVer U n0 s) {i : Nat} {t : Task} (ht : s.tasks[i]? = some t)
    (hr : t.ret = none) (b : Bool) (hb : b = true → t.allOk = true) (l : Nat)
    (hl : (b = true ∧ l = t.obj) ∨ (b = false ∧ l = s.live)) :
    PdVer U n0 { s with live := l, tasks := s.tasks.set i { t with ret := some b } } := by
  have hti := h.tasks i t ht
  have hself : (s.tasks.set i { t with ret := some b })[i]? = some { t with ret := some b } := by
    rw [List.getElem?_set_self]; exact (List.getElem?_eq_some_iff.mp ht).1
  refine ⟨h.clock, h.len, h.obj0, h.src0, ?_, distinct_set ht h.distinct rfl, ?_, ?_⟩
  · intro j t' ht'
    rcases getElem?_set_cases' ht' with ⟨_, rfl⟩ | ⟨_, ht'⟩
    · exact ⟨hti.upd, hti.pos, hti.lt, hti.hist, fun hb' => hb (by simpa using hb')⟩
    · exact (h.tasks j t' ht').congr rfl (Nat.le_refl _) rfl rfl
  · rcases hl with ⟨rfl, rfl⟩ | ⟨rfl, rfl⟩
    · exact .inr ⟨i, _, hself, rfl, rfl⟩
    · rcases h.live with ⟨h0, h1⟩ | ⟨j, t', ht', ho, hr'⟩
      · left
        refine ⟨h0, ?_⟩
        intro j t' ht'
        rcases getElem?_set_cases' ht' with ⟨_, rfl⟩ | ⟨_, ht'⟩
        · simp
        · exact h1 j t' ht'
      · right
        refine ⟨j, t', ?_, ho, hr'⟩
        have : i ≠ j := by
          rintro rfl
          rw [ht] at ht'; simp only [Option.some.injEq] at ht'; subst ht'
          rw [hr] at hr'; simp at hr'
        rw [List.getElem?_set_ne this]; exact ht'
  · exact ChecksOk.frame (s := s) h.checks (Int.le_refl _) (fun o => quiet_set (t' := { t with ret := some b }) ht rfl rfl (fun hd => hd))
      (fun o g _ hg => ⟨g, hg, SameFrom.refl _ _⟩)

theorem PdVer.step {U : CaseFns} {n0 : Int} {s s' : PdState} (h : PdVer U n0 s) {a : PdAct} (hnh : a.notHook)
    (hs : pdStep U s a = some s') : PdVer U n0 s' := by
  unfold pdStep at hs
  split at hs
  · simp at hs
  cases a with
  | hook j f => exact hnh.elim
  | tick d =>
    simp only [Option.some.injEq] at hs; subst hs
    have hclk := h.clock
    refine ⟨by simp only; omega, h.len, h.obj0, h.src0, ?_, h.distinct, h.live, ?_⟩
    · intro i t ht
      have hti := h.tasks i t ht
      refine ⟨hti.upd, hti.pos, hti.lt, ?_, hti.ret⟩
      obtain ⟨docs, T0, u, sched, hT0, h1, h2, h3, h4, h5, g, h6, h7⟩ := hti.hist
      rcases h7 with ⟨h7, h8, h9⟩ | ⟨h7, h8⟩
      · refine ⟨docs, T0, { u with now := u.now + d }, sched ++ [.tick d], hT0, h1, ?_, ?_, h4, h5, g, h6, .inl ⟨h7, ?_, h9⟩⟩
        · rw [updRun_append, h2]; rfl
        · simp only; omega
        · simp only; omega
      · refine ⟨docs, T0, u, sched, hT0, h1, h2, by simp only; omega, h4, h5, g, h6, .inr ⟨h7, h8.later (by simp only; omega)⟩⟩
    · exact ChecksOk.frame (s := s) h.checks (by simp only; omega) (fun o ho => ho) (fun o g _ hg => ⟨g, hg, SameFrom.refl _ _⟩)
  | update fetch =>
    simp only [Option.some.injEq] at hs; subst hs
    have hlen : 0 < s.objs.length := h.quiet_lt (.inl rfl)
    have hold : ∀ o, o < s.objs.length → (s.objs ++ [Gache.empty])[o]? = s.objs[o]? :=
      fun o ho => List.getElem?_append_left ho
    have holds : ∀ o, o < s.objs.length → (s.srcs ++ [fetch])[o]? = s.srcs[o]? :=
      fun o ho => List.getElem?_append_left (by rw [h.len]; exact ho)
    refine ⟨h.clock, by simp [h.len], (hold 0 hlen).trans h.obj0, (holds 0 hlen).trans h.src0, ?_, ?_, ?_, ?_⟩
    · intro i t ht
      rcases getElem?_append_cases ht with ht | ⟨_, rfl⟩
      · have hti := h.tasks i t ht
        exact hti.congr rfl (by simp) (hold _ hti.lt) (holds _ hti.lt)
      · refine ⟨rfl, hlen, by simp, ?_, by simp⟩
        refine ⟨fetch, s.now, updInit s.now fetch, [], h.clock, ?_, rfl, Int.le_refl _, rfl, rfl, Gache.empty, ?_, ?_⟩
        · simp only
          rw [← h.len]; simp
        · simp
        · simp only
          cases hd : Task.allDone ⟨s.objs.length, true, false, fetch.map .start, none⟩ with
          | false => exact .inl ⟨rfl, rfl, rfl⟩
          | true => exact .inr ⟨rfl, SameFrom.refl _ _⟩
    · intro i j t t' ht ht' ho
      rcases getElem?_append_cases ht with ht | ⟨hi, rfl⟩
      · rcases getElem?_append_cases ht' with ht' | ⟨hj, rfl⟩
        · exact h.distinct i j t t' ht ht' ho
        · have := (h.tasks i t ht).lt
          simp only at ho; omega
      · rcases getElem?_append_cases ht' with ht' | ⟨hj, rfl⟩
        · have := (h.tasks j t' ht').lt
          simp only at ho; omega
        · omega
    · rcases h.live with ⟨h0, h1⟩ | ⟨j, t', ht', ho, hr'⟩
      · left
        refine ⟨h0, ?_⟩
        intro j t' ht'
        rcases getElem?_append_cases ht' with ht' | ⟨_, rfl⟩
        · exact h1 j t' ht'
        · simp
      · right
        refine ⟨j, t', ?_, ho, hr'⟩
        simp only
        rw [List.getElem?_append_left (List.getElem?_eq_some_iff.mp ht').1]; exact ht'
    · refine ChecksOk.frame (s := s) h.checks (Int.le_refl _) ?_ ?_
      · rintro o (rfl | ⟨i, t, ht, ho, hd⟩)
        · exact .inl rfl
        · refine .inr ⟨i, t, ?_, ho, hd⟩
          simp only
          rw [List.getElem?_append_left (List.getElem?_eq_some_iff.mp ht).1]; exact ht
      · intro o g hq hg
        exact ⟨g, by simp only; rw [hold o (h.quiet_lt hq)]; exact hg, SameFrom.refl _ _⟩
  | task i a =>
    simp only at hs
    split at hs
    · simp at hs
    · rename_i t ht
      have hti := h.tasks i t ht
      have key : ∀ u, (∀ d, a ≠ .tick d) → updStep U (s.taskView t) a = some u →
          PdVer U n0 { s with objs := s.objs.set t.obj u.rp, tasks := s.tasks.set i { t with cancelled := u.cancelled, jobs := u.jobs } } := by
        intro u ha hu
        obtain ⟨docs, T0, u0, sched, hT0, h1, h2, h3, h4, h5, g, h6, h7⟩ := hti.hist
        have hpos : 0 ≠ t.obj := by have := hti.pos; omega
        have hset : (s.objs.set t.obj u.rp)[t.obj]? = some u.rp := by
          rw [List.getElem?_set_self]; exact hti.lt
        have hnow := updStep_now' hu ha
        have htv : s.taskView t = ⟨s.now, t.cancelled, g, t.jobs⟩ := by simp [PdState.taskView, h6]
        -- what happens to the task itself
        have hnew : TaskOk U n0
            { s with objs := s.objs.set t.obj u.rp, tasks := s.tasks.set i { t with cancelled := u.cancelled, jobs := u.jobs } }
            { t with cancelled := u.cancelled, jobs := u.jobs } := by
          refine ⟨hti.upd, hti.pos, by simpa using hti.lt, ?_, ?_⟩
          · rcases h7 with ⟨h7, h8, h9⟩ | ⟨h7, h8⟩
            · have hu0 : u0 = s.taskView t := by
                rw [htv]
                cases u0
                simp only at h4 h5 h8 h9
                simp only [UpdState.mk.injEq]
                exact ⟨h8, h5, h9, h4⟩
              refine ⟨docs, T0, u, sched ++ [a], hT0, h1, ?_, ?_, rfl, rfl, u.rp, hset, ?_⟩
              · rw [updRun_append, h2, hu0]
                simp only [Option.bind_some, updRun, hu]
              · simp only; rw [hnow]; simp [PdState.taskView]
              · show (Task.allDone { t with cancelled := u.cancelled, jobs := u.jobs } = false ∧ _) ∨ _
                cases hd : Task.allDone { t with cancelled := u.cancelled, jobs := u.jobs } with
                | false => exact .inl ⟨rfl, hnow, rfl⟩
                | true => exact .inr ⟨rfl, SameFrom.refl _ _⟩
            · -- only a cancellation is possible
              have hdone := Task.allDone_iff.mp h7
              obtain ⟨e1, e2⟩ := updStep_allDone hu (by simpa [PdState.taskView] using hdone) ha
              have e3 : u.jobs = t.jobs := e1.trans (by simp [PdState.taskView])
              have e4 : u.rp = g := e2.trans (by rw [htv])
              have hd' : Task.allDone { t with cancelled := u.cancelled, jobs := u.jobs } = true := by
                rw [Task.allDone_iff]; simp only [e3]; exact hdone
              cases a with
              | tick d => exact absurd rfl (ha d)
              | cancel =>
                simp only [updStep, Option.some.injEq] at hu
                refine ⟨docs, T0, { u0 with cancelled := true }, sched ++ [.cancel], hT0, h1, ?_, h3, ?_, ?_, u.rp, hset, .inr ⟨hd', ?_⟩⟩
                · rw [updRun_append, h2]; rfl
                · simp only [e3]; exact h4
                · rw [← hu]
                · rw [e4]; exact h8
              | job i' order =>
                simp only [updStep, PdState.taskView] at hu
                split at hu <;>
                  (try (rename_i hj; obtain ⟨e, he⟩ := hdone _ (List.mem_of_getElem? hj); simp at he)) <;> simp at hu
              | merge i' k =>
                simp only [updStep, PdState.taskView] at hu
                split at hu
                · rename_i hj; obtain ⟨e, he⟩ := hdone _ (List.mem_of_getElem? hj); simp at he
                · simp at hu
          · intro hr
            have hok := hti.ret hr
            have hdone := Task.allDone_iff.mp (Task.allOk_done hok)
            obtain ⟨e1, _⟩ := updStep_allDone hu (by simpa [PdState.taskView] using hdone) ha
            have e3 : u.jobs = t.jobs := e1.trans (by simp [PdState.taskView])
            simp only [Task.allOk, e3] at hok ⊢
            exact hok
        refine ⟨h.clock, by simp [h.len], ?_, h.src0, ?_, distinct_set ht h.distinct rfl, ?_, ?_⟩
        · simp only; rw [List.getElem?_set_ne (Ne.symm hpos)]; exact h.obj0
        · intro j t' ht'
          rcases getElem?_set_cases' ht' with ⟨_, rfl⟩ | ⟨hne, ht'⟩
          · exact hnew
          · have htj := h.tasks j t' ht'
            refine htj.congr rfl (by simp) ?_ rfl
            have : t.obj ≠ t'.obj := fun ho => hne (h.distinct i j t t' ht ht' ho)
            simp only; rw [List.getElem?_set_ne this]
        · rcases h.live with ⟨hl0, hl1⟩ | ⟨j, t', ht', ho, hr'⟩
          · left
            refine ⟨hl0, ?_⟩
            intro j t' ht'
            rcases getElem?_set_cases' ht' with ⟨_, rfl⟩ | ⟨_, ht'⟩
            · exact hl1 i t ht
            · exact hl1 j t' ht'
          · right
            by_cases hij : i = j
            · subst hij
              rw [ht] at ht'; simp only [Option.some.injEq] at ht'; subst ht'
              refine ⟨i, { t with cancelled := u.cancelled, jobs := u.jobs }, ?_, ho, hr'⟩
              simp only
              rw [List.getElem?_set_self (List.getElem?_eq_some_iff.mp ht).1]
            · exact ⟨j, t', by simp only; rw [List.getElem?_set_ne hij]; exact ht', ho, hr'⟩
        · refine ChecksOk.frame (s := s) h.checks (Int.le_refl _) ?_ ?_
          · intro o
            refine quiet_set (t' := { t with cancelled := u.cancelled, jobs := u.jobs }) ht rfl rfl ?_
            intro hd
            have hdone := Task.allDone_iff.mp hd
            obtain ⟨e1, _⟩ := updStep_allDone hu (by simpa [PdState.taskView] using hdone) ha
            have e3 : u.jobs = t.jobs := e1.trans (by simp [PdState.taskView])
            simp only [Task.allDone, e3] at hd ⊢
            exact hd
          · intro o g' hq hg'
            by_cases hot : t.obj = o
            · subst hot
              -- quiet and being the object of `t`: `t` is finished
              have hdt : t.allDone = true := by
                rcases hq with h0 | ⟨j, t', ht', ho, hd⟩
                · exact absurd h0.symm hpos
                · have := h.distinct j i t' t ht' ht ho
                  subst this
                  rw [ht] at ht'; simp only [Option.some.injEq] at ht'; subst ht'; exact hd
              have hdone := Task.allDone_iff.mp hdt
              obtain ⟨_, e2⟩ := updStep_allDone hu (by simpa [PdState.taskView] using hdone) ha
              refine ⟨u.rp, hset, ?_⟩
              rw [e2, htv]
              rw [h6] at hg'; simp only [Option.some.injEq] at hg'; subst hg'
              exact SameFrom.refl _ _
            · exact ⟨g', by simp only; rw [List.getElem?_set_ne hot]; exact hg', SameFrom.refl _ _⟩
      cases a with
      | tick d => simp at hs
      | _ =>
        simp only at hs
        split at hs
        · simp at hs
        · rename_i u hu
          simp only [Option.some.injEq] at hs; subst hs
          exact key u (by intro d; simp) hu
  | finish i =>
    simp only at hs
    split at hs
    · simp at hs
    · rename_i t ht
      split at hs
      · rename_i hcond
        simp only [Bool.and_eq_true, Option.isNone_iff_eq_none] at hcond
        split at hs
        · rename_i hok
          simp only [Option.some.injEq] at hs; subst hs
          exact h.setRet ht hcond.1.2 true (fun _ => hok) _ (.inl ⟨rfl, rfl⟩)
        · simp only [Option.some.injEq] at hs; subst hs
          exact h.setRet ht hcond.1.2 false (by simp) _ (.inr ⟨rfl, rfl⟩)
      · simp at hs
  | abort i =>
    simp only at hs
    split at hs
    · simp at hs
    · rename_i t ht
      split at hs
      · rename_i hcond
        simp only [Bool.and_eq_true, Option.isNone_iff_eq_none] at hcond
        simp only [Option.some.injEq] at hs; subst hs
        exact h.setRet ht hcond.1.2 false (by simp) _ (.inr ⟨rfl, rfl⟩)
      · simp at hs
  | expire o k =>
    simp only at hs
    split at hs
    · rename_i hany
      split at hs
      · simp at hs
      · rename_i g hg
        split at hs
        · simp at hs
        · rename_i e he
          split at hs
          · simp at hs
          · rename_i hv
            simp only [Option.some.injEq] at hs; subst hs
            have hsame := sameFrom_delete (now := s.now) he (by simpa using hv)
            simp only [List.any_eq_true, Bool.and_eq_true, decide_eq_true_eq] at hany
            obtain ⟨t, htm, ⟨_, rfl⟩, hd⟩ := hany
            obtain ⟨i, ht⟩ := List.mem_iff_getElem?.mp htm
            have hti := h.tasks i t ht
            have hpos : t.obj ≠ 0 := by have := hti.pos; omega
            have hset : (s.objs.set t.obj (g.delete k))[t.obj]? = some (g.delete k) := by
              rw [List.getElem?_set_self]; exact hti.lt
            refine ⟨h.clock, by simp [h.len], ?_, h.src0, ?_, h.distinct, h.live, ?_⟩
            · simp only; rw [List.getElem?_set_ne hpos]; exact h.obj0
            · intro j t' ht'
              have htj := h.tasks j t' ht'
              by_cases hot : t.obj = t'.obj
              · have := h.distinct i j t t' ht ht' hot
                subst this
                rw [ht] at ht'; simp only [Option.some.injEq] at ht'; subst ht'
                refine ⟨hti.upd, hti.pos, by simpa using hti.lt, ?_, hti.ret⟩
                obtain ⟨docs, T0, u, sched, hT0, h1, h2, h3, h4, h5, g', h6, h7⟩ := hti.hist
                rw [hg] at h6; simp only [Option.some.injEq] at h6; subst h6
                refine ⟨docs, T0, u, sched, hT0, h1, h2, h3, h4, h5, g.delete k, hset, .inr ⟨hd, ?_⟩⟩
                rcases h7 with ⟨h7, _⟩ | ⟨_, h8⟩
                · rw [hd] at h7; simp at h7
                · exact hsame.trans h8
              · refine htj.congr rfl (by simp) ?_ rfl
                simp only; rw [List.getElem?_set_ne hot]
            · refine ChecksOk.frame (s := s) h.checks (Int.le_refl _) (fun o ho => ho) ?_
              intro o g' _ hg'
              by_cases hot : t.obj = o
              · subst hot
                rw [hg] at hg'; simp only [Option.some.injEq] at hg'; subst hg'
                exact ⟨_, hset, hsame⟩
              · exact ⟨g', by simp only; rw [List.getElem?_set_ne hot]; exact hg', SameFrom.refl _ _⟩
    · simp at hs
  | check q =>
    simp only [Option.some.injEq] at hs; subst hs
    refine ⟨h.clock, h.len, h.obj0, h.src0, ?_, h.distinct, h.live, ?_⟩
    · intro i t ht
      exact (h.tasks i t ht).congr rfl (Nat.le_refl _) rfl rfl
    · intro k c o t0 g hc hl
      rcases getElem?_append_cases hc with hc | ⟨_, rfl⟩
      · exact h.checks k c o t0 g hc hl
      · simp at hl
  | load k =>
    simp only at hs
    split at hs
    · simp at hs
    · rename_i c hc
      split at hs
      · simp at hs
      · simp only [Option.some.injEq] at hs; subst hs
        refine ⟨h.clock, h.len, h.obj0, h.src0, ?_, h.distinct, h.live, ?_⟩
        · intro i t ht
          exact (h.tasks i t ht).congr rfl (Nat.le_refl _) rfl rfl
        · intro k' c' o t0 g hc' hl
          rcases getElem?_set_cases' hc' with ⟨_, rfl⟩ | ⟨_, hc'⟩
          · simp only [Option.some.injEq, Prod.mk.injEq] at hl
            obtain ⟨rfl, rfl, rfl⟩ := hl
            obtain ⟨g, hg⟩ := getElem?_of_lt (h.quiet_lt h.quiet_live)
            refine ⟨h.quiet_live, Int.le_refl _, ⟨g, hg, ?_⟩, [], rfl, by simp⟩
            rw [hg]; exact SameFrom.refl _ _
          · exact h.checks k' c' o t0 g hc' hl
  | chk k a =>
    simp only at hs
    split at hs
    · simp at hs
    · rename_i c hc
      split at hs
      · simp at hs
      · rename_i o t0 g0 hl
        obtain ⟨hq, ht0, ⟨g, hg, hsame⟩, sched, hrun, hmut⟩ := h.checks k c o t0 g0 hc hl
        have hview : viewOf ((s.objs[o]?).getD Gache.empty) s.now = viewOf g0 s.now := by
          rw [hg, Option.getD_some]
          funext k
          exact hsame s.now (Int.le_refl _) k
        have key : ∀ cs, (∀ w, a ≠ .mutate w) →
            checkStep U c.q { c.cs with view := viewOf ((s.objs[o]?).getD Gache.empty) s.now } a = some cs →
            PdVer U n0 { s with checks := s.checks.set k { c with cs := cs } } := by
          intro cs ha hcs
          rw [hview] at hcs
          refine ⟨h.clock, h.len, h.obj0, h.src0, ?_, h.distinct, h.live, ?_⟩
          · intro i t ht
            exact (h.tasks i t ht).congr rfl (Nat.le_refl _) rfl rfl
          · intro k' c' o' t0' g' hc' hl'
            rcases getElem?_set_cases' hc' with ⟨_, rfl⟩ | ⟨_, hc'⟩
            · simp only at hl'
              rw [hl] at hl'
              simp only [Option.some.injEq, Prod.mk.injEq] at hl'
              obtain ⟨rfl, rfl, rfl⟩ := hl'
              refine ⟨hq, ht0, ⟨g, hg, hsame⟩, sched ++ [.mutate (viewOf g0 s.now), a], ?_, ?_⟩
              · rw [checkRun_append, hrun]
                have hm : checkStep U c.q c.cs (.mutate (viewOf g0 s.now)) = some { c.cs with view := viewOf g0 s.now } := rfl
                simp only [Option.bind_some, checkRun, hm, hcs]
              · intro v hv
                simp only [List.mem_append, List.mem_cons, List.not_mem_nil, or_false] at hv
                rcases hv with hv | hv | hv
                · exact hmut v hv
                · simp only [CheckAct.mutate.injEq] at hv
                  exact ⟨s.now, ht0, Int.le_refl _, hv⟩
                · exact absurd hv.symm (ha v)
            · exact h.checks k' c' o' t0' g' hc' hl'
        cases a with
        | mutate v => simp at hs
        | _ =>
          simp only at hs
          split at hs
          · simp at hs
          · rename_i cs hcs
            simp only [Option.some.injEq] at hs; subst hs
            exact key cs (by intro w; simp) hcs

theorem PdVer.run {U : CaseFns} {n0 : Int} {s s' : PdState} (h : PdVer U n0 s) {as : List PdAct} (hnh : ∀ a ∈ as, a.notHook)
    (hs : pdRun U s as = some s') : PdVer U n0 s' := by
  induction as generalizing s with
  | nil => simp only [pdRun, Option.some.injEq] at hs; subst hs; exact h
  | cons a as ih =>
    simp only [pdRun] at hs
    split at hs
    · simp at hs
    · rename_i s1 hs1; exact ih (h.step (hnh a (by simp)) hs1) (fun b hb => hnh b (by simp [hb])) hs

theorem pdRun_append (U : CaseFns) (s : PdState) (as bs : List PdAct) :
    pdRun U s (as ++ bs) = (pdRun U s as).bind fun s' => pdRun U s' bs := by
  induction as generalizing s with
  | nil => rfl
  | cons a as ih =>
    simp only [List.cons_append, pdRun]
    cases pdStep U s a with
    | none => rfl
    | some s' => exact ih s'

/-- Once loaded, a check keeps its object. -/
theorem loaded_step {U : CaseFns} {s s' : PdState} {a : PdAct} (hs : pdStep U s a = some s') {k : Nat} {c : Chk}
    {x : Nat × Int × Gache (List Assertion)} (hc : s.checks[k]? = some c) (hl : c.loaded = some x) :
    ∃ c', s'.checks[k]? = some c' ∧ c'.loaded = some x ∧ c'.q = c.q := by
  have hlt := (List.getElem?_eq_some_iff.mp hc).1
  unfold pdStep at hs
  split at hs
  · simp at hs
  cases a with
  | load k' =>
    simp only at hs
    split at hs
    · simp at hs
    · rename_i c' hc'
      split at hs
      · simp at hs
      · rename_i hnl
        simp only [Option.some.injEq] at hs; subst hs
        by_cases hk : k' = k
        · subst hk
          rw [hc] at hc'; simp only [Option.some.injEq] at hc'; subst hc'
          rw [hl] at hnl; simp at hnl
        · exact ⟨c, by simp only; rw [List.getElem?_set_ne hk]; exact hc, hl, rfl⟩
  | chk k' a =>
    simp only at hs
    split at hs
    · simp at hs
    · rename_i c' hc'
      have key : ∀ cs, s' = { s with checks := s.checks.set k' { c' with cs := cs } } →
          ∃ c', s'.checks[k]? = some c' ∧ c'.loaded = some x ∧ c'.q = c.q := by
        rintro cs rfl
        by_cases hk : k' = k
        · subst hk
          rw [hc] at hc'; simp only [Option.some.injEq] at hc'; subst hc'
          exact ⟨{ c with cs := cs }, by simp only; rw [List.getElem?_set_self hlt], hl, rfl⟩
        · exact ⟨c, by simp only; rw [List.getElem?_set_ne hk]; exact hc, hl, rfl⟩
      split at hs
      · simp at hs
      · cases a with
        | mutate v => simp at hs
        | _ =>
          simp only at hs
          split at hs
          · simp at hs
          · rename_i cs _
            simp only [Option.some.injEq] at hs
            exact key cs hs.symm
  | check q =>
    simp only [Option.some.injEq] at hs; subst hs
    exact ⟨c, by simp only; rw [List.getElem?_append_left hlt]; exact hc, hl, rfl⟩
  | _ =>
    simp only at hs
    repeat' split at hs
    all_goals first
      | (simp at hs; done)
      | (simp only [Option.some.injEq] at hs; subst hs; exact ⟨c, hc, hl, rfl⟩)

theorem loaded_run {U : CaseFns} {s s' : PdState} {as : List PdAct} (hs : pdRun U s as = some s') {k : Nat} {c : Chk}
    {x : Nat × Int × Gache (List Assertion)} (hc : s.checks[k]? = some c) (hl : c.loaded = some x) :
    ∃ c', s'.checks[k]? = some c' ∧ c'.loaded = some x ∧ c'.q = c.q := by
  induction as generalizing s c with
  | nil => simp only [pdRun, Option.some.injEq] at hs; subst hs; exact ⟨c, hc, hl, rfl⟩
  | cons a as ih =>
    simp only [pdRun] at hs
    split at hs
    · simp at hs
    · rename_i s1 hs1
      obtain ⟨c1, h1, h2, h3⟩ := loaded_step hs1 hc hl
      obtain ⟨c2, h4, h5, h6⟩ := ih hs h1 h2
      exact ⟨c2, h4, h5, h6.trans h3⟩

end Athenz
