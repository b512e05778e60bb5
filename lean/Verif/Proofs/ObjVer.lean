import Verif.Proofs.PolicydVer
import Verif.Proofs.Jwkd

/-! One cache object among everything else that happens: as long as no refresh of an expired entry (policy/daemon.go:189-192) begins while
the object is published, it holds exactly what its own update wrote, and checks that loaded it read just that. -/

namespace Athenz

def ChecksOn (U : CaseFns) (o : Nat) (s : PdState) (cs : List Chk) : Prop :=
  ∀ (k : Nat) (c : Chk) (t0 : Int) (g : Gache (List Assertion)), cs[k]? = some c →
    c.loaded = some (o, t0, g) → Quiet s o ∧ t0 ≤ s.now ∧
      (∃ g', s.objs[o]? = some g' ∧ SameFrom s.now g' g) ∧
      ∃ sched, checkRun U c.q (c.q.init (viewOf g t0)) sched = some c.cs ∧
        ∀ v, CheckAct.mutate v ∈ sched → ∃ t, t0 ≤ t ∧ t ≤ s.now ∧ v = viewOf g t

theorem ChecksOn.frame {U : CaseFns} {o : Nat} {s s' : PdState} {cs : List Chk} (h : ChecksOn U o s cs) (hn : s.now ≤ s'.now)
    (hq : Quiet s o → Quiet s' o)
    (ho : ∀ g, Quiet s o → s.objs[o]? = some g → ∃ g', s'.objs[o]? = some g' ∧ SameFrom s'.now g' g) : ChecksOn U o s' cs := by
  intro k c t0 g hc hl
  obtain ⟨h1, h2, ⟨g', h3, h4⟩, sched, h5, h6⟩ := h k c t0 g hc hl
  refine ⟨hq h1, by omega, ?_, sched, h5, ?_⟩
  · obtain ⟨g'', h7, h8⟩ := ho g' h1 h3
    exact ⟨g'', h7, h8.trans (h4.later hn)⟩
  · intro v hv
    obtain ⟨t, ht1, ht2, rfl⟩ := h6 v hv
    exact ⟨t, ht1, by omega, rfl⟩

/-- What holds about the object `o` if no refresh began while it was published. -/
structure ObjVer (U : CaseFns) (n0 : Int) (o : Nat) (s : PdState) : Prop where
  clock : n0 ≤ s.now
  len : s.srcs.length = s.objs.length
  ne : 0 < s.objs.length
  lt : ∀ (i : Nat) (t : Task), s.tasks[i]? = some t → t.obj < s.objs.length
  liveLt : s.live < s.objs.length
  zero : o = 0 → s.objs[0]? = some Gache.empty ∧ s.srcs[0]? = some []
  own : ∀ (i : Nat) (t : Task), s.tasks[i]? = some t → t.obj = o → TaskOk U n0 s t
  uniq : ∀ (i j : Nat) (t t' : Task), s.tasks[i]? = some t → s.tasks[j]? = some t' → t.obj = o → t'.obj = o → i = j
  live : s.live = o → o = 0 ∨ ∃ (i : Nat) (t : Task), s.tasks[i]? = some t ∧ t.obj = o ∧ t.ret = some true
  checks : ChecksOn U o s s.checks

theorem pdInit_objVer (U : CaseFns) (now : Int) (domains : List Str) (o : Nat) : ObjVer U now o (pdInit now domains) :=
  ⟨Int.le_refl _, rfl, by simp [pdInit], by simp [pdInit], by simp [pdInit], fun _ => ⟨rfl, rfl⟩, by simp [pdInit], by simp [pdInit],
    fun h => .inl h.symm, by intro k c t0 g hc; simp [pdInit] at hc⟩

theorem ObjVer.quiet_live {U : CaseFns} {n0 : Int} {o : Nat} {s : PdState} (h : ObjVer U n0 o s) (hl : s.live = o) : Quiet s o := by
  rcases h.live hl with h0 | ⟨i, t, ht, ho, hr⟩
  · exact .inl h0
  · exact .inr ⟨i, t, ht, ho, Task.allOk_done ((h.own i t ht ho).ret hr)⟩

theorem ObjVer.tick {U : CaseFns} {n0 : Int} {o : Nat} {s : PdState} (h : ObjVer U n0 o s) (d : Nat) :
    ObjVer U n0 o { s with now := s.now + d } := by
  have hclk := h.clock
  refine ⟨by simp only; omega, h.len, h.ne, h.lt, h.liveLt, h.zero, ?_, h.uniq, h.live, ?_⟩
  · intro i t ht ho
    have hti := h.own i t ht ho
    refine ⟨hti.upd, hti.pos, hti.lt, ?_, hti.ret⟩
    obtain ⟨docs, T0, u, sched, hT0, h1, h2, h3, h4, h5, g, h6, h7⟩ := hti.hist
    rcases h7 with ⟨h7, h8, h9⟩ | ⟨h7, h8⟩
    · refine ⟨docs, T0, { u with now := u.now + d }, sched ++ [.tick d], hT0, h1, ?_, ?_, h4, h5, g, h6, .inl ⟨h7, ?_, h9⟩⟩
      · rw [updRun_append, h2]; rfl
      · simp only; omega
      · simp only; omega
    · refine ⟨docs, T0, u, sched, hT0, h1, h2, by simp only; omega, h4, h5, g, h6, .inr ⟨h7, h8.later (by simp only; omega)⟩⟩
  · exact ChecksOn.frame (s := s) h.checks (by simp only; omega) id (fun g _ hg => ⟨g, hg, SameFrom.refl _ _⟩)

/-- Changing only the return value of a task. -/
theorem ObjVer.setRet {U : CaseFns} {n0 : Int} {o : Nat} {s : PdState} (h : ObjVer U n0 o s) {i : Nat} {t : Task} (ht : s.tasks[i]? = some t)
    (hr : t.ret = none) (b : Bool) (hb : b = true → t.allOk = true) (l : Nat)
    (hl : (b = true ∧ l = t.obj) ∨ (b = false ∧ l = s.live)) :
    ObjVer U n0 o { s with live := l, tasks := s.tasks.set i { t with ret := some b } } := by
  have hself : (s.tasks.set i { t with ret := some b })[i]? = some { t with ret := some b } := List.getElem?_set_self (lt_of_getElem? ht)
  refine ⟨h.clock, h.len, h.ne, ?_, ?_, h.zero, ?_, ?_, ?_, ?_⟩
  · intro j t' ht'
    rcases getElem?_set_cases' ht' with ⟨_, rfl⟩ | ⟨_, ht'⟩
    · exact h.lt i t ht
    · exact h.lt j t' ht'
  · rcases hl with ⟨_, rfl⟩ | ⟨_, rfl⟩
    · exact h.lt i t ht
    · exact h.liveLt
  · intro j t' ht' ho
    rcases getElem?_set_cases' ht' with ⟨_, rfl⟩ | ⟨_, ht'⟩
    · have hti := h.own i t ht ho
      exact ⟨hti.upd, hti.pos, hti.lt, hti.hist, fun hb' => hb (by simpa using hb')⟩
    · exact (h.own j t' ht' ho).congr rfl (Nat.le_refl _) rfl rfl
  · intro a b' x y hx hy hxo hyo
    rcases getElem?_set_cases' hx with ⟨rfl, rfl⟩ | ⟨_, hx'⟩
    · rcases getElem?_set_cases' hy with ⟨rfl, _⟩ | ⟨_, hy⟩
      · rfl
      · exact h.uniq _ _ _ _ ht hy hxo hyo
    · rcases getElem?_set_cases' hy with ⟨rfl, rfl⟩ | ⟨_, hy⟩
      · exact h.uniq _ _ _ _ hx' ht hxo hyo
      · exact h.uniq _ _ _ _ hx' hy hxo hyo
  · intro hlo
    rcases hl with ⟨rfl, rfl⟩ | ⟨rfl, rfl⟩
    · exact .inr ⟨i, _, hself, hlo, rfl⟩
    · rcases h.live hlo with h0 | ⟨j, t', ht', ho, hr'⟩
      · exact .inl h0
      · right
        refine ⟨j, t', ?_, ho, hr'⟩
        have : i ≠ j := by
          rintro rfl
          rw [ht] at ht'; simp only [Option.some.injEq] at ht'; subst ht'
          rw [hr] at hr'; simp at hr'
        rw [List.getElem?_set_ne this]; exact ht'
  · exact ChecksOn.frame (s := s) h.checks (Int.le_refl _) (quiet_set (t' := { t with ret := some b }) ht rfl rfl (fun hd => hd))
      (fun g _ hg => ⟨g, hg, SameFrom.refl _ _⟩)

theorem ObjVer.step {U : CaseFns} {n0 : Int} {o : Nat} {s s' : PdState} (h : ObjVer U n0 o s) {a : PdAct}
    (hnh : ∀ n f, a = .hook n f → s.live ≠ o) (hs : pdStep U s a = some s') : ObjVer U n0 o s' := by
  unfold pdStep at hs
  split at hs
  · simp at hs
  cases a with
  | hook j f =>
    have hlo := hnh j f rfl
    simp only at hs
    split at hs
    · simp at hs
    · split at hs
      · simp only [Option.some.injEq] at hs; subst hs
        refine ⟨h.clock, by simp [h.len], h.ne, ?_, h.liveLt, ?_, ?_, ?_, ?_, ?_⟩
        · intro i t ht
          rcases getElem?_append_cases ht with ht | ⟨_, rfl⟩
          · exact h.lt i t ht
          · exact h.liveLt
        · intro h0
          refine ⟨(h.zero h0).1, ?_⟩
          simp only
          rw [List.getElem?_set_ne (by omega)]
          exact (h.zero h0).2
        · intro i t ht ho
          rcases getElem?_append_cases ht with ht | ⟨_, rfl⟩
          · refine (h.own i t ht ho).congr rfl (Nat.le_refl _) rfl ?_
            simp only
            rw [List.getElem?_set_ne (by rw [ho]; exact hlo)]
          · exact absurd ho hlo
        · intro i j t t' ht ht' ho ho'
          rcases getElem?_append_cases ht with ht | ⟨_, rfl⟩
          · rcases getElem?_append_cases ht' with ht' | ⟨_, rfl⟩
            · exact h.uniq i j t t' ht ht' ho ho'
            · exact absurd ho' hlo
          · exact absurd ho hlo
        · intro hl; exact absurd hl hlo
        · refine ChecksOn.frame (s := s) h.checks (Int.le_refl _) ?_ (fun g _ hg => ⟨g, hg, SameFrom.refl _ _⟩)
          rintro (rfl | ⟨i, t, ht, ho, hd⟩)
          · exact .inl rfl
          · refine .inr ⟨i, t, ?_, ho, hd⟩
            simp only
            rw [List.getElem?_append_left (lt_of_getElem? ht)]; exact ht
      · simp only [Option.some.injEq] at hs; subst hs
        refine ⟨h.clock, h.len, h.ne, h.lt, h.liveLt, h.zero, ?_, h.uniq, h.live, h.checks⟩
        intro i t ht ho
        exact (h.own i t ht ho).congr rfl (Nat.le_refl _) rfl rfl
  | tick d =>
    simp only [Option.some.injEq] at hs; subst hs
    exact h.tick d
  | update fetch =>
    simp only [Option.some.injEq] at hs; subst hs
    have hold : ∀ o, o < s.objs.length → (s.objs ++ [Gache.empty])[o]? = s.objs[o]? :=
      fun o ho => List.getElem?_append_left ho
    have holds : ∀ o, o < s.objs.length → (s.srcs ++ [fetch])[o]? = s.srcs[o]? :=
      fun o ho => List.getElem?_append_left (by rw [h.len]; exact ho)
    refine ⟨h.clock, by simp [h.len], by simp, ?_, ?_, ?_, ?_, ?_, ?_, ?_⟩
    · intro i t ht
      rcases getElem?_append_cases ht with ht | ⟨_, rfl⟩
      · have := h.lt i t ht; simp only [List.length_append]; omega
      · simp
    · have := h.liveLt; simp only [List.length_append]; omega
    · intro h0
      exact ⟨(hold 0 h.ne).trans (h.zero h0).1, (holds 0 h.ne).trans (h.zero h0).2⟩
    · intro i t ht ho
      rcases getElem?_append_cases ht with ht | ⟨_, rfl⟩
      · have hti := h.own i t ht ho
        exact hti.congr rfl (by simp) (hold _ hti.lt) (holds _ hti.lt)
      · refine ⟨rfl, h.ne, by simp, ?_, by simp⟩
        refine ⟨fetch, s.now, updInit s.now fetch, [], h.clock, ?_, rfl, Int.le_refl _, rfl, rfl, Gache.empty, ?_, ?_⟩
        · simp only
          rw [← h.len]; simp
        · simp
        · simp only
          cases hd : Task.allDone ⟨s.objs.length, true, false, fetch.map .start, none⟩ with
          | false => exact .inl ⟨rfl, rfl, rfl⟩
          | true => exact .inr ⟨rfl, SameFrom.refl _ _⟩
    · intro i j t t' ht ht' ho ho'
      rcases getElem?_append_cases ht with ht | ⟨hi, rfl⟩
      · rcases getElem?_append_cases ht' with ht' | ⟨hj, rfl⟩
        · exact h.uniq i j t t' ht ht' ho ho'
        · have := h.lt i t ht
          simp only at ho'; omega
      · rcases getElem?_append_cases ht' with ht' | ⟨hj, rfl⟩
        · have := h.lt j t' ht'
          simp only at ho; omega
        · omega
    · intro hl
      rcases h.live hl with h0 | ⟨j, t', ht', ho, hr'⟩
      · exact .inl h0
      · right
        refine ⟨j, t', ?_, ho, hr'⟩
        simp only
        rw [List.getElem?_append_left (lt_of_getElem? ht')]; exact ht'
    · refine ChecksOn.frame (s := s) h.checks (Int.le_refl _) ?_ ?_
      · rintro (rfl | ⟨i, t, ht, ho, hd⟩)
        · exact .inl rfl
        · refine .inr ⟨i, t, ?_, ho, hd⟩
          simp only
          rw [List.getElem?_append_left (lt_of_getElem? ht)]; exact ht
      · intro g _ hg
        exact ⟨g, by simp only; rw [hold o (lt_of_getElem? hg)]; exact hg, SameFrom.refl _ _⟩
  | task i a =>
    simp only at hs
    split at hs
    · simp at hs
    · rename_i t ht
      have key : ∀ u, (∀ d, a ≠ .tick d) → updStep U (s.taskView t) a = some u →
          ObjVer U n0 o { s with objs := s.objs.set t.obj u.rp, tasks := s.tasks.set i { t with cancelled := u.cancelled, jobs := u.jobs } } := by
        intro u ha hu
        have hnow := updStep_now' hu ha
        have hset : (s.objs.set t.obj u.rp)[t.obj]? = some u.rp := List.getElem?_set_self (h.lt i t ht)
        -- what happens to the task itself
        have hnew : t.obj = o → TaskOk U n0
            { s with objs := s.objs.set t.obj u.rp, tasks := s.tasks.set i { t with cancelled := u.cancelled, jobs := u.jobs } }
            { t with cancelled := u.cancelled, jobs := u.jobs } := by
          intro hto
          have hti := h.own i t ht hto
          obtain ⟨docs, T0, u0, sched, hT0, h1, h2, h3, h4, h5, g, h6, h7⟩ := hti.hist
          have htv : s.taskView t = ⟨s.now, t.cancelled, g, t.jobs⟩ := by simp [PdState.taskView, h6]
          refine ⟨hti.upd, hti.pos, by simpa using hti.lt, ?_, ?_⟩
          · rcases h7 with ⟨h7, h8, h9⟩ | ⟨h7, h8⟩
            · have hu0 : u0 = s.taskView t := by
                rw [htv]
                cases u0
                simp only at h4 h5 h8 h9
                simp only [UpdState.mk.injEq]
                exact ⟨h8, h5, h9, h4⟩
              refine ⟨docs, T0, u, sched ++ [a], hT0, h1, ?_, ?_, rfl, rfl, u.rp, hset, ?_⟩
              · rw [updRun_append, h2, hu0]
                simp only [Option.bind_some, updRun, hu]
              · simp only; rw [hnow]; simp [PdState.taskView]
              · show (Task.allDone { t with cancelled := u.cancelled, jobs := u.jobs } = false ∧ _) ∨ _
                cases hd : Task.allDone { t with cancelled := u.cancelled, jobs := u.jobs } with
                | false => exact .inl ⟨rfl, hnow, rfl⟩
                | true => exact .inr ⟨rfl, SameFrom.refl _ _⟩
            · -- only a cancellation is possible
              have hdone := Task.allDone_iff.mp h7
              obtain ⟨e1, e2⟩ := updStep_allDone hu (by simpa [PdState.taskView] using hdone) ha
              have e3 : u.jobs = t.jobs := e1.trans (by simp [PdState.taskView])
              have e4 : u.rp = g := e2.trans (by rw [htv])
              have hd' : Task.allDone { t with cancelled := u.cancelled, jobs := u.jobs } = true := by
                rw [Task.allDone_iff]; simp only [e3]; exact hdone
              cases a with
              | tick d => exact absurd rfl (ha d)
              | cancel =>
                simp only [updStep, Option.some.injEq] at hu
                refine ⟨docs, T0, { u0 with cancelled := true }, sched ++ [.cancel], hT0, h1, ?_, h3, ?_, ?_, u.rp, hset, .inr ⟨hd', ?_⟩⟩
                · rw [updRun_append, h2]; rfl
                · simp only [e3]; exact h4
                · rw [← hu]
                · rw [e4]; exact h8
              | job i' order =>
                simp only [updStep, PdState.taskView] at hu
                split at hu <;>
                  (try (rename_i hj; obtain ⟨e, he⟩ := hdone _ (List.mem_of_getElem? hj); simp at he)) <;> simp at hu
              | merge i' k =>
                simp only [updStep, PdState.taskView] at hu
                split at hu
                · rename_i hj; obtain ⟨e, he⟩ := hdone _ (List.mem_of_getElem? hj); simp at he
                · simp at hu
          · intro hr
            have hok := hti.ret hr
            have hdone := Task.allDone_iff.mp (Task.allOk_done hok)
            obtain ⟨e1, _⟩ := updStep_allDone hu (by simpa [PdState.taskView] using hdone) ha
            have e3 : u.jobs = t.jobs := e1.trans (by simp [PdState.taskView])
            simp only [Task.allOk, e3] at hok ⊢
            exact hok
        refine ⟨h.clock, by simp [h.len], by simpa using h.ne, ?_, by simpa using h.liveLt, ?_, ?_, ?_, ?_, ?_⟩
        · intro j t' ht'
          simp only [List.length_set]
          rcases getElem?_set_cases' ht' with ⟨_, rfl⟩ | ⟨_, ht'⟩
          · exact h.lt i t ht
          · exact h.lt j t' ht'
        · intro h0
          have hpos : t.obj ≠ 0 := fun hto => by
            have := (h.own i t ht (hto.trans h0.symm)).pos
            omega
          refine ⟨?_, (h.zero h0).2⟩
          simp only; rw [List.getElem?_set_ne hpos]; exact (h.zero h0).1
        · intro j t' ht' ho
          rcases getElem?_set_cases' ht' with ⟨_, rfl⟩ | ⟨hne, ht'⟩
          · exact hnew ho
          · have htj := h.own j t' ht' ho
            refine htj.congr rfl (by simp) ?_ rfl
            have : t.obj ≠ t'.obj := fun ho' => hne (h.uniq i j t t' ht ht' (ho'.trans ho) ho)
            simp only; rw [List.getElem?_set_ne this]
        · intro a' b x y hx hy hxo hyo
          rcases getElem?_set_cases' hx with ⟨rfl, rfl⟩ | ⟨_, hx'⟩
          · rcases getElem?_set_cases' hy with ⟨rfl, _⟩ | ⟨_, hy⟩
            · rfl
            · exact h.uniq _ _ _ _ ht hy hxo hyo
          · rcases getElem?_set_cases' hy with ⟨rfl, rfl⟩ | ⟨_, hy⟩
            · exact h.uniq _ _ _ _ hx' ht hxo hyo
            · exact h.uniq _ _ _ _ hx' hy hxo hyo
        · intro hl
          rcases h.live hl with hl0 | ⟨j, t', ht', ho, hr'⟩
          · exact .inl hl0
          · right
            by_cases hij : i = j
            · subst hij
              rw [ht] at ht'; simp only [Option.some.injEq] at ht'; subst ht'
              refine ⟨i, { t with cancelled := u.cancelled, jobs := u.jobs }, ?_, ho, hr'⟩
              simp only
              rw [List.getElem?_set_self (lt_of_getElem? ht)]
            · exact ⟨j, t', by simp only; rw [List.getElem?_set_ne hij]; exact ht', ho, hr'⟩
        · refine ChecksOn.frame (s := s) h.checks (Int.le_refl _) ?_ ?_
          · refine quiet_set (t' := { t with cancelled := u.cancelled, jobs := u.jobs }) ht rfl rfl ?_
            intro hd
            have hdone := Task.allDone_iff.mp hd
            obtain ⟨e1, _⟩ := updStep_allDone hu (by simpa [PdState.taskView] using hdone) ha
            have e3 : u.jobs = t.jobs := e1.trans (by simp [PdState.taskView])
            simp only [Task.allDone, e3] at hd ⊢
            exact hd
          · intro g' hq hg'
            by_cases hot : t.obj = o
            · -- quiet and being the object of `t`: `t` is finished
              have hti := h.own i t ht hot
              have hdt : t.allDone = true := by
                rcases hq with h0 | ⟨j, t', ht', ho, hd⟩
                · have := hti.pos; omega
                · have := h.uniq j i t' t ht' ht ho hot
                  subst this
                  rw [ht] at ht'; simp only [Option.some.injEq] at ht'; subst ht'; exact hd
              have hdone := Task.allDone_iff.mp hdt
              obtain ⟨_, e2⟩ := updStep_allDone hu (by simpa [PdState.taskView] using hdone) ha
              refine ⟨u.rp, by rw [← hot]; exact hset, ?_⟩
              rw [e2]
              simp only [PdState.taskView, hot, hg', Option.getD_some]
              exact SameFrom.refl _ _
            · exact ⟨g', by simp only; rw [List.getElem?_set_ne hot]; exact hg', SameFrom.refl _ _⟩
      cases a with
      | tick d => simp at hs
      | _ =>
        simp only at hs
        split at hs
        · simp at hs
        · rename_i u hu
          simp only [Option.some.injEq] at hs; subst hs
          exact key u (by intro d; simp) hu
  | finish i =>
    simp only at hs
    split at hs
    · simp at hs
    · rename_i t ht
      split at hs
      · rename_i hcond
        simp only [Bool.and_eq_true, Option.isNone_iff_eq_none] at hcond
        split at hs
        · rename_i hok
          simp only [Option.some.injEq] at hs; subst hs
          exact h.setRet ht hcond.1.2 true (fun _ => hok) _ (.inl ⟨rfl, rfl⟩)
        · simp only [Option.some.injEq] at hs; subst hs
          exact h.setRet ht hcond.1.2 false (by simp) _ (.inr ⟨rfl, rfl⟩)
      · simp at hs
  | abort i =>
    simp only at hs
    split at hs
    · simp at hs
    · rename_i t ht
      split at hs
      · rename_i hcond
        simp only [Bool.and_eq_true, Option.isNone_iff_eq_none] at hcond
        simp only [Option.some.injEq] at hs; subst hs
        exact h.setRet ht hcond.1.2 false (by simp) _ (.inr ⟨rfl, rfl⟩)
      · simp at hs
  | expire o' k =>
    simp only at hs
    split at hs
    · rename_i hany
      split at hs
      · simp at hs
      · rename_i g hg
        split at hs
        · simp at hs
        · rename_i e he
          split at hs
          · simp at hs
          · rename_i hv
            simp only [Option.some.injEq] at hs; subst hs
            have hsame := sameFrom_delete (now := s.now) he (by simpa using hv)
            have hset : (s.objs.set o' (g.delete k))[o']? = some (g.delete k) := List.getElem?_set_self (lt_of_getElem? hg)
            refine ⟨h.clock, by simp [h.len], by simpa using h.ne, ?_, by simpa using h.liveLt, ?_, ?_, h.uniq, h.live, ?_⟩
            · intro i t ht
              simpa using h.lt i t ht
            · intro h0
              refine ⟨?_, (h.zero h0).2⟩
              have : o' ≠ 0 := by
                rintro rfl
                rw [(h.zero h0).1] at hg
                simp only [Option.some.injEq] at hg
                subst hg
                simp [Gache.empty] at he
              simp only; rw [List.getElem?_set_ne this]; exact (h.zero h0).1
            · intro j t' ht' ho
              have htj := h.own j t' ht' ho
              by_cases hot : o' = t'.obj
              · subst hot
                have hd : t'.allDone = true := by
                  simp only [List.any_eq_true, Bool.and_eq_true, decide_eq_true_eq] at hany
                  obtain ⟨t, htm, ⟨_, hto⟩, hd⟩ := hany
                  obtain ⟨i, ht⟩ := List.mem_iff_getElem?.mp htm
                  have := h.uniq i j t t' ht ht' (hto.trans ho) ho
                  subst this
                  rw [ht] at ht'; simp only [Option.some.injEq] at ht'; subst ht'; exact hd
                refine ⟨htj.upd, htj.pos, by simpa using htj.lt, ?_, htj.ret⟩
                obtain ⟨docs, T0, u, sched, hT0, h1, h2, h3, h4, h5, g', h6, h7⟩ := htj.hist
                rw [hg] at h6; simp only [Option.some.injEq] at h6; subst h6
                refine ⟨docs, T0, u, sched, hT0, h1, h2, h3, h4, h5, g.delete k, hset, .inr ⟨hd, ?_⟩⟩
                rcases h7 with ⟨h7, _⟩ | ⟨_, h8⟩
                · rw [hd] at h7; simp at h7
                · exact hsame.trans h8
              · refine htj.congr rfl (by simp) ?_ rfl
                simp only; rw [List.getElem?_set_ne hot]
            · refine ChecksOn.frame (s := s) h.checks (Int.le_refl _) id ?_
              intro g' _ hg'
              by_cases hot : o' = o
              · subst hot
                rw [hg] at hg'; simp only [Option.some.injEq] at hg'; subst hg'
                exact ⟨_, hset, hsame⟩
              · exact ⟨g', by simp only; rw [List.getElem?_set_ne hot]; exact hg', SameFrom.refl _ _⟩
    · simp at hs
  | check q =>
    simp only [Option.some.injEq] at hs; subst hs
    refine ⟨h.clock, h.len, h.ne, h.lt, h.liveLt, h.zero, ?_, h.uniq, h.live, ?_⟩
    · intro i t ht ho
      exact (h.own i t ht ho).congr rfl (Nat.le_refl _) rfl rfl
    · intro k c t0 g hc hl
      rcases getElem?_append_cases hc with hc | ⟨_, rfl⟩
      · exact h.checks k c t0 g hc hl
      · simp at hl
  | load k =>
    simp only at hs
    split at hs
    · simp at hs
    · rename_i c hc
      split at hs
      · simp at hs
      · simp only [Option.some.injEq] at hs; subst hs
        refine ⟨h.clock, h.len, h.ne, h.lt, h.liveLt, h.zero, ?_, h.uniq, h.live, ?_⟩
        · intro i t ht ho
          exact (h.own i t ht ho).congr rfl (Nat.le_refl _) rfl rfl
        · intro k' c' t0 g hc' hl
          rcases getElem?_set_cases' hc' with ⟨_, rfl⟩ | ⟨_, hc'⟩
          · simp only [Option.some.injEq, Prod.mk.injEq] at hl
            obtain ⟨hlo, rfl, rfl⟩ := hl
            obtain ⟨g, hg⟩ := getElem?_of_lt h.liveLt
            refine ⟨h.quiet_live hlo, Int.le_refl _, ⟨g, by rw [← hlo]; exact hg, ?_⟩, [], rfl, by simp⟩
            rw [hg]; exact SameFrom.refl _ _
          · exact h.checks k' c' t0 g hc' hl
  | chk k a =>
    simp only at hs
    split at hs
    · simp at hs
    · rename_i c hc
      split at hs
      · simp at hs
      · rename_i o' t0 g0 hl
        have key : ∀ cs, (∀ w, a ≠ .mutate w) →
            checkStep U c.q { c.cs with view := viewOf ((s.objs[o']?).getD Gache.empty) s.now } a = some cs →
            ObjVer U n0 o { s with checks := s.checks.set k { c with cs := cs } } := by
          intro cs ha hcs
          refine ⟨h.clock, h.len, h.ne, h.lt, h.liveLt, h.zero, ?_, h.uniq, h.live, ?_⟩
          · intro i t ht ho
            exact (h.own i t ht ho).congr rfl (Nat.le_refl _) rfl rfl
          · intro k' c' t0' g' hc' hl'
            rcases getElem?_set_cases' hc' with ⟨_, rfl⟩ | ⟨_, hc'⟩
            · simp only at hl'
              rw [hl] at hl'
              simp only [Option.some.injEq, Prod.mk.injEq] at hl'
              obtain ⟨rfl, rfl, rfl⟩ := hl'
              obtain ⟨hq, ht0, ⟨g, hg, hsame⟩, sched, hrun, hmut⟩ := h.checks k c t0 g0 hc hl
              have hview : viewOf ((s.objs[o']?).getD Gache.empty) s.now = viewOf g0 s.now := by
                rw [hg, Option.getD_some]
                funext k
                exact hsame s.now (Int.le_refl _) k
              rw [hview] at hcs
              refine ⟨hq, ht0, ⟨g, hg, hsame⟩, sched ++ [.mutate (viewOf g0 s.now), a], ?_, ?_⟩
              · rw [checkRun_append, hrun]
                have hm : checkStep U c.q c.cs (.mutate (viewOf g0 s.now)) = some { c.cs with view := viewOf g0 s.now } := rfl
                simp only [Option.bind_some, checkRun, hm, hcs]
              · intro v hv
                simp only [List.mem_append, List.mem_cons, List.not_mem_nil, or_false] at hv
                rcases hv with hv | hv | hv
                · exact hmut v hv
                · simp only [CheckAct.mutate.injEq] at hv
                  exact ⟨s.now, ht0, Int.le_refl _, hv⟩
                · exact absurd hv.symm (ha v)
            · exact h.checks k' c' t0' g' hc' hl'
        cases a with
        | mutate v => simp at hs
        | _ =>
          simp only at hs
          split at hs
          · simp at hs
          · rename_i cs hcs
            simp only [Option.some.injEq] at hs; subst hs
            exact key cs (by intro w; simp) hcs

end Athenz
