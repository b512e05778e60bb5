import Verif.Model.Policyd
import Verif.Proofs.Update
import Verif.Proofs.CheckTerm

/-! Invariants of the daemon. -/

namespace Athenz

theorem SoundKey.mono {U : CaseFns} {A B : List RawAssertion} {k : Str} {o : Option (List Assertion)} (h : SoundKey U A k o)
    (hAB : ∀ a ∈ A, a ∈ B) : SoundKey U B k o :=
  ⟨h.denyFirst, fun l hl x hx => let ⟨a, ha, h1⟩ := h.sound l hl x hx; ⟨a, hAB a ha, h1⟩⟩

theorem SoundRp.mono {U : CaseFns} {A B : List RawAssertion} {g : Gache (List Assertion)} (h : SoundRp U A g)
    (hAB : ∀ a ∈ A, a ∈ B) : SoundRp U B g := fun k e he => (h k e he).mono hAB

theorem JobSound.mono {U : CaseFns} {A B : List RawAssertion} {j : Job} (h : JobSound U A j)
    (hAB : ∀ a ∈ A, a ∈ B) : JobSound U B j := by
  cases j with
  | start f => exact fun d hd a ha => hAB a (h d hd a ha)
  | fetching f => exact fun d hd a ha => hAB a (h d hd a ha)
  | merge d m => exact ⟨fun a ha => hAB a (h.1 a ha), h.2⟩
  | fill ttl todo pc => exact ⟨fun a ha => hAB a (h.1 a ha), fun old ho a rest hr => (h.2 old ho a rest hr).mono hAB⟩
  | done e => trivial

theorem SoundRp.delete {U : CaseFns} {A : List RawAssertion} {g : Gache (List Assertion)} (h : SoundRp U A g) (k : Str) :
    SoundRp U A (g.delete k) := by
  intro k' e he
  simp only [Gache.delete] at he
  split at he
  · simp at he
  · exact h k' e he

/-- A view all of whose lists come from `A`, denies first. -/
def SoundView (U : CaseFns) (A : List RawAssertion) (v : PolicyView) : Prop := ∀ k, SoundKey U A k (v k)

theorem SoundRp.view {U : CaseFns} {A : List RawAssertion} {g : Gache (List Assertion)} (h : SoundRp U A g) (t : Int) :
    SoundView U A (viewOf g t) := fun k => h.get t k

/-- `cs` is reached by a check that only ever saw views satisfying `V`. -/
def CheckReached (U : CaseFns) (q : CheckReq) (V : PolicyView → Prop) (cs : CheckState) : Prop :=
  ∃ v0 sched, V v0 ∧ checkRun U q (q.init v0) sched = some cs ∧ ∀ v, CheckAct.mutate v ∈ sched → V v

theorem CheckReached.mono {U : CaseFns} {q : CheckReq} {V V' : PolicyView → Prop} {cs : CheckState} (h : CheckReached U q V cs)
    (hV : ∀ v, V v → V' v) : CheckReached U q V' cs := by
  obtain ⟨v0, sched, h0, h1, h2⟩ := h
  exact ⟨v0, sched, hV v0 h0, h1, fun v hv => hV v (h2 v hv)⟩

theorem CheckReached.step {U : CaseFns} {q : CheckReq} {V : PolicyView → Prop} {cs cs' : CheckState} (h : CheckReached U q V cs)
    {v : PolicyView} (hv : V v) {a : CheckAct} (ha : ∀ w, a ≠ .mutate w) (hs : checkStep U q { cs with view := v } a = some cs') :
    CheckReached U q V cs' := by
  obtain ⟨v0, sched, h0, h1, h2⟩ := h
  refine ⟨v0, sched ++ [.mutate v, a], h0, ?_, ?_⟩
  · rw [checkRun_append, h1]
    have hm : checkStep U q cs (.mutate v) = some { cs with view := v } := rfl
    simp only [Option.bind_some, checkRun, hm, hs]
  · intro w hw
    simp only [List.mem_append, List.mem_cons, List.not_mem_nil, or_false] at hw
    rcases hw with hw | hw | hw
    · exact h2 w hw
    · simp only [CheckAct.mutate.injEq] at hw; rw [hw]; exact hv
    · exact absurd hw.symm (ha w)

/-- What holds for every schedule, hooks included. -/
structure PdSound (U : CaseFns) (s : PdState) : Prop where
  len : s.srcs.length = s.objs.length
  live : s.live < s.objs.length
  objs : ∀ (o : Nat) (g : Gache (List Assertion)) (D : List (Option PolicyDoc)), s.objs[o]? = some g → s.srcs[o]? = some D →
    SoundRp U (allAssertions D) g
  tasks : ∀ (i : Nat) (t : Task), s.tasks[i]? = some t → t.obj < s.objs.length ∧
    ∀ D, s.srcs[t.obj]? = some D → ∀ j ∈ t.jobs, JobSound U (allAssertions D) j
  checks : ∀ (k : Nat) (c : Chk) (o : Nat) (t0 : Int) (g : Gache (List Assertion)), s.checks[k]? = some c →
    c.loaded = some (o, t0, g) → o < s.objs.length ∧
    ∀ D, s.srcs[o]? = some D → CheckReached U c.q (SoundView U (allAssertions D)) c.cs

theorem pdInit_sound (U : CaseFns) (now : Int) (domains : List Str) : PdSound U (pdInit now domains) := by
  refine ⟨rfl, by simp [pdInit], ?_, by simp [pdInit], by simp [pdInit]⟩
  intro o g D hg hD
  cases o with
  | zero =>
    simp [pdInit] at hg hD; subst hg
    intro k e he; simp [Gache.empty] at he
  | succ o => simp [pdInit] at hg

theorem getElem?_append_cases {α : Type} {l : List α} {x y : α} {i : Nat} (h : (l ++ [x])[i]? = some y) :
    l[i]? = some y ∨ (i = l.length ∧ y = x) := by
  rw [List.getElem?_append] at h
  split at h
  · exact .inl h
  · right
    cases hi : i - l.length with
    | zero =>
      rw [hi] at h; simp at h
      exact ⟨by omega, h.symm⟩
    | succ n => rw [hi] at h; simp at h

theorem getElem?_set_cases' {α : Type} {l : List α} {i j : Nat} {x y : α} (h : (l.set i x)[j]? = some y) :
    (i = j ∧ y = x) ∨ (i ≠ j ∧ l[j]? = some y) := by
  rw [List.getElem?_set] at h
  split at h
  · rename_i hij
    split at h
    · exact .inl ⟨hij, by simpa using h.symm⟩
    · simp at h
  · rename_i hij; exact .inr ⟨hij, h⟩

theorem getElem?_of_lt {α : Type} {l : List α} {i : Nat} (h : i < l.length) : ∃ x, l[i]? = some x :=
  ⟨l[i], List.getElem?_eq_getElem h⟩

theorem allAssertions_append (D E : List (Option PolicyDoc)) :
    allAssertions (D ++ E) = allAssertions D ++ allAssertions E := by
  simp [allAssertions]

theorem PdSound.step {U : CaseFns} {s s' : PdState} (h : PdSound U s) {a : PdAct} (hs : pdStep U s a = some s') :
    PdSound U s' := by
  unfold pdStep at hs
  split at hs
  · simp at hs
  cases a with
  | tick d => simp only [Option.some.injEq] at hs; subst hs; exact ⟨h.len, h.live, h.objs, h.tasks, h.checks⟩
  | update fetch =>
    simp only [Option.some.injEq] at hs; subst hs
    refine ⟨by simp [h.len], by have := h.live; simp; omega, ?_, ?_, ?_⟩
    · intro o g D hg hD
      rcases getElem?_append_cases hg with hg' | ⟨rfl, rfl⟩
      · rcases getElem?_append_cases hD with hD | ⟨rfl, rfl⟩
        · exact h.objs o g D hg' hD
        · rw [h.len, List.getElem?_eq_none (Nat.le_refl _)] at hg'; simp at hg'
      · intro k e he; simp [Gache.empty] at he
    · intro i t ht
      rcases getElem?_append_cases ht with ht | ⟨_, rfl⟩
      · obtain ⟨h1, h2⟩ := h.tasks i t ht
        refine ⟨by simp; omega, ?_⟩
        intro D hD
        rcases getElem?_append_cases hD with hD | ⟨hl, _⟩
        · exact h2 D hD
        · rw [h.len] at hl; omega
      · refine ⟨by simp, ?_⟩
        intro D hD j hj
        rcases getElem?_append_cases hD with hD | ⟨_, rfl⟩
        · rw [← h.len, List.getElem?_eq_none (Nat.le_refl _)] at hD; simp at hD
        · simp only [List.mem_map] at hj
          obtain ⟨f, hf, rfl⟩ := hj
          intro d hd a ha
          subst hd
          exact mem_allAssertions.mpr ⟨d, hf, ha⟩
    · intro k c o t0 g hc hl
      obtain ⟨h1, h2⟩ := h.checks k c o t0 g hc hl
      refine ⟨by simp; omega, ?_⟩
      intro D hD
      rcases getElem?_append_cases hD with hD | ⟨hl, _⟩
      · exact h2 D hD
      · rw [h.len] at hl; omega
  | task i a =>
    simp only at hs
    split at hs
    · simp at hs
    · rename_i t ht
      have key : ∀ u, updStep U (s.taskView t) a = some u →
          PdSound U { s with objs := s.objs.set t.obj u.rp, tasks := s.tasks.set i { t with cancelled := u.cancelled, jobs := u.jobs } } := by
        intro u hu
        obtain ⟨hlt, htj⟩ := h.tasks i t ht
        obtain ⟨g0, hg0⟩ := getElem?_of_lt hlt
        obtain ⟨D0, hD0⟩ := getElem?_of_lt (h.len ▸ hlt : t.obj < s.srcs.length)
        have hus : UpdSound U (allAssertions D0) (s.taskView t) := by
          refine ⟨?_, htj D0 hD0⟩
          simp only [PdState.taskView, hg0, Option.getD_some]
          exact h.objs _ _ _ hg0 hD0
        have hu' := hus.step hu
        refine ⟨by simp [h.len], by simpa using h.live, ?_, ?_, ?_⟩
        · intro o g D hg hD
          rcases getElem?_set_cases' hg with ⟨rfl, rfl⟩ | ⟨_, hg⟩
          · rw [hD0] at hD; simp only [Option.some.injEq] at hD; subst hD
            exact hu'.rp
          · exact h.objs o g D hg hD
        · intro i' t' ht'
          rcases getElem?_set_cases' ht' with ⟨_, rfl⟩ | ⟨_, ht'⟩
          · refine ⟨by simpa using hlt, ?_⟩
            intro D hD j hj
            simp only at hD hj
            rw [hD0] at hD; simp only [Option.some.injEq] at hD; subst hD
            exact hu'.jobs j hj
          · obtain ⟨h1, h2⟩ := h.tasks i' t' ht'
            exact ⟨by simpa using h1, h2⟩
        · intro k c o t0 g hc hl
          obtain ⟨h1, h2⟩ := h.checks k c o t0 g hc hl
          exact ⟨by simpa using h1, h2⟩
      cases a with
      | tick d => simp at hs
      | _ =>
        simp only at hs
        split at hs
        · simp at hs
        · rename_i u hu
          simp only [Option.some.injEq] at hs; subst hs
          exact key u hu
  | finish i =>
    simp only at hs
    split at hs
    · simp at hs
    · rename_i t ht
      have hobj := h.tasks i t ht
      have htasks : ∀ (b : Option Bool) (i' : Nat) (t' : Task), (s.tasks.set i { t with ret := b })[i']? = some t' →
          t'.obj < s.objs.length ∧ ∀ D, s.srcs[t'.obj]? = some D → ∀ j ∈ t'.jobs, JobSound U (allAssertions D) j := by
        intro b i' t' ht'
        rcases getElem?_set_cases' ht' with ⟨_, rfl⟩ | ⟨_, ht'⟩
        · exact hobj
        · exact h.tasks i' t' ht'
      split at hs
      · split at hs
        · simp only [Option.some.injEq] at hs; subst hs
          exact ⟨h.len, hobj.1, h.objs, htasks _, h.checks⟩
        · simp only [Option.some.injEq] at hs; subst hs
          exact ⟨h.len, h.live, h.objs, htasks _, h.checks⟩
      · simp at hs
  | abort i =>
    simp only at hs
    split at hs
    · simp at hs
    · rename_i t ht
      split at hs
      · simp only [Option.some.injEq] at hs; subst hs
        refine ⟨h.len, h.live, h.objs, ?_, h.checks⟩
        intro i' t' ht'
        rcases getElem?_set_cases' ht' with ⟨_, rfl⟩ | ⟨_, ht'⟩
        · exact h.tasks i t ht
        · exact h.tasks i' t' ht'
      · simp at hs
  | expire o k =>
    simp only at hs
    split at hs
    · split at hs
      · simp at hs
      · rename_i g hg
        split at hs
        · simp at hs
        · split at hs
          · simp at hs
          · simp only [Option.some.injEq] at hs; subst hs
            refine ⟨by simp [h.len], by simpa using h.live, ?_, ?_, ?_⟩
            · intro o' g' D hg' hD
              rcases getElem?_set_cases' hg' with ⟨rfl, rfl⟩ | ⟨_, hg'⟩
              · exact (h.objs _ g D hg hD).delete k
              · exact h.objs o' g' D hg' hD
            · intro i t ht
              obtain ⟨h1, h2⟩ := h.tasks i t ht
              exact ⟨by simpa using h1, h2⟩
            · intro k c o t0 g hc hl
              obtain ⟨h1, h2⟩ := h.checks k c o t0 g hc hl
              exact ⟨by simpa using h1, h2⟩
    · simp at hs
  | hook j fetch =>
    simp only at hs
    split at hs
    · simp at hs
    · split at hs
      · simp only [Option.some.injEq] at hs; subst hs
        obtain ⟨D0, hD0⟩ := getElem?_of_lt (h.len ▸ h.live : s.live < s.srcs.length)
        -- the sources only grow
        have hgrow : ∀ (o : Nat) (D : List (Option PolicyDoc)),
            (s.srcs.set s.live ((s.srcs[s.live]?).getD [] ++ [fetch]))[o]? = some D →
            ∃ D', s.srcs[o]? = some D' ∧ ∀ a ∈ allAssertions D', a ∈ allAssertions D := by
          intro o D hD
          rcases getElem?_set_cases' hD with ⟨rfl, rfl⟩ | ⟨_, hD⟩
          · refine ⟨D0, hD0, ?_⟩
            intro a ha
            rw [hD0, Option.getD_some, allAssertions_append]
            exact List.mem_append_left _ ha
          · exact ⟨D, hD, fun a ha => ha⟩
        refine ⟨by simp [h.len], h.live, ?_, ?_, ?_⟩
        · intro o g D hg hD
          obtain ⟨D', hD', hsub⟩ := hgrow o D hD
          exact (h.objs o g D' hg hD').mono hsub
        · intro i t ht
          rcases getElem?_append_cases ht with ht | ⟨_, rfl⟩
          · obtain ⟨h1, h2⟩ := h.tasks i t ht
            refine ⟨h1, ?_⟩
            intro D hD j hj
            obtain ⟨D', hD', hsub⟩ := hgrow _ D hD
            exact (h2 D' hD' j hj).mono hsub
          · refine ⟨h.live, ?_⟩
            intro D hD j hj
            simp only [List.mem_singleton] at hj
            subst hj
            intro d hd a ha
            subst hd
            rcases getElem?_set_cases' hD with ⟨_, rfl⟩ | ⟨hne, _⟩
            · exact mem_allAssertions.mpr ⟨d, by simp, ha⟩
            · exact absurd rfl hne
        · intro k c o t0 g hc hl
          obtain ⟨h1, h2⟩ := h.checks k c o t0 g hc hl
          refine ⟨h1, ?_⟩
          intro D hD
          obtain ⟨D', hD', hsub⟩ := hgrow _ D hD
          exact (h2 D' hD').mono (fun v hv k => (hv k).mono hsub)
      · simp only [Option.some.injEq] at hs; subst hs
        exact ⟨h.len, h.live, h.objs, h.tasks, h.checks⟩
  | check q =>
    simp only [Option.some.injEq] at hs; subst hs
    refine ⟨h.len, h.live, h.objs, h.tasks, ?_⟩
    intro k c o t0 g hc hl
    rcases getElem?_append_cases hc with hc | ⟨_, rfl⟩
    · exact h.checks k c o t0 g hc hl
    · simp at hl
  | load k =>
    simp only at hs
    split at hs
    · simp at hs
    · rename_i c hc
      split at hs
      · simp at hs
      · simp only [Option.some.injEq] at hs; subst hs
        refine ⟨h.len, h.live, h.objs, h.tasks, ?_⟩
        intro k' c' o t0 g hc' hl
        rcases getElem?_set_cases' hc' with ⟨_, rfl⟩ | ⟨_, hc'⟩
        · simp only [Option.some.injEq, Prod.mk.injEq] at hl
          obtain ⟨rfl, rfl, rfl⟩ := hl
          refine ⟨h.live, ?_⟩
          intro D hD
          obtain ⟨g0, hg0⟩ := getElem?_of_lt h.live
          refine ⟨_, [], ?_, rfl, by simp⟩
          rw [hg0, Option.getD_some]
          exact (h.objs _ _ _ hg0 hD).view _
        · exact h.checks k' c' o t0 g hc' hl
  | chk k a =>
    simp only at hs
    split at hs
    · simp at hs
    · rename_i c hc
      split at hs
      · simp at hs
      · rename_i o t0 g0 hl
        obtain ⟨hlt, hr⟩ := h.checks k c o t0 g0 hc hl
        obtain ⟨g, hg⟩ := getElem?_of_lt hlt
        have key : ∀ cs, (∀ w, a ≠ .mutate w) →
            checkStep U c.q { c.cs with view := viewOf ((s.objs[o]?).getD Gache.empty) s.now } a = some cs →
            PdSound U { s with checks := s.checks.set k { c with cs := cs } } := by
          intro cs ha hcs
          refine ⟨h.len, h.live, h.objs, h.tasks, ?_⟩
          intro k' c' o' t0' g' hc' hl'
          rcases getElem?_set_cases' hc' with ⟨_, rfl⟩ | ⟨_, hc'⟩
          · simp only at hl'
            rw [hl] at hl'
            simp only [Option.some.injEq, Prod.mk.injEq] at hl'
            obtain ⟨rfl, rfl, rfl⟩ := hl'
            refine ⟨hlt, ?_⟩
            intro D hD
            refine (hr D hD).step ?_ ha hcs
            rw [hg, Option.getD_some]
            exact (h.objs _ _ _ hg hD).view _
          · exact h.checks k' c' o' t0' g' hc' hl'
        cases a with
        | mutate v => simp at hs
        | _ =>
          simp only at hs
          split at hs
          · simp at hs
          · rename_i cs hcs
            simp only [Option.some.injEq] at hs; subst hs
            exact key cs (by intro w; simp) hcs

theorem PdSound.run {U : CaseFns} {s s' : PdState} (h : PdSound U s) {as : List PdAct} (hs : pdRun U s as = some s') :
    PdSound U s' := by
  induction as generalizing s with
  | nil => simp only [pdRun, Option.some.injEq] at hs; subst hs; exact h
  | cons a as ih =>
    simp only [pdRun] at hs
    split at hs
    · simp at hs
    · rename_i s1 hs1; exact ih (h.step hs1) hs

/-! ### Schedules without hooks: versions -/

/-- Two caches give the same answers from time `t` on. -/
def SameFrom (t : Int) (g g' : Gache (List Assertion)) : Prop := ∀ t', t ≤ t' → ∀ k, g.get t' k = g'.get t' k

theorem SameFrom.refl (t : Int) (g : Gache (List Assertion)) : SameFrom t g g := fun _ _ _ => rfl

theorem SameFrom.trans {t : Int} {g g' g'' : Gache (List Assertion)} (h : SameFrom t g g') (h' : SameFrom t g' g'') :
    SameFrom t g g'' := fun t' ht k => (h t' ht k).trans (h' t' ht k)

theorem SameFrom.later {t t1 : Int} {g g' : Gache (List Assertion)} (h : SameFrom t g g') (ht : t ≤ t1) : SameFrom t1 g g' :=
  fun t' ht' k => h t' (by omega) k

theorem sameFrom_delete {now : Int} {g : Gache (List Assertion)} {k : Str} {e : GEntry (List Assertion)} (hk : g k = some e)
    (hv : Gache.valid now e = false) : SameFrom now (g.delete k) g := by
  intro t ht k'
  by_cases hkk : k' = k
  · subst hkk
    have : Gache.valid t e = false := by
      simp only [Gache.valid, Bool.or_eq_false_iff, decide_eq_false_iff_not] at hv ⊢
      omega
    simp [Gache.get, Gache.delete, hk, this]
  · simp [Gache.get, Gache.delete, hkk]

theorem updRun_append (U : CaseFns) (s : UpdState) (as bs : List UpdAct) :
    updRun U s (as ++ bs) = (updRun U s as).bind fun s' => updRun U s' bs := by
  induction as generalizing s with
  | nil => rfl
  | cons a as ih =>
    simp only [List.cons_append, updRun]
    cases updStep U s a with
    | none => rfl
    | some s' => exact ih s'

/-- The history of an update task. -/
structure TaskOk (U : CaseFns) (n0 : Int) (s : PdState) (t : Task) : Prop where
  upd : t.isUpdate = true
  pos : 0 < t.obj
  lt : t.obj < s.objs.length
  hist : ∃ (docs : List (Option PolicyDoc)) (T0 : Int) (u : UpdState) (sched : List UpdAct), n0 ≤ T0 ∧ s.srcs[t.obj]? = some docs ∧
    updRun U (updInit T0 docs) sched = some u ∧ u.now ≤ s.now ∧ u.jobs = t.jobs ∧ u.cancelled = t.cancelled ∧
    ∃ g, s.objs[t.obj]? = some g ∧
      ((t.allDone = false ∧ u.now = s.now ∧ u.rp = g) ∨ (t.allDone = true ∧ SameFrom s.now g u.rp))
  ret : t.ret = some true → t.allOk = true

/-- An object no goroutine writes any more: the initial one, or that of a finished update. -/
def Quiet (s : PdState) (o : Nat) : Prop := o = 0 ∨ ∃ (i : Nat) (t : Task), s.tasks[i]? = some t ∧ t.obj = o ∧ t.allDone = true

structure PdVer (U : CaseFns) (n0 : Int) (s : PdState) : Prop where
  clock : n0 ≤ s.now
  len : s.srcs.length = s.objs.length
  obj0 : s.objs[0]? = some Gache.empty
  src0 : s.srcs[0]? = some []
  tasks : ∀ (i : Nat) (t : Task), s.tasks[i]? = some t → TaskOk U n0 s t
  distinct : ∀ (i j : Nat) (t t' : Task), s.tasks[i]? = some t → s.tasks[j]? = some t' → t.obj = t'.obj → i = j
  live : (s.live = 0 ∧ ∀ (i : Nat) (t : Task), s.tasks[i]? = some t → t.ret ≠ some true) ∨
    ∃ (i : Nat) (t : Task), s.tasks[i]? = some t ∧ t.obj = s.live ∧ t.ret = some true
  checks : ∀ (k : Nat) (c : Chk) (o : Nat) (t0 : Int) (g : Gache (List Assertion)), s.checks[k]? = some c →
    c.loaded = some (o, t0, g) → Quiet s o ∧ t0 ≤ s.now ∧
      (∃ g', s.objs[o]? = some g' ∧ SameFrom s.now g' g) ∧
      ∃ sched, checkRun U c.q (c.q.init (viewOf g t0)) sched = some c.cs ∧
        ∀ v, CheckAct.mutate v ∈ sched → ∃ t, t0 ≤ t ∧ t ≤ s.now ∧ v = viewOf g t

theorem pdInit_ver (U : CaseFns) (now : Int) (domains : List Str) : PdVer U now (pdInit now domains) := by
  refine ⟨Int.le_refl _, rfl, rfl, rfl, by simp [pdInit], by simp [pdInit], .inl ⟨rfl, by simp [pdInit]⟩, by simp [pdInit]⟩

theorem Task.allOk_done {t : Task} (h : t.allOk = true) : t.allDone = true := by
  simp only [Task.allOk, Task.allDone, List.all_eq_true] at h ⊢
  intro j hj
  have := h j hj
  cases j <;> simp_all

/-- A finished task makes no more steps except to notice the cancellation. -/
theorem updStep_allDone {U : CaseFns} {u u' : UpdState} {a : UpdAct} (hs : updStep U u a = some u')
    (hd : ∀ j ∈ u.jobs, ∃ e, j = .done e) (ha : ∀ d, a ≠ .tick d) : u'.jobs = u.jobs ∧ u'.rp = u.rp := by
  have hget : ∀ (i : Nat) (j : Job), u.jobs[i]? = some j → ∃ e, j = .done e := fun i j hj => hd j (List.mem_of_getElem? hj)
  cases a with
  | job i order =>
    simp only [updStep] at hs
    split at hs <;> (try (rename_i hj; obtain ⟨e, he⟩ := hget _ _ hj; simp at he)) <;> simp at hs
  | merge i k =>
    simp only [updStep] at hs
    split at hs
    · rename_i hj; obtain ⟨e, he⟩ := hget _ _ hj; simp at he
    · simp at hs
  | tick d => exact absurd rfl (ha d)
  | cancel => simp only [updStep, Option.some.injEq] at hs; subst hs; exact ⟨rfl, rfl⟩

theorem updStep_now' {U : CaseFns} {u u' : UpdState} {a : UpdAct} (hs : updStep U u a = some u') (ha : ∀ d, a ≠ .tick d) :
    u'.now = u.now := by
  cases a with
  | job i order =>
    simp only [updStep] at hs
    repeat' split at hs
    all_goals first
      | (simp at hs; done)
      | (simp only [Option.some.injEq] at hs; subst hs; rfl)
  | merge i k =>
    simp only [updStep] at hs
    repeat' split at hs
    all_goals first
      | (simp at hs; done)
      | (simp only [Option.some.injEq] at hs; subst hs; rfl)
  | tick d => exact absurd rfl (ha d)
  | cancel => simp only [updStep, Option.some.injEq] at hs; subst hs; rfl

theorem Task.allDone_iff {t : Task} : t.allDone = true ↔ ∀ j ∈ t.jobs, ∃ e, j = .done e := by
  simp only [Task.allDone, List.all_eq_true]
  constructor
  · intro h j hj
    have := h j hj
    cases j with
    | done e => exact ⟨e, rfl⟩
    | _ => simp at this
  · intro h j hj
    obtain ⟨e, rfl⟩ := h j hj
    rfl

/-- The task invariant only depends on clock, objects and sources. -/
theorem TaskOk.congr {U : CaseFns} {n0 : Int} {s s' : PdState} {t : Task} (h : TaskOk U n0 s t) (hn : s'.now = s.now)
    (hl : s.objs.length ≤ s'.objs.length) (ho : s'.objs[t.obj]? = s.objs[t.obj]?) (hsrc : s'.srcs[t.obj]? = s.srcs[t.obj]?) :
    TaskOk U n0 s' t := by
  refine ⟨h.upd, h.pos, by have := h.lt; omega, ?_, h.ret⟩
  rw [ho, hsrc, hn]
  exact h.hist

/-- The hook never runs in the schedule. -/
def PdAct.notHook : PdAct → Prop
  | .hook _ _ => False
  | _ => True

theorem PdVer.quiet_live {U : CaseFns} {n0 : Int} {s : PdState} (h : PdVer U n0 s) : Quiet s s.live := by
  rcases h.live with ⟨h0, _⟩ | ⟨i, t, ht, ho, hr⟩
  · exact .inl h0
  · exact .inr ⟨i, t, ht, ho, Task.allOk_done ((h.tasks i t ht).ret hr)⟩

theorem PdVer.quiet_lt {U : CaseFns} {n0 : Int} {s : PdState} (h : PdVer U n0 s) {o : Nat} (hq : Quiet s o) : o < s.objs.length := by
  rcases hq with rfl | ⟨i, t, ht, rfl, _⟩
  · cases hl : s.objs with
    | nil => have := h.obj0; rw [hl] at this; simp at this
    | cons a b => simp
  · exact (h.tasks i t ht).lt

end Athenz
