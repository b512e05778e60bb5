import Verif.Proofs.Since

/-! Refreshes of expired entries that write into a cache object what it holds already: for roles whose entries have not expired, the content stays
what the documents of the object say, whatever goroutines write at the same time. -/

namespace Athenz
open Spec

/-- What the document says about the roles `K` is among `A`; it is valid beyond `T`, or it had expired at `n1`. -/
def DocAlike (A : List RawAssertion) (K : Str → Prop) (n1 T : Int) (d : PolicyDoc) : Prop :=
  ∀ a ∈ d.policies.flatten, K a.role → a ∈ A ∧ (d.expires ≤ n1 ∨ (0 ≤ n1 ∧ T < d.expires ∧ d.expires + T < 2 ^ 63))

/-- The cache object represents `A` for the roles `K`, from now on up to `T`. -/
def RepOn (U : CaseFns) (A : List RawAssertion) (K : Str → Prop) (T now : Int) (g : Gache (List Assertion)) : Prop :=
  ∀ k, K k → ∀ t, now ≤ t → t ≤ T → RepKey U A k (viewOf g t k)

theorem RepOn.mono {U : CaseFns} {A : List RawAssertion} {K : Str → Prop} {T now now' : Int} {g : Gache (List Assertion)}
    (h : RepOn U A K T now g) (hn : now ≤ now') : RepOn U A K T now' g := fun k hk t h1 h2 => h k hk t (by omega) h2

theorem RepOn.same {U : CaseFns} {A : List RawAssertion} {K : Str → Prop} {T now : Int} {g g' : Gache (List Assertion)}
    (h : RepOn U A K T now g) (hs : SameFrom now g' g) : RepOn U A K T now g' := by
  intro k hk t h1 h2
  have : viewOf g' t k = viewOf g t k := hs t h1 k
  rw [this]; exact h k hk t h1 h2

/-- A list that is complete stays so when an assertion is added that it should hold. -/
theorem insertAss_repKey {U : CaseFns} {A : List RawAssertion} {a : RawAssertion} {x : Assertion} {old : Option (List Assertion)}
    (hc : a.conv U = some x) (ha : a ∈ A) (h : RepKey U A a.role old) : RepKey U A a.role (some (insertAss x old)) := by
  have hs := insertAss_soundKey hc ha ⟨h.denyFirst, h.sound⟩
  refine ⟨hs.denyFirst, hs.sound, fun b hb hr => ?_⟩
  obtain ⟨l, hl, c, y, hy, h1⟩ := h.complete b hb hr
  exact ⟨_, rfl, c, y, mem_insertAss.mpr (.inr ⟨l, hl, hy⟩), h1⟩

/-- A goroutine that writes into the object only what it holds already. -/
def JobAlike (U : CaseFns) (A : List RawAssertion) (K : Str → Prop) (n1 T now : Int) : Job → Prop
  | .start _ => False
  | .fetching _ => True
  | .merge d m => DocAlike A K n1 T d ∧ ∃ cons, MergeInv U d m cons
  | .fill ttl todo pc => (∀ a ∈ todo, K a.role → a ∈ A ∧ ∀ n, now ≤ n → n ≤ T → ∀ (l : List Assertion) t, t ≤ T →
        Gache.valid t (⟨l, if ttl > 0 then wrap64 (n + ttl) else ttl⟩ : GEntry (List Assertion)) = true) ∧
      ∀ old, pc = some old → ∀ a rest, todo = a :: rest → K a.role → RepKey U A a.role old
  | .done _ => True

theorem JobAlike.mono {U : CaseFns} {A : List RawAssertion} {K : Str → Prop} {n1 T now now' : Int} {j : Job}
    (h : JobAlike U A K n1 T now j) (hn : now ≤ now') : JobAlike U A K n1 T now' j := by
  cases j with
  | fill ttl todo pc =>
    refine ⟨fun a ha hk => ⟨(h.1 a ha hk).1, fun n h1 h2 => (h.1 a ha hk).2 n (by omega) h2⟩, h.2⟩
  | _ => exact h

theorem updStep_alike {U : CaseFns} {A : List RawAssertion} {K : Str → Prop} {n1 T : Int} {s s' : UpdState} {a : UpdAct} (hn1 : n1 ≤ s.now)
    (hT : s.now ≤ T) (hrep : RepOn U A K T s.now s.rp) (hj : ∀ j ∈ s.jobs, JobAlike U A K n1 T s.now j) (ha : ∀ d, a ≠ .tick d)
    (hgot : ∀ j o d, a = .job j o → s.jobs[j]? = some (.fetching (some d)) → DocAlike A K n1 T d) (hs : updStep U s a = some s') :
    RepOn U A K T s.now s'.rp ∧ ∀ j ∈ s'.jobs, JobAlike U A K n1 T s.now j := by
  have hset : ∀ (i : Nat) (j : Job), JobAlike U A K n1 T s.now j → ∀ j' ∈ s.jobs.set i j, JobAlike U A K n1 T s.now j' := by
    intro i j h j' hj'
    rcases mem_set_cases hj' with h1 | rfl
    · exact hj j' h1
    · exact h
  cases a with
  | tick n => exact absurd rfl (ha n)
  | cancel =>
    simp only [updStep, Option.some.injEq] at hs; subst hs
    exact ⟨hrep, hj⟩
  | merge i n =>
    simp only [updStep] at hs
    split at hs
    · rename_i d' m hji
      split at hs
      · rename_i m' hm'
        simp only [Option.some.injEq] at hs; subst hs
        obtain ⟨h1, cons, hm⟩ := hj _ (List.mem_of_getElem? hji)
        exact ⟨hrep, hset _ _ ⟨h1, hm.step hm'⟩⟩
      · simp at hs
    · simp at hs
  | job i order =>
    simp only [updStep] at hs
    split at hs
    · rename_i f hji
      exact (hj _ (List.mem_of_getElem? hji)).elim
    · simp only [Option.some.injEq] at hs; subst hs
      exact ⟨hrep, hset _ _ trivial⟩
    · rename_i d hji
      simp only [Option.some.injEq] at hs; subst hs
      exact ⟨hrep, hset _ _ ⟨hgot i order d rfl hji, _, mergeInit_inv U d⟩⟩
    · rename_i d m hji
      obtain ⟨h1, cons, hm⟩ := hj _ (List.mem_of_getElem? hji)
      split at hs
      · rename_i hfin
        split at hs
        · simp only [Option.some.injEq] at hs; subst hs
          exact ⟨hrep, hset _ _ trivial⟩
        · rename_i hnf
          split at hs
          · rename_i hperm
            simp only [Option.some.injEq] at hs; subst hs
            refine ⟨hrep, hset _ _ ⟨fun b hb hk => ?_, by simp⟩⟩
            have hbd := (hm.merged hfin (by simpa using hnf)).sub b (hperm.mem_iff.mp hb)
            obtain ⟨h2, h3⟩ := h1 b hbd hk
            refine ⟨h2, fun n hn hnT l t ht => ?_⟩
            rcases h3 with h3 | ⟨h3, h4, h5⟩
            · exact keepsUntil_expired h3 T s.now n hn1 hn hnT l t ht
            · exact keepsUntil_valid h3 h4 h5 s.now n hn1 hn hnT l t (by omega)
          · simp at hs
      · simp at hs
    · simp only [Option.some.injEq] at hs; subst hs
      exact ⟨hrep, hset _ _ trivial⟩
    · rename_i ttl b rest hji
      split at hs
      · rename_i x hx
        simp only [Option.some.injEq] at hs; subst hs
        obtain ⟨h1, _⟩ := hj _ (List.mem_of_getElem? hji)
        refine ⟨hrep, hset _ _ ⟨h1, fun old ho b' rest' he hk => ?_⟩⟩
        simp only [List.cons.injEq] at he
        obtain ⟨rfl, rfl⟩ := he
        simp only [Option.some.injEq] at ho
        rw [← ho]
        exact hrep b.role hk s.now (Int.le_refl _) hT
      · simp only [Option.some.injEq] at hs; subst hs
        exact ⟨hrep, hset _ _ trivial⟩
      · simp at hs
    · rename_i ttl b rest old hji
      split at hs
      · rename_i x hx
        have hx := newAssertion_conv hx
        simp only [Option.some.injEq] at hs; subst hs
        obtain ⟨h1, h2⟩ := hj _ (List.mem_of_getElem? hji)
        refine ⟨?_, hset _ _ ⟨fun c hc hk => h1 c (by simp [hc]) hk, by simp⟩⟩
        intro k hk t ht htT
        by_cases hbk : b.role = k
        · subst hbk
          obtain ⟨h3, h4⟩ := h1 b (by simp) hk
          have : viewOf (s.rp.set s.now b.role (insertAss x old) ttl) t b.role = some (insertAss x old) := by
            simp only [viewOf, Gache.get, Gache.set, if_true]
            rw [h4 s.now (Int.le_refl _) hT _ t htT]
            simp
          rw [this]
          exact insertAss_repKey hx h3 (h2 old rfl b rest rfl hk)
        · have : viewOf (s.rp.set s.now b.role (insertAss x old) ttl) t k = viewOf s.rp t k := by
            simp [viewOf, Gache.get, Gache.set, Ne.symm hbk]
          rw [this]
          exact hrep k hk t ht htT
      · simp at hs
    · simp at hs

/-- What holds about the object `o` when it has been published, if refreshes only write into it what it holds already: it represents `A` for the
roles `K` up to `T`, and so do all contents that checks which loaded it have seen. -/
structure RoleInv (U : CaseFns) (A : List RawAssertion) (K : Str → Prop) (n1 T : Int) (o : Nat) (s : PdState) : Prop where
  clock : n1 ≤ s.now
  obj : ∃ g, s.objs[o]? = some g ∧ RepOn U A K T s.now g
  jobs : ∀ (i : Nat) (t : Task), s.tasks[i]? = some t → t.obj = o → ∀ j ∈ t.jobs, JobAlike U A K n1 T s.now j
  checks : ∀ (k : Nat) (c : Chk) (t0 : Int) (g : Gache (List Assertion)), s.checks[k]? = some c → c.loaded = some (o, t0, g) →
    (∀ role ∈ c.q.roles, K (roleKey c.q.domain role)) → CheckInv U c.q (RepView U A c.q) c.cs

theorem RoleInv.tick {U : CaseFns} {A : List RawAssertion} {K : Str → Prop} {n1 T : Int} {o : Nat} {s : PdState} (h : RoleInv U A K n1 T o s) (d : Nat) :
    RoleInv U A K n1 T o { s with now := s.now + d } := by
  have := h.clock
  obtain ⟨g, h1, h2⟩ := h.obj
  exact ⟨by simp only; omega, ⟨g, h1, h2.mono (by simp only; omega)⟩, fun i t ht ho j hj => (h.jobs i t ht ho j hj).mono (by simp only; omega), h.checks⟩

theorem RoleInv.step {U : CaseFns} {A : List RawAssertion} {K : Str → Prop} {n1 T : Int} {o : Nat} {s s' : PdState} (h : RoleInv U A K n1 T o s)
    (hT : s.now ≤ T) {a : PdAct}
    (hgot : ∀ i j ord t d, a = .task i (.job j ord) → s.tasks[i]? = some t → t.obj = o → t.jobs[j]? = some (.fetching (some d)) → DocAlike A K n1 T d)
    (hs : pdStep U s a = some s') : RoleInv U A K n1 T o s' := by
  unfold pdStep at hs
  split at hs
  · simp at hs
  obtain ⟨g, hg, hrep⟩ := h.obj
  have hlt := lt_of_getElem? hg
  cases a with
  | tick d =>
    simp only [Option.some.injEq] at hs; subst hs
    exact h.tick d
  | update fetch =>
    simp only [Option.some.injEq] at hs; subst hs
    refine ⟨h.clock, ⟨g, by simp only; rw [List.getElem?_append_left hlt]; exact hg, hrep⟩, ?_, h.checks⟩
    intro i t ht ho
    rcases getElem?_append_cases ht with ht | ⟨_, rfl⟩
    · exact h.jobs i t ht ho
    · simp only at ho; omega
  | hook j f =>
    simp only at hs
    split at hs
    · simp at hs
    · split at hs
      · simp only [Option.some.injEq] at hs; subst hs
        refine ⟨h.clock, ⟨g, hg, hrep⟩, ?_, h.checks⟩
        intro i t ht ho
        rcases getElem?_append_cases ht with ht | ⟨_, rfl⟩
        · exact h.jobs i t ht ho
        · intro j hj
          simp only [List.mem_singleton] at hj
          subst hj
          trivial
      · simp only [Option.some.injEq] at hs; subst hs
        exact ⟨h.clock, ⟨g, hg, hrep⟩, h.jobs, h.checks⟩
  | task i a =>
    simp only at hs
    split at hs
    · simp at hs
    · rename_i t ht
      have key : ∀ u, (∀ d, a ≠ .tick d) → updStep U (s.taskView t) a = some u →
          RoleInv U A K n1 T o { s with objs := s.objs.set t.obj u.rp, tasks := s.tasks.set i { t with cancelled := u.cancelled, jobs := u.jobs } } := by
        intro u ha hu
        by_cases hto : t.obj = o
        · have htv : (s.taskView t).rp = g := by simp [PdState.taskView, hto, hg]
          obtain ⟨h1, h2⟩ := updStep_alike (A := A) (K := K) (n1 := n1) (T := T) (s := s.taskView t) (a := a) h.clock hT (by rw [htv]; exact hrep)
            (fun j hj => h.jobs i t ht hto j hj) ha (fun j ord d he hd => hgot i j ord t d (by rw [he]) ht hto hd) hu
          refine ⟨h.clock, ⟨u.rp, by simp only; rw [hto, List.getElem?_set_self hlt], h1⟩, ?_, h.checks⟩
          intro i' t' ht' ho'
          rcases getElem?_set_cases' ht' with ⟨_, rfl⟩ | ⟨_, ht'⟩
          · exact h2
          · exact h.jobs i' t' ht' ho'
        · refine ⟨h.clock, ⟨g, by simp only; rw [List.getElem?_set_ne hto]; exact hg, hrep⟩, ?_, h.checks⟩
          intro i' t' ht' ho'
          rcases getElem?_set_cases' ht' with ⟨_, rfl⟩ | ⟨_, ht'⟩
          · exact absurd ho' hto
          · exact h.jobs i' t' ht' ho'
      cases a with
      | tick d => simp at hs
      | _ =>
        simp only at hs
        split at hs
        · simp at hs
        · rename_i u hu
          simp only [Option.some.injEq] at hs; subst hs
          exact key u (by intro d; simp) hu
  | finish i =>
    simp only at hs
    split at hs
    · simp at hs
    · rename_i t ht
      have hj : ∀ b l, RoleInv U A K n1 T o { s with live := l, tasks := s.tasks.set i { t with ret := b } } := fun b l =>
        ⟨h.clock, ⟨g, hg, hrep⟩, by
          intro i' t' ht' ho'
          rcases getElem?_set_cases' ht' with ⟨_, rfl⟩ | ⟨_, ht'⟩
          · exact h.jobs i t ht ho'
          · exact h.jobs i' t' ht' ho', h.checks⟩
      split at hs
      · split at hs
        · simp only [Option.some.injEq] at hs; subst hs; exact hj _ _
        · simp only [Option.some.injEq] at hs; subst hs; exact hj _ s.live
      · simp at hs
  | abort i =>
    simp only at hs
    split at hs
    · simp at hs
    · rename_i t ht
      split at hs
      · simp only [Option.some.injEq] at hs; subst hs
        refine ⟨h.clock, ⟨g, hg, hrep⟩, ?_, h.checks⟩
        intro i' t' ht' ho'
        rcases getElem?_set_cases' ht' with ⟨_, rfl⟩ | ⟨_, ht'⟩
        · exact h.jobs i t ht ho'
        · exact h.jobs i' t' ht' ho'
      · simp at hs
  | expire o' k =>
    simp only at hs
    split at hs
    · split at hs
      · simp at hs
      · rename_i g' hg'
        split at hs
        · simp at hs
        · rename_i e he
          split at hs
          · simp at hs
          · rename_i hv
            simp only [Option.some.injEq] at hs; subst hs
            refine ⟨h.clock, ?_, h.jobs, h.checks⟩
            by_cases ho : o' = o
            · subst ho
              rw [hg] at hg'
              obtain rfl := Option.some.inj hg'
              exact ⟨_, by simp only; rw [List.getElem?_set_self hlt], hrep.same (sameFrom_delete (now := s.now) he (by simpa using hv))⟩
            · exact ⟨g, by simp only; rw [List.getElem?_set_ne ho]; exact hg, hrep⟩
    · simp at hs
  | check q =>
    simp only [Option.some.injEq] at hs; subst hs
    refine ⟨h.clock, ⟨g, hg, hrep⟩, h.jobs, ?_⟩
    intro k c t0 g' hc hl
    rcases getElem?_append_cases hc with hc | ⟨_, rfl⟩
    · exact h.checks k c t0 g' hc hl
    · simp at hl
  | load k =>
    simp only at hs
    split at hs
    · simp at hs
    · rename_i c hc
      split at hs
      · simp at hs
      · simp only [Option.some.injEq] at hs; subst hs
        refine ⟨h.clock, ⟨g, hg, hrep⟩, h.jobs, ?_⟩
        intro k' c' t0 g' hc' hl hK
        rcases getElem?_set_cases' hc' with ⟨_, rfl⟩ | ⟨_, hc'⟩
        · simp only [Option.some.injEq, Prod.mk.injEq] at hl
          obtain ⟨hlo, rfl, rfl⟩ := hl
          refine CheckReq.init_inv U c.q (RepView U A c.q) _ fun role hr => ?_
          rw [hlo, hg, Option.getD_some]
          exact hrep _ (hK role hr) s.now (Int.le_refl _) hT
        · exact h.checks k' c' t0 g' hc' hl hK
  | chk k a =>
    simp only at hs
    split at hs
    · simp at hs
    · rename_i c hc
      split at hs
      · simp at hs
      · rename_i o' t0 g0 hl
        have key : ∀ cs, (∀ w, a ≠ .mutate w) →
            checkStep U c.q { c.cs with view := viewOf ((s.objs[o']?).getD Gache.empty) s.now } a = some cs →
            RoleInv U A K n1 T o { s with checks := s.checks.set k { c with cs := cs } } := by
          intro cs ha hcs
          refine ⟨h.clock, ⟨g, hg, hrep⟩, h.jobs, ?_⟩
          intro k' c' t0' g' hc' hl' hK
          rcases getElem?_set_cases' hc' with ⟨_, rfl⟩ | ⟨_, hc'⟩
          · simp only at hl' hK
            rw [hl] at hl'
            simp only [Option.some.injEq, Prod.mk.injEq] at hl'
            obtain ⟨rfl, rfl, rfl⟩ := hl'
            have hview : RepView U A c.q (viewOf ((s.objs[o']?).getD Gache.empty) s.now) := fun role hr => by
              rw [hg, Option.getD_some]
              exact hrep _ (hK role hr) s.now (Int.le_refl _) hT
            have hci := h.checks k c _ _ hc hl hK
            have hm : checkStep U c.q c.cs (.mutate (viewOf ((s.objs[o']?).getD Gache.empty) s.now)) =
              some { c.cs with view := viewOf ((s.objs[o']?).getD Gache.empty) s.now } := rfl
            refine (hci.step (a := .mutate _) hview hm).step ?_ hcs
            cases a with
            | mutate v => exact absurd rfl (ha v)
            | _ => trivial
          · exact h.checks k' c' t0' g' hc' hl' hK
        cases a with
        | mutate v => simp at hs
        | _ =>
          simp only at hs
          split at hs
          · simp at hs
          · rename_i cs hcs
            simp only [Option.some.injEq] at hs; subst hs
            exact key cs (by intro w; simp) hcs

end Athenz
