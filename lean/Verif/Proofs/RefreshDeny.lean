import Verif.Proofs.Alike
import Verif.Proofs.TaskInv
import Verif.Props.PolicydLocal

/-! What a refresh of an expired entry writes stays in the cache object, if no other refresh is at work at the same time: the denies. -/

namespace Athenz
open Spec

/-- The list holds the deny `b`, and denies come first in it. -/
def DenyIn (U : CaseFns) (b : RawAssertion) (o : Option (List Assertion)) : Prop :=
  ∃ l, o = some l ∧ DenyFirst l ∧ ∃ c y, y ∈ l ∧ SameTriple b c ∧ c.isDeny U = true ∧ c.conv U = some y

/-- Denies come first in the lists of the object. -/
def DenyFirstRp (g : Gache (List Assertion)) (k : Str) : Prop := ∀ e, g k = some e → DenyFirst e.val

theorem DenyFirstRp.get {g : Gache (List Assertion)} {k : Str} (h : DenyFirstRp g k) {t : Int} {l : List Assertion} (hl : g.get t k = some l) :
    DenyFirst l := by
  simp only [Gache.get] at hl
  split at hl
  · simp at hl
  · rename_i e he
    split at hl
    · simp only [Option.some.injEq] at hl; subst hl; exact h e he
    · simp at hl

theorem valid_earlier {t t' : Int} (h : t ≤ t') {e : GEntry (List Assertion)} (hv : Gache.valid t' e = true) : Gache.valid t e = true := by
  simp only [Gache.valid, Bool.or_eq_true, decide_eq_true_eq] at hv ⊢
  omega

theorem get_earlier {g : Gache (List Assertion)} {k : Str} {t t' : Int} (h : t ≤ t') {l : List Assertion} (hl : g.get t' k = some l) :
    g.get t k = some l := by
  simp only [Gache.get] at hl ⊢
  split at hl
  · simp at hl
  · split at hl
    · rename_i hv
      rw [if_pos (valid_earlier h hv)]; exact hl
    · simp at hl

/-- The object holds the deny up to `T`. -/
def HoldsDeny (U : CaseFns) (b : RawAssertion) (T : Int) (g : Gache (List Assertion)) : Prop := DenyIn U b (viewOf g T b.role)

theorem HoldsDeny.at {U : CaseFns} {b : RawAssertion} {T t : Int} {g : Gache (List Assertion)} (h : HoldsDeny U b T g) (ht : t ≤ T) :
    DenyIn U b (viewOf g t b.role) := by
  obtain ⟨l, h1, h2⟩ := h
  exact ⟨l, get_earlier ht h1, h2⟩

theorem DenyIn.insert {U : CaseFns} {b a : RawAssertion} {x : Assertion} {o : Option (List Assertion)} (hx : a.conv U = some x) (h : DenyIn U b o) :
    DenyIn U b (some (insertAss x o)) := by
  obtain ⟨l, rfl, h1, c, y, h2, h3⟩ := h
  exact ⟨_, rfl, insertAss_denyFirst (conv_effect_cases hx) (by simpa using h1), c, y, mem_insertAss.mpr (.inr ⟨l, rfl, h2⟩), h3⟩

theorem DenyIn.new {U : CaseFns} {b a : RawAssertion} {x : Assertion} {o : Option (List Assertion)} (hx : a.conv U = some x)
    (ht : SameTriple b a) (hd : a.isDeny U = true) (h : ∀ l, o = some l → DenyFirst l) : DenyIn U b (some (insertAss x o)) :=
  ⟨_, rfl, insertAss_denyFirst (conv_effect_cases hx) h, a, x, mem_insertAss.mpr (.inl rfl), ht, hd, hx⟩

/-- The document stays valid up to `T`. -/
def DocLasts (n1 T : Int) (d : PolicyDoc) : Prop := 0 ≤ n1 ∧ T < d.expires ∧ d.expires + T < 2 ^ 63

/-- A refresh that loses nothing the object holds. -/
def JobDeny (U : CaseFns) (b : RawAssertion) (n1 T now : Int) (H : Prop) : Job → Prop
  | .start _ => False
  | .fetching f => ∀ d, f = some d → DocLasts n1 T d
  | .merge d m => DocLasts n1 T d ∧ ∃ cons, MergeInv U d m cons
  | .fill ttl todo pc => (∀ n, now ≤ n → n ≤ T → ∀ (l : List Assertion) t, t ≤ T →
        Gache.valid t (⟨l, if ttl > 0 then wrap64 (n + ttl) else ttl⟩ : GEntry (List Assertion)) = true) ∧
      ∀ old, pc = some old → ∀ a rest, todo = a :: rest → a.role = b.role → (∀ l, old = some l → DenyFirst l) ∧ (H → DenyIn U b old)
  | .done _ => True

theorem JobDeny.mono {U : CaseFns} {b : RawAssertion} {n1 T now now' : Int} {H : Prop} {j : Job} (h : JobDeny U b n1 T now H j) (hn : now ≤ now') :
    JobDeny U b n1 T now' H j := by
  cases j with
  | fill ttl todo pc => exact ⟨fun n h1 h2 => h.1 n (by omega) h2, h.2⟩
  | _ => exact h

/-- The refresh with the document `d` is on the way to write the deny. -/
def JobBrings (U : CaseFns) (b : RawAssertion) (d : PolicyDoc) : Job → Prop
  | .start _ => False
  | .fetching f => f = some d
  | .merge d' _ => d' = d
  | .fill _ todo _ => ∃ c ∈ todo, SameTriple b c ∧ c.isDeny U = true
  | .done e => e ≠ none

/-- The deny gets through the merge of the policies of the document. -/
structure Brought (U : CaseFns) (b : RawAssertion) (d : PolicyDoc) : Prop where
  mem : b ∈ d.policies.flatten
  same : ∀ c ∈ d.policies.flatten, c.key = b.key → SameTriple b c
  safe : KeySafe U d b.key

theorem viewOf_set_self {g : Gache (List Assertion)} {n t : Int} {k : Str} {l : List Assertion} {ttl : Int}
    (hv : Gache.valid t (⟨l, if ttl > 0 then wrap64 (n + ttl) else ttl⟩ : GEntry (List Assertion)) = true) : viewOf (g.set n k l ttl) t k = some l := by
  simp only [viewOf, Gache.get, Gache.set, if_true]
  rw [hv]; simp

theorem viewOf_set_ne {g : Gache (List Assertion)} {n t : Int} {k k' : Str} {l : List Assertion} {ttl : Int} (h : k' ≠ k) :
    viewOf (g.set n k l ttl) t k' = viewOf g t k' := by
  simp [viewOf, Gache.get, Gache.set, h]

theorem updStep_deny {U : CaseFns} {b : RawAssertion} {n1 T : Int} {s s' : UpdState} {a : UpdAct} {j : Job} (hn1 : n1 ≤ s.now) (hT : s.now ≤ T)
    (hdf : DenyFirstRp s.rp b.role) (hjs : s.jobs = [j]) (hj : JobDeny U b n1 T s.now (HoldsDeny U b T s.rp) j) (ha : ∀ d, a ≠ .tick d)
    (hs : updStep U s a = some s') :
    DenyFirstRp s'.rp b.role ∧ (HoldsDeny U b T s.rp → HoldsDeny U b T s'.rp) ∧ ∃ j', s'.jobs = [j'] ∧
      JobDeny U b n1 T s.now (HoldsDeny U b T s'.rp) j' ∧
      ∀ d, Brought U b d → JobBrings U b d j → HoldsDeny U b T s'.rp ∨ JobBrings U b d j' := by
  have hset : ∀ (j' : Job), s.jobs.set 0 j' = [j'] := by intro j'; rw [hjs]; rfl
  have at0 : ∀ {i : Nat} {x : Job}, s.jobs[i]? = some x → i = 0 ∧ x = j := by
    intro i x hx
    rw [hjs] at hx
    cases i with
    | zero => simp at hx; exact ⟨rfl, hx.symm⟩
    | succ i => simp at hx
  cases a with
  | tick n => exact absurd rfl (ha n)
  | cancel =>
    simp only [updStep, Option.some.injEq] at hs; subst hs
    exact ⟨hdf, id, j, hjs, hj, fun d _ h => .inr h⟩
  | merge i n =>
    simp only [updStep] at hs
    split at hs
    · rename_i d' m hji
      obtain ⟨rfl, rfl⟩ := at0 hji
      split at hs
      · rename_i m' hm'
        simp only [Option.some.injEq] at hs; subst hs
        obtain ⟨h1, cons, hm⟩ := hj
        exact ⟨hdf, id, _, hset _, ⟨h1, hm.step hm'⟩, fun d _ h => .inr h⟩
      · simp at hs
    · simp at hs
  | job i order =>
    simp only [updStep] at hs
    split at hs
    · rename_i f hji
      obtain ⟨rfl, rfl⟩ := at0 hji
      exact hj.elim
    · rename_i hji
      obtain ⟨rfl, rfl⟩ := at0 hji
      simp only [Option.some.injEq] at hs; subst hs
      exact ⟨hdf, id, _, hset _, trivial, fun d _ _ => .inr (by simp [JobBrings])⟩
    · rename_i d hji
      obtain ⟨rfl, rfl⟩ := at0 hji
      simp only [Option.some.injEq] at hs; subst hs
      refine ⟨hdf, id, _, hset _, ⟨hj d rfl, _, mergeInit_inv U d⟩, fun d' _ h => .inr ?_⟩
      simpa [JobBrings] using h
    · rename_i d m hji
      obtain ⟨rfl, rfl⟩ := at0 hji
      obtain ⟨h1, cons, hm⟩ := hj
      split at hs
      · rename_i hfin
        split at hs
        · simp only [Option.some.injEq] at hs; subst hs
          exact ⟨hdf, id, _, hset _, trivial, fun d _ _ => .inr (by simp [JobBrings])⟩
        · rename_i hnf
          split at hs
          · rename_i hperm
            simp only [Option.some.injEq] at hs; subst hs
            have hmg := hm.merged hfin (by simpa using hnf)
            refine ⟨hdf, id, _, hset _, ⟨fun n h2 h3 l t ht => ?_, by simp⟩, ?_⟩
            · exact keepsUntil_valid h1.1 h1.2.1 h1.2.2 s.now n hn1 h2 h3 l t (by have := h1.2.1; omega)
            · rintro d' hb rfl
              obtain ⟨c, hc, hk, hd⟩ := hmg.deny b hb.mem hb.safe
              exact .inr ⟨c, hperm.mem_iff.mpr hc, hb.same c (hmg.sub c hc) hk, hd⟩
          · simp at hs
      · simp at hs
    · rename_i hji
      obtain ⟨rfl, rfl⟩ := at0 hji
      simp only [Option.some.injEq] at hs; subst hs
      refine ⟨hdf, id, _, hset _, trivial, ?_⟩
      rintro d _ ⟨c, hc, _⟩
      simp at hc
    · rename_i ttl c rest hji
      obtain ⟨rfl, rfl⟩ := at0 hji
      split at hs
      · rename_i x hx
        simp only [Option.some.injEq] at hs; subst hs
        refine ⟨hdf, id, _, hset _, ⟨hj.1, ?_⟩, fun d _ h => .inr h⟩
        intro old ho c' rest' he hk
        simp only [List.cons.injEq] at he
        obtain ⟨rfl, rfl⟩ := he
        simp only [Option.some.injEq] at ho
        subst ho
        refine ⟨fun l hl => ?_, fun hH => ?_⟩
        · rw [hk] at hl; exact hdf.get hl
        · rw [hk]; exact hH.at hT
      · simp only [Option.some.injEq] at hs; subst hs
        exact ⟨hdf, id, _, hset _, trivial, fun d _ _ => .inr (by simp [JobBrings])⟩
      · simp at hs
    · rename_i ttl c rest old hji
      obtain ⟨rfl, rfl⟩ := at0 hji
      split at hs
      · rename_i x hx
        have hx := newAssertion_conv hx
        simp only [Option.some.injEq] at hs; subst hs
        obtain ⟨h1, h2⟩ := hj
        have hv := h1 s.now (Int.le_refl _) hT (insertAss x old) T (Int.le_refl _)
        refine ⟨?_, ?_, _, hset _, ⟨h1, by simp⟩, ?_⟩
        · intro e he
          simp only [Gache.set] at he
          split at he
          · rename_i hk
            simp only [Option.some.injEq] at he; subst he
            exact insertAss_denyFirst (conv_effect_cases hx) (h2 old rfl c rest rfl hk.symm).1
          · exact hdf e he
        · intro hH
          by_cases hk : c.role = b.role
          · unfold HoldsDeny
            rw [← hk, viewOf_set_self hv]
            exact ((h2 old rfl c rest rfl hk).2 hH).insert hx
          · unfold HoldsDeny
            rw [viewOf_set_ne (Ne.symm hk)]; exact hH
        · rintro d _ ⟨c', hc', ht, hd⟩
          rcases List.mem_cons.mp hc' with rfl | hc'
          · left
            unfold HoldsDeny
            rw [← ht.1, viewOf_set_self hv]
            exact DenyIn.new hx ht hd (h2 old rfl c' rest rfl ht.1).1
          · exact .inr ⟨c', hc', ht, hd⟩
      · simp at hs
    · simp at hs

/-- The goroutine writes into the cache object. -/
def Job.writes : Job → Bool
  | .fill .. => true
  | _ => false

/-- At most one of the tasks writes into the object. -/
def AloneAt (o : Nat) (s : PdState) : Prop :=
  ∀ (i i' : Nat) (t t' : Task), s.tasks[i]? = some t → s.tasks[i']? = some t' → t.obj = o → t'.obj = o → t.jobs.any Job.writes = true →
    t'.jobs.any Job.writes = true → i = i'

/-- What a goroutine that does not write has to satisfy does not depend on the object. -/
theorem JobDeny.still {U : CaseFns} {b : RawAssertion} {n1 T now : Int} {H H' : Prop} {j : Job} (h : JobDeny U b n1 T now H j) (hw : j.writes = false) :
    JobDeny U b n1 T now H' j := by
  cases j with
  | fill ttl todo pc => simp [Job.writes] at hw
  | _ => exact h

/-- A goroutine that does not write leaves the object alone. -/
theorem updStep_still {U : CaseFns} {s s' : UpdState} {a : UpdAct} {j : Job} (hjs : s.jobs = [j]) (hw : j.writes = false)
    (hs : updStep U s a = some s') : s'.rp = s.rp := by
  have at0 : ∀ {i : Nat} {x : Job}, s.jobs[i]? = some x → x = j := by
    intro i x hx
    rw [hjs] at hx
    cases i with
    | zero => simp at hx; exact hx.symm
    | succ i => simp at hx
  cases a with
  | tick n => simp only [updStep, Option.some.injEq] at hs; subst hs; rfl
  | cancel => simp only [updStep, Option.some.injEq] at hs; subst hs; rfl
  | merge i n =>
    simp only [updStep] at hs
    split at hs
    · split at hs
      · simp only [Option.some.injEq] at hs; subst hs; rfl
      · simp at hs
    · simp at hs
  | job i order =>
    cases hji : s.jobs[i]? with
    | none => simp [updStep, hji] at hs
    | some x =>
      obtain rfl := at0 hji
      cases x with
      | fill ttl todo pc => simp [Job.writes] at hw
      | start f => simp only [updStep, hji] at hs; split at hs <;> (simp only [Option.some.injEq] at hs; subst hs; rfl)
      | fetching f => cases f <;> (simp only [updStep, hji, Option.some.injEq] at hs; subst hs; rfl)
      | done e => simp [updStep, hji] at hs
      | merge d m =>
        simp only [updStep, hji] at hs
        split at hs
        · split at hs
          · simp only [Option.some.injEq] at hs; subst hs; rfl
          · split at hs
            · simp only [Option.some.injEq] at hs; subst hs; rfl
            · simp at hs
        · simp at hs

/-- What holds about the object `o` from a moment on at which no task was writing into it; once refresh number `i0` has begun (`B`), the deny is in
the object or on the way to it. -/
structure DenyInv (U : CaseFns) (b : RawAssertion) (d : PolicyDoc) (n1 T : Int) (o i0 : Nat) (B : Prop) (s : PdState) : Prop where
  clock : n1 ≤ s.now
  obj : ∃ g, s.objs[o]? = some g ∧ DenyFirstRp g b.role ∧
    (∀ (i : Nat) (t : Task), s.tasks[i]? = some t → t.obj = o → t.allDone = true ∨ ∃ j, t.jobs = [j] ∧ JobDeny U b n1 T s.now (HoldsDeny U b T g) j) ∧
    (B → HoldsDeny U b T g ∨ ∃ t j, s.tasks[i0]? = some t ∧ t.obj = o ∧ t.jobs = [j] ∧ JobBrings U b d j)

theorem updStep_ended {U : CaseFns} {s s' : UpdState} {a : UpdAct} (h : s.jobs.all (fun j => match j with | .done _ => true | _ => false) = true)
    (ha : ∀ d, a ≠ .tick d) (hs : updStep U s a = some s') : s'.jobs = s.jobs ∧ s'.rp = s.rp := by
  have hd : ∀ {i : Nat} {x : Job}, s.jobs[i]? = some x → ∃ e, x = .done e := by
    intro i x hx
    have := List.all_eq_true.mp h x (List.mem_of_getElem? hx)
    cases x <;> simp_all
  cases a with
  | tick n => exact absurd rfl (ha n)
  | cancel => simp only [updStep, Option.some.injEq] at hs; subst hs; exact ⟨rfl, rfl⟩
  | merge i n =>
    simp only [updStep] at hs
    split at hs
    · rename_i hji; obtain ⟨e, he⟩ := hd hji; simp at he
    · simp at hs
  | job i order =>
    cases hji : s.jobs[i]? with
    | none => simp [updStep, hji] at hs
    | some x =>
      obtain ⟨e, rfl⟩ := hd hji
      simp [updStep, hji] at hs

theorem DenyInv.step {U : CaseFns} {b : RawAssertion} {d : PolicyDoc} {n1 T : Int} {o i0 : Nat} {B : Prop} {s s' : PdState} (h : DenyInv U b d n1 T o i0 B s)
    (hb : Brought U b d) (hT : s.now ≤ T) {a : PdAct} (hal : AloneAt o s)
    (hgot : ∀ n d', a = .hook n (some d') → s.live = o → DocLasts n1 T d') (hs : pdStep U s a = some s') : DenyInv U b d n1 T o i0 B s' := by
  unfold pdStep at hs
  split at hs
  · simp at hs
  obtain ⟨g, hg, hdf, hjobs, hbr⟩ := h.obj
  have hlt := lt_of_getElem? hg
  have hck := h.clock
  cases a with
  | tick n =>
    simp only [Option.some.injEq] at hs; subst hs
    refine ⟨by simp only; omega, g, hg, hdf, fun i t ht ho => ?_, hbr⟩
    rcases hjobs i t ht ho with h1 | ⟨j, h1, h2⟩
    · exact .inl h1
    · exact .inr ⟨j, h1, h2.mono (by simp only; omega)⟩
  | update fetch =>
    simp only [Option.some.injEq] at hs; subst hs
    refine ⟨hck, g, by simp only; rw [List.getElem?_append_left hlt]; exact hg, hdf, ?_, ?_⟩
    · intro i t ht ho
      rcases getElem?_append_cases ht with ht | ⟨_, rfl⟩
      · exact hjobs i t ht ho
      · simp only at ho; omega
    · intro hB
      rcases hbr hB with h1 | ⟨t, j, h1, h2⟩
      · exact .inl h1
      · exact .inr ⟨t, j, by simp only; rw [List.getElem?_append_left (lt_of_getElem? h1)]; exact h1, h2⟩
  | hook n f =>
    simp only at hs
    split at hs
    · simp at hs
    · split at hs
      · simp only [Option.some.injEq] at hs; subst hs
        refine ⟨hck, g, hg, hdf, ?_, ?_⟩
        · intro i t ht ho
          rcases getElem?_append_cases ht with ht | ⟨_, rfl⟩
          · exact hjobs i t ht ho
          · exact .inr ⟨_, rfl, fun d' hd' => hgot n d' (by rw [hd']) ho⟩
        · intro hB
          rcases hbr hB with h1 | ⟨t, j, h1, h2⟩
          · exact .inl h1
          · exact .inr ⟨t, j, by simp only; rw [List.getElem?_append_left (lt_of_getElem? h1)]; exact h1, h2⟩
      · simp only [Option.some.injEq] at hs; subst hs
        exact ⟨hck, g, hg, hdf, hjobs, hbr⟩
  | task i a =>
    simp only at hs
    split at hs
    · simp at hs
    · rename_i t ht
      have key : ∀ u, (∀ d, a ≠ .tick d) → updStep U (s.taskView t) a = some u →
          DenyInv U b d n1 T o i0 B { s with objs := s.objs.set t.obj u.rp, tasks := s.tasks.set i { t with cancelled := u.cancelled, jobs := u.jobs } } := by
        intro u ha hu
        by_cases hto : t.obj = o
        · have htv : (s.taskView t).rp = g := by simp [PdState.taskView, hto, hg]
          rcases hjobs i t ht hto with hd | ⟨j, hj1, hj2⟩
          · obtain ⟨h1, h2⟩ := updStep_ended (s := s.taskView t) hd ha hu
            rw [htv] at h2
            refine ⟨hck, g, by simp only; rw [hto, List.getElem?_set_self hlt, h2], hdf, ?_, ?_⟩
            · intro i' t' ht' ho'
              rcases getElem?_set_cases' ht' with ⟨_, rfl⟩ | ⟨_, ht'⟩
              · left
                simp only [Task.allDone, h1]
                exact hd
              · exact hjobs i' t' ht' ho'
            · intro hB
              rcases hbr hB with h3 | ⟨t', j, h3, h4, h5, h6⟩
              · exact .inl h3
              · by_cases hi : i = i0
                · subst hi
                  rw [ht] at h3
                  obtain rfl := Option.some.inj h3
                  refine .inr ⟨{ t with cancelled := u.cancelled, jobs := u.jobs }, j, by simp only; rw [List.getElem?_set_self (lt_of_getElem? ht)], h4, ?_, h6⟩
                  simp only; rw [h1]; exact h5
                · exact .inr ⟨t', j, by simp only; rw [List.getElem?_set_ne hi]; exact h3, h4, h5, h6⟩
          · obtain ⟨h1, h2, j', h3, h4, h5⟩ := updStep_deny (U := U) (b := b) (n1 := n1) (T := T) (s := s.taskView t) (a := a) (j := j) hck hT
              (by rw [htv]; exact hdf) hj1 (by rw [htv]; exact hj2) ha hu
            refine ⟨hck, u.rp, by simp only; rw [hto, List.getElem?_set_self hlt], h1, ?_, ?_⟩
            · intro i' t' ht' ho'
              rcases getElem?_set_cases' ht' with ⟨_, rfl⟩ | ⟨hne, ht'⟩
              · exact .inr ⟨j', h3, h4⟩
              · rcases hjobs i' t' ht' ho' with h6 | ⟨j2, h6, h7⟩
                · exact .inl h6
                · refine .inr ⟨j2, h6, ?_⟩
                  cases hw2 : j2.writes with
                  | false => exact h7.still hw2
                  | true =>
                    cases hw1 : j.writes with
                    | true => exact absurd (hal i i' t t' ht ht' hto ho' (by rw [hj1]; simpa using hw1) (by rw [h6]; simpa using hw2)) hne
                    | false =>
                      have := updStep_still (s := s.taskView t) hj1 hw1 hu
                      rw [htv] at this
                      rw [this]; exact h7
            · intro hB
              rcases hbr hB with h6 | ⟨t', j0, h6, h7, h8, h9⟩
              · exact .inl (h2 (by rw [htv]; exact h6))
              · by_cases hi : i = i0
                · subst hi
                  rw [ht] at h6
                  obtain rfl := Option.some.inj h6
                  rw [hj1] at h8
                  simp only [List.cons.injEq, and_true] at h8
                  subst h8
                  rcases h5 d hb h9 with h10 | h10
                  · exact .inl h10
                  · exact .inr ⟨{ t with cancelled := u.cancelled, jobs := u.jobs }, j', by simp only; rw [List.getElem?_set_self (lt_of_getElem? ht)], h7, h3, h10⟩
                · exact .inr ⟨t', j0, by simp only; rw [List.getElem?_set_ne hi]; exact h6, h7, h8, h9⟩
        · refine ⟨hck, g, by simp only; rw [List.getElem?_set_ne hto]; exact hg, hdf, ?_, ?_⟩
          · intro i' t' ht' ho'
            rcases getElem?_set_cases' ht' with ⟨_, rfl⟩ | ⟨_, ht'⟩
            · exact absurd ho' hto
            · exact hjobs i' t' ht' ho'
          · intro hB
            rcases hbr hB with h3 | ⟨t', j, h3, h4, h5⟩
            · exact .inl h3
            · refine .inr ⟨t', j, ?_, h4, h5⟩
              simp only
              rw [List.getElem?_set_ne]
              · exact h3
              · rintro rfl
                rw [ht] at h3
                exact hto (Option.some.inj h3 ▸ h4)
      cases a with
      | tick d => simp at hs
      | _ =>
        simp only at hs
        split at hs
        · simp at hs
        · rename_i u hu
          simp only [Option.some.injEq] at hs; subst hs
          exact key u (by intro d; simp) hu
  | finish i =>
    simp only at hs
    split at hs
    · simp at hs
    · rename_i t ht
      have hj : ∀ r l, DenyInv U b d n1 T o i0 B { s with live := l, tasks := s.tasks.set i { t with ret := r } } := fun r l =>
        ⟨hck, g, hg, hdf, by
          intro i' t' ht' ho'
          rcases getElem?_set_cases' ht' with ⟨_, rfl⟩ | ⟨_, ht'⟩
          · exact hjobs i t ht ho'
          · exact hjobs i' t' ht' ho', by
          intro hB
          rcases hbr hB with h3 | ⟨t', j, h3, h4, h5⟩
          · exact .inl h3
          · right
            by_cases hi : i = i0
            · subst hi
              rw [ht] at h3
              obtain rfl := Option.some.inj h3
              exact ⟨{ t with ret := r }, j, by simp only; rw [List.getElem?_set_self (lt_of_getElem? ht)], h4, h5⟩
            · exact ⟨t', j, by simp only; rw [List.getElem?_set_ne hi]; exact h3, h4, h5⟩⟩
      split at hs
      · split at hs
        · simp only [Option.some.injEq] at hs; subst hs; exact hj _ _
        · simp only [Option.some.injEq] at hs; subst hs; exact hj _ s.live
      · simp at hs
  | abort i =>
    simp only at hs
    split at hs
    · simp at hs
    · rename_i t ht
      split at hs
      · simp only [Option.some.injEq] at hs; subst hs
        refine ⟨hck, g, hg, hdf, ?_, ?_⟩
        · intro i' t' ht' ho'
          rcases getElem?_set_cases' ht' with ⟨_, rfl⟩ | ⟨_, ht'⟩
          · exact hjobs i t ht ho'
          · exact hjobs i' t' ht' ho'
        · intro hB
          rcases hbr hB with h3 | ⟨t', j, h3, h4, h5⟩
          · exact .inl h3
          · right
            by_cases hi : i = i0
            · subst hi
              rw [ht] at h3
              obtain rfl := Option.some.inj h3
              exact ⟨{ t with ret := some false }, j, by simp only; rw [List.getElem?_set_self (lt_of_getElem? ht)], h4, h5⟩
            · exact ⟨t', j, by simp only; rw [List.getElem?_set_ne hi]; exact h3, h4, h5⟩
      · simp at hs
  | expire o' k =>
    simp only at hs
    split at hs
    · split at hs
      · simp at hs
      · rename_i g' hg'
        split at hs
        · simp at hs
        · rename_i e he
          split at hs
          · simp at hs
          · rename_i hv
            simp only [Option.some.injEq] at hs; subst hs
            by_cases ho : o' = o
            · subst ho
              rw [hg] at hg'
              obtain rfl := Option.some.inj hg'
              have hsame : HoldsDeny U b T (g.delete k) ↔ HoldsDeny U b T g := by
                have := sameFrom_delete (now := s.now) he (by simpa using hv) T hT b.role
                unfold HoldsDeny viewOf
                rw [this]
              refine ⟨hck, g.delete k, by simp only; rw [List.getElem?_set_self hlt], ?_, ?_, ?_⟩
              · intro e' he'
                simp only [Gache.delete] at he'
                split at he'
                · simp at he'
                · exact hdf e' he'
              · rw [hsame]; exact hjobs
              · rw [hsame]; exact hbr
            · exact ⟨hck, g, by simp only; rw [List.getElem?_set_ne ho]; exact hg, hdf, hjobs, hbr⟩
    · simp at hs
  | check q =>
    simp only [Option.some.injEq] at hs; subst hs
    exact ⟨hck, g, hg, hdf, hjobs, hbr⟩
  | load k =>
    simp only at hs
    split at hs
    · simp at hs
    · split at hs
      · simp at hs
      · simp only [Option.some.injEq] at hs; subst hs
        exact ⟨hck, g, hg, hdf, hjobs, hbr⟩
  | chk k a =>
    simp only at hs
    split at hs
    · simp at hs
    · split at hs
      · simp at hs
      · cases a with
        | mutate v => simp at hs
        | _ =>
          simp only at hs
          split at hs
          · simp at hs
          · simp only [Option.some.injEq] at hs; subst hs
            exact ⟨hck, g, hg, hdf, hjobs, hbr⟩

theorem DenyInv.run {U : CaseFns} {b : RawAssertion} {d : PolicyDoc} {n1 T : Int} {o i0 : Nat} {B : Prop} {as : List PdAct} {s s' : PdState}
    (h : DenyInv U b d n1 T o i0 B s) (hb : Brought U b d) (hT : s'.now ≤ T)
    (hal : ∀ as1 as2 sm, as = as1 ++ as2 → pdRun U s as1 = some sm → AloneAt o sm)
    (hgot : ∀ n d', .hook n (some d') ∈ as → DocLasts n1 T d') (hs : pdRun U s as = some s') : DenyInv U b d n1 T o i0 B s' := by
  induction as generalizing s with
  | nil => simp only [pdRun, Option.some.injEq] at hs; subst hs; exact h
  | cons a as ih =>
    have hnow := pdRun_now_le hs
    simp only [pdRun] at hs
    split at hs
    · simp at hs
    · rename_i s1 hs1
      refine ih (h.step hb (by omega) (hal [] (a :: as) s rfl rfl) (fun n d' he _ => hgot n d' (by rw [he]; simp)) hs1) ?_
        (fun n d' hm => hgot n d' (List.mem_cons_of_mem _ hm)) hs
      intro as1 as2 sm he hr
      exact hal (a :: as1) as2 sm (by rw [he]; rfl) (by simp only [pdRun, hs1]; exact hr)

/-- The check has read only contents of the object `o` that hold the deny. -/
def DenyChk (U : CaseFns) (b : RawAssertion) (o k : Nat) (q : CheckReq) (s : PdState) : Prop :=
  ∃ c, s.checks[k]? = some c ∧ c.q = q ∧ (∃ t0 g, c.loaded = some (o, t0, g)) ∧ CheckInv U q (fun v => DenyIn U b (v b.role)) c.cs

theorem DenyChk.step {U : CaseFns} {b : RawAssertion} {T : Int} {o k : Nat} {q : CheckReq} {s s' : PdState} (h : DenyChk U b o k q s) {g : Gache (List Assertion)}
    (hg : s.objs[o]? = some g) (hh : HoldsDeny U b T g) (hT : s.now ≤ T) {a : PdAct} (hs : pdStep U s a = some s') : DenyChk U b o k q s' := by
  obtain ⟨c, hc, hq, hl, hi⟩ := h
  have same : s'.checks = s.checks → DenyChk U b o k q s' := fun he => ⟨c, by rw [he]; exact hc, hq, hl, hi⟩
  unfold pdStep at hs
  split at hs
  · simp at hs
  cases a with
  | tick d => simp only [Option.some.injEq] at hs; subst hs; exact same rfl
  | update fetch => simp only [Option.some.injEq] at hs; subst hs; exact same rfl
  | hook j f =>
    simp only at hs
    split at hs
    · simp at hs
    · split at hs <;> (simp only [Option.some.injEq] at hs; subst hs; exact same rfl)
  | task i a =>
    simp only at hs
    split at hs
    · simp at hs
    · cases a with
      | tick d => simp at hs
      | _ =>
        simp only at hs
        split at hs
        · simp at hs
        · simp only [Option.some.injEq] at hs; subst hs; exact same rfl
  | finish i =>
    simp only at hs
    split at hs
    · simp at hs
    · split at hs
      · split at hs <;> (simp only [Option.some.injEq] at hs; subst hs; exact same rfl)
      · simp at hs
  | abort i =>
    simp only at hs
    split at hs
    · simp at hs
    · split at hs
      · simp only [Option.some.injEq] at hs; subst hs; exact same rfl
      · simp at hs
  | expire o' k =>
    simp only at hs
    split at hs
    · split at hs
      · simp at hs
      · split at hs
        · simp at hs
        · split at hs
          · simp at hs
          · simp only [Option.some.injEq] at hs; subst hs; exact same rfl
    · simp at hs
  | check q' =>
    simp only [Option.some.injEq] at hs; subst hs
    exact ⟨c, by simp only; rw [List.getElem?_append_left (lt_of_getElem? hc)]; exact hc, hq, hl, hi⟩
  | load k' =>
    simp only at hs
    split at hs
    · simp at hs
    · rename_i c' hc'
      split at hs
      · simp at hs
      · rename_i hn
        simp only [Option.some.injEq] at hs; subst hs
        refine ⟨c, ?_, hq, hl, hi⟩
        simp only
        rw [List.getElem?_set_ne]
        · exact hc
        · rintro rfl
          rw [hc] at hc'
          obtain rfl := Option.some.inj hc'
          obtain ⟨t0, g0, hl⟩ := hl
          simp [hl] at hn
  | chk k' a =>
    simp only at hs
    split at hs
    · simp at hs
    · rename_i c' hc'
      split at hs
      · simp at hs
      · rename_i o' t0 g0 hl'
        have key : ∀ cs, (∀ w, a ≠ .mutate w) →
            checkStep U c'.q { c'.cs with view := viewOf ((s.objs[o']?).getD Gache.empty) s.now } a = some cs →
            DenyChk U b o k q { s with checks := s.checks.set k' { c' with cs := cs } } := by
          intro cs ha hcs
          by_cases hk : k' = k
          · subst hk
            rw [hc] at hc'
            obtain rfl := Option.some.inj hc'
            obtain ⟨t1, g1, hl⟩ := hl
            rw [hl] at hl'
            simp only [Option.some.injEq, Prod.mk.injEq] at hl'
            obtain ⟨rfl, rfl, rfl⟩ := hl'
            refine ⟨{ c with cs := cs }, by simp only; rw [List.getElem?_set_self (lt_of_getElem? hc)], hq, ⟨t1, g1, hl⟩, ?_⟩
            subst hq
            have hview : DenyIn U b (viewOf ((s.objs[o]?).getD Gache.empty) s.now b.role) := by
              rw [hg, Option.getD_some]; exact hh.at hT
            have hm : checkStep U c.q c.cs (.mutate (viewOf ((s.objs[o]?).getD Gache.empty) s.now)) =
              some { c.cs with view := viewOf ((s.objs[o]?).getD Gache.empty) s.now } := rfl
            refine (hi.step (a := .mutate _) hview hm).step ?_ hcs
            cases a with
            | mutate v => exact absurd rfl (ha v)
            | _ => trivial
          · exact ⟨c, by simp only; rw [List.getElem?_set_ne hk]; exact hc, hq, hl, hi⟩
        cases a with
        | mutate v => simp at hs
        | _ =>
          simp only at hs
          split at hs
          · simp at hs
          · rename_i cs hcs
            simp only [Option.some.injEq] at hs; subst hs
            exact key cs (by intro w; simp) hcs

theorem DenyInv.held {U : CaseFns} {b : RawAssertion} {d : PolicyDoc} {n1 T : Int} {o i0 : Nat} {s : PdState} (h : DenyInv U b d n1 T o i0 True s)
    {t : Task} (ht : s.tasks[i0]? = some t) (hd : t.jobs = [.done none]) : ∃ g, s.objs[o]? = some g ∧ HoldsDeny U b T g := by
  obtain ⟨g, hg, _, _, hb⟩ := h.obj
  refine ⟨g, hg, ?_⟩
  rcases hb trivial with h1 | ⟨t', j, h1, _, h2, h3⟩
  · exact h1
  · rw [ht] at h1
    obtain rfl := Option.some.inj h1
    rw [hd] at h2
    simp only [List.cons.injEq, and_true] at h2
    subst h2
    simp [JobBrings] at h3

/-- A goroutine that has ended stays so. -/
theorem pdRun_ended {U : CaseFns} {as : List PdAct} {s s' : PdState} (hs : pdRun U s as = some s') {i : Nat} {t : Task} (ht : s.tasks[i]? = some t)
    (hd : t.jobs = [.done none]) : ∃ t', s'.tasks[i]? = some t' ∧ t'.jobs = [.done none] := by
  induction as generalizing s t with
  | nil => simp only [pdRun, Option.some.injEq] at hs; subst hs; exact ⟨t, ht, hd⟩
  | cons a as ih =>
    simp only [pdRun] at hs
    split at hs
    · simp at hs
    · rename_i s1 hs1
      obtain ⟨t', h1, _, _, _, _, _, h2⟩ := pdStep_task hs1 ht
      exact ih hs h1 (by rw [h2 (by simp [Task.allDone, hd]), hd])

theorem DenyChk.run {U : CaseFns} {b : RawAssertion} {d : PolicyDoc} {n1 T : Int} {o i0 k : Nat} {q : CheckReq} {as : List PdAct} {s s' : PdState}
    (hc : DenyChk U b o k q s) (h : DenyInv U b d n1 T o i0 True s) {t : Task} (ht : s.tasks[i0]? = some t) (hd : t.jobs = [.done none])
    (hb : Brought U b d) (hT : s'.now ≤ T)
    (hal : ∀ as1 as2 sm, as = as1 ++ as2 → pdRun U s as1 = some sm → AloneAt o sm)
    (hgot : ∀ n d', .hook n (some d') ∈ as → DocLasts n1 T d') (hs : pdRun U s as = some s') : DenyChk U b o k q s' := by
  induction as generalizing s t with
  | nil => simp only [pdRun, Option.some.injEq] at hs; subst hs; exact hc
  | cons a as ih =>
    have hnow := pdRun_now_le hs
    simp only [pdRun] at hs
    split at hs
    · simp at hs
    · rename_i s1 hs1
      obtain ⟨g, hg, hh⟩ := h.held ht hd
      obtain ⟨t', h1, _, _, _, _, _, h2⟩ := pdStep_task hs1 ht
      refine ih (hc.step hg hh (by omega) hs1) (h.step hb (by omega) (hal [] (a :: as) s rfl rfl) (fun n d' he _ => hgot n d' (by rw [he]; simp)) hs1)
        h1 (by rw [h2 (by simp [Task.allDone, hd]), hd]) ?_ (fun n d' hm => hgot n d' (List.mem_cons_of_mem _ hm)) hs
      intro as1 as2 sm he hr
      exact hal (a :: as1) as2 sm (by rw [he]; rfl) (by simp only [pdRun, hs1]; exact hr)

/-- Such a check does not grant. -/
theorem DenyChk.refused {U : CaseFns} {b : RawAssertion} {o k : Nat} {q : CheckReq} {s : PdState} (h : DenyChk U b o k q s) {c : Chk}
    (hc : s.checks[k]? = some c) {role : Str} (hr : role ∈ q.roles) (hap : Applies U b q.domain role q.action q.resource) (rs : List Str) :
    c.cs.coll ≠ .ret (.ok rs) := by
  intro hret
  obtain ⟨c', hc', rfl, _, hi⟩ := h
  rw [hc] at hc'
  obtain rfl := Option.some.inj hc'
  obtain ⟨_, os, h1, h2, _⟩ := hi.ret _ hret
  rw [← h1] at hr
  obtain ⟨o, ho, rfl⟩ := List.mem_map.mp hr
  obtain ⟨⟨v, ⟨l, hl, hdf, e, y, hy, hst, hd, hcv⟩, hv⟩, hne⟩ := h2 o ho
  have hrk : b.role = roleKey c.q.domain o.1 := hap.1
  have hap' : Applies U e c.q.domain o.1 c.q.action c.q.resource := by
    obtain ⟨h3, h4, h5⟩ := hst
    unfold Applies at hap ⊢
    rw [h3, h4, h5]; exact hap
  have hm := ((conv_applies hcv _ _ _ _).mp hap').2
  have : roleVerdict U c.q v o.1 = some (some .denyByPolicy) := by
    simp only [roleVerdict, ← hrk, hl, Option.bind_some]
    exact (firstMatch_denyFirst hdf).1.mpr ⟨y, hy, hm, by rw [conv_effect hcv, hd]; simp⟩
  exact hne .denyByPolicy (by rw [← hv, this])

/-- A call that has returned nil has done so for good. -/
theorem pdRun_retStays {U : CaseFns} {as : List PdAct} {s s' : PdState} (hs : pdRun U s as = some s') {i : Nat} {t : Task} (ht : s.tasks[i]? = some t)
    (hr : t.ret = some true) : ∃ t', s'.tasks[i]? = some t' ∧ t'.ret = some true := by
  induction as generalizing s t with
  | nil => simp only [pdRun, Option.some.injEq] at hs; subst hs; exact ⟨t, ht, hr⟩
  | cons a as ih =>
    simp only [pdRun] at hs
    split at hs
    · simp at hs
    · rename_i s2 hs2
      obtain ⟨t', h1, _, _, h2, _⟩ := pdStep_task hs2 ht
      exact ih hs h1 (by rw [h2 (by rw [hr]; simp), hr])

/-- Without a successful update the object in force stays the same. -/
theorem pdRun_live {U : CaseFns} {as : List PdAct} {s s' : PdState} (hs : pdRun U s as = some s')
    (hup : ∀ (i : Nat) (t' : Task), s'.tasks[i]? = some t' → t'.ret = some true → ∃ t, s.tasks[i]? = some t ∧ t.ret = some true) : s'.live = s.live := by
  induction as generalizing s with
  | nil => simp only [pdRun, Option.some.injEq] at hs; subst hs; rfl
  | cons a as ih =>
    simp only [pdRun] at hs
    split at hs
    · simp at hs
    · rename_i s1 hs1
      have hup1 : ∀ (i : Nat) (t' : Task), s1.tasks[i]? = some t' → t'.ret = some true → ∃ t, s.tasks[i]? = some t ∧ t.ret = some true := by
        intro i t' ht' hr
        obtain ⟨t2, h1, h2⟩ := pdRun_retStays hs ht' hr
        exact hup i t2 h1 h2
      have hlive : s1.live = s.live := by
        unfold pdStep at hs1
        split at hs1
        · simp at hs1
        cases a with
        | finish i =>
          simp only at hs1
          split at hs1
          · simp at hs1
          · rename_i t ht
            split at hs1
            · rename_i hcond
              split at hs1
              · simp only [Option.some.injEq] at hs1; subst hs1
                obtain ⟨t', h1, h2⟩ := hup1 i { t with ret := some true } (by simp only; rw [List.getElem?_set_self (lt_of_getElem? ht)]) rfl
                rw [ht] at h1
                obtain rfl := Option.some.inj h1
                simp [h2] at hcond
              · simp only [Option.some.injEq] at hs1; subst hs1; rfl
            · simp at hs1
        | chk k a =>
          simp only at hs1
          split at hs1
          · simp at hs1
          · split at hs1
            · simp at hs1
            · cases a with
              | mutate v => simp at hs1
              | _ =>
                simp only at hs1
                split at hs1
                · simp at hs1
                · simp only [Option.some.injEq] at hs1; subst hs1; rfl
        | task i a =>
          simp only at hs1
          split at hs1
          · simp at hs1
          · cases a with
            | tick d => simp at hs1
            | _ =>
              simp only at hs1
              split at hs1
              · simp at hs1
              · simp only [Option.some.injEq] at hs1; subst hs1; rfl
        | _ =>
          simp only at hs1
          repeat' split at hs1
          all_goals first
            | (simp only [Option.some.injEq] at hs1; subst hs1; rfl)
            | simp at hs1
      rw [ih hs, hlive]
      intro i t' ht' hr
      obtain ⟨t, h1, h2⟩ := hup i t' ht' hr
      obtain ⟨t1, h3, _, _, h4, _⟩ := pdStep_task hs1 h1
      exact ⟨t1, h3, by rw [h4 (by rw [h2]; simp), h2]⟩

end Athenz
