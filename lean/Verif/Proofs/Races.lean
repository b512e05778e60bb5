import Verif.Spec.Races

/-! # What happens before what (C88) -/

namespace Athenz

open Spec

theorem snoc_get {α : Type} {l : List α} {x y : α} {i : Nat} : (l ++ [x])[i]? = some y ↔ l[i]? = some y ∨ (i = l.length ∧ y = x) := by
  rw [List.getElem?_append]
  split
  · rename_i h
    constructor
    · exact .inl
    · rintro (h1 | ⟨h1, _⟩)
      · exact h1
      · omega
  · rename_i h
    have hn : l[i]? = none := by simp; omega
    rw [hn]
    constructor
    · intro h1
      have : i - l.length < 1 := by
        have := (List.getElem?_eq_some_iff.mp h1).1
        simpa using this
      refine .inr ⟨by omega, ?_⟩
      have h0 : i - l.length = 0 := by omega
      rw [h0] at h1
      simpa using h1.symm
    · rintro (h1 | ⟨h1, rfl⟩)
      · simp at h1
      · subst h1
        simp

theorem get_lt {α : Type} {l : List α} {y : α} {i : Nat} (h : l[i]? = some y) : i < l.length := (List.getElem?_eq_some_iff.mp h).1

theorem snoc_old {α : Type} {l : List α} {x y : α} {i : Nat} (h : l[i]? = some y) : (l ++ [x])[i]? = some y := snoc_get.mpr (.inl h)

theorem snoc_new {α : Type} {l : List α} {x : α} : (l ++ [x])[l.length]? = some x := snoc_get.mpr (.inr ⟨rfl, rfl⟩)

theorem snoc_lt {α : Type} {l : List α} {x y : α} {i : Nat} (h : (l ++ [x])[i]? = some y) (hi : i < l.length) : l[i]? = some y := by
  rcases snoc_get.mp h with h | ⟨h, _⟩
  · exact h
  · omega

section
variable {tr : List (Nat × Ev)}

theorem Spec.Edge.lt {i j : Nat} (h : Edge tr i j) : i < j := by cases h <;> assumption

theorem Spec.HB.lt {i j : Nat} (h : HB tr i j) : i < j := by
  induction h with
  | single h => exact h.lt
  | tail _ h ih => exact Nat.lt_trans ih h.lt

theorem Spec.Edge.mono {i j : Nat} (x : Nat × Ev) (h : Edge tr i j) : Edge (tr ++ [x]) i j := by
  cases h with
  | po h a b => exact .po h (snoc_old a) (snoc_old b)
  | fork h a b => exact .fork h (snoc_old a) (snoc_old b)
  | join h a b => exact .join h (snoc_old a) (snoc_old b)
  | sync h a b c d e => exact .sync h (snoc_old a) (snoc_old b) c d fun k k' e' h1 h2 h3 => e k k' e' h1 h2 (snoc_lt h3 (Nat.lt_trans h2 (get_lt b)))

theorem Spec.HB.mono {i j : Nat} (x : Nat × Ev) (h : HB tr i j) : HB (tr ++ [x]) i j := by
  induction h with
  | single h => exact .single (h.mono x)
  | tail _ h ih => exact .tail ih (h.mono x)

theorem Spec.Edge.back {i j : Nat} {x : Nat × Ev} (h : Edge (tr ++ [x]) i j) (hj : j < tr.length) : Edge tr i j := by
  have hi := h.lt
  have hi' : i < tr.length := by omega
  cases h with
  | po h a b => exact .po h (snoc_lt a hi') (snoc_lt b hj)
  | fork h a b => exact .fork h (snoc_lt a hi') (snoc_lt b hj)
  | join h a b => exact .join h (snoc_lt a hi') (snoc_lt b hj)
  | sync h a b c d e => exact .sync h (snoc_lt a hi') (snoc_lt b hj) c d fun k k' e' h1 h2 h3 => e k k' e' h1 h2 (snoc_old h3)

theorem Spec.HB.back {i j : Nat} {x : Nat × Ev} (h : HB (tr ++ [x]) i j) : j < tr.length → HB tr i j := by
  induction h with
  | single h => exact fun hj => .single (h.back hj)
  | tail _ h ih => exact fun hj => .tail (ih (Nat.lt_trans h.lt hj)) (h.back hj)

/-- Event `i` happens before whatever the goroutine does next, because of an event of the goroutine itself. -/
def PreE (tr : List (Nat × Ev)) (g i : Nat) : Prop := ∃ j e, tr[j]? = some (g, e) ∧ (i = j ∨ HB tr i j)

/-- Event `i` happens before whatever the goroutine does next. -/
def Pre (tr : List (Nat × Ev)) (g i : Nat) : Prop := ∃ j h e, tr[j]? = some (h, e) ∧ (i = j ∨ HB tr i j) ∧ (h = g ∨ e = .fork g)

theorem PreE.pre {g i : Nat} (h : PreE tr g i) : Pre tr g i := by
  obtain ⟨j, e, h1, h2⟩ := h
  exact ⟨j, g, e, h1, h2, .inl rfl⟩

theorem Pre.mono {g i : Nat} (x : Nat × Ev) (h : Pre tr g i) : Pre (tr ++ [x]) g i := by
  obtain ⟨j, h, e, h1, h2, h3⟩ := h
  exact ⟨j, h, e, snoc_old h1, h2.imp id (HB.mono x), h3⟩

theorem PreE.mono {g i : Nat} (x : Nat × Ev) (h : PreE tr g i) : PreE (tr ++ [x]) g i := by
  obtain ⟨j, e, h1, h2⟩ := h
  exact ⟨j, e, snoc_old h1, h2.imp id (HB.mono x)⟩

theorem Pre.hb {g i : Nat} {e : Ev} (h : Pre tr g i) : HB (tr ++ [(g, e)]) i tr.length := by
  obtain ⟨j, h, e', h1, h2, h3⟩ := h
  have hl := get_lt h1
  have hE : Edge (tr ++ [(g, e)]) j tr.length := by
    rcases h3 with rfl | rfl
    · exact .po hl (snoc_old h1) snoc_new
    · exact .fork hl (snoc_old h1) snoc_new
  rcases h2 with rfl | h2
  · exact .single hE
  · exact .tail (HB.mono _ h2) hE

theorem Pre.own {g i : Nat} {e : Ev} (h : Pre tr g i) : PreE (tr ++ [(g, e)]) g i := ⟨tr.length, e, snoc_new, .inr h.hb⟩

theorem PreE.last {g : Nat} {e : Ev} : PreE (tr ++ [(g, e)]) g tr.length := ⟨tr.length, e, snoc_new, .inl rfl⟩

theorem Pre.forked {g h i : Nat} (hp : Pre tr g i) : Pre (tr ++ [(g, .fork h)]) h i := ⟨tr.length, g, .fork h, snoc_new, .inr hp.hb, .inr rfl⟩

theorem PreE.joined {g h i : Nat} (hp : PreE tr h i) : Pre (tr ++ [(g, .join h)]) g i := by
  obtain ⟨j, e, h1, h2⟩ := hp
  have hE : Edge (tr ++ [(g, .join h)]) j tr.length := .join (get_lt h1) (snoc_old h1) snoc_new
  refine ⟨tr.length, g, .join h, snoc_new, .inr ?_, .inl rfl⟩
  rcases h2 with rfl | h2
  · exact .single hE
  · exact .tail (HB.mono _ h2) hE

/-- All plain writes of the variable happen before what the goroutine does next. -/
def Know (tr : List (Nat × Ev)) (g : Nat) (l : Loc) : Prop := ∀ i h, tr[i]? = some (h, .write l) → Pre tr g i

/-- All plain writes of `l` happen before the last atomic write of `x`. -/
def Pub (tr : List (Nat × Ev)) (x l : Loc) : Prop :=
  ∀ i h, tr[i]? = some (h, .write l) → ∃ j g e, tr[j]? = some (g, e) ∧ (e = .store x ∨ e = .swap x) ∧
    (∀ k k' e', j < k → tr[k]? = some (k', e') → e' ≠ .store x ∧ e' ≠ .swap x) ∧ (i = j ∨ HB tr i j)

theorem Know.mono {g : Nat} {l : Loc} {x : Nat × Ev} (h : Know tr g l) (hx : x.2 ≠ .write l) : Know (tr ++ [x]) g l := by
  intro i g' hi
  rcases snoc_get.mp hi with hi | ⟨_, hi⟩
  · exact (h i g' hi).mono x
  · exact absurd (by rw [← hi]) hx

theorem Know.own {g : Nat} {l l' : Loc} (h : Know tr g l) : Know (tr ++ [(g, .write l')]) g l := by
  intro i g' hi
  rcases snoc_get.mp hi with hi | ⟨hi, _⟩
  · exact (h i g' hi).mono _
  · exact hi ▸ PreE.last.pre

theorem Know.forked {g h : Nat} {l : Loc} (hk : Know tr g l) : Know (tr ++ [(g, .fork h)]) h l := by
  intro i g' hi
  rcases snoc_get.mp hi with hi | ⟨_, hi⟩
  · exact (hk i g' hi).forked
  · simp at hi

theorem Pub.mono {l x : Loc} {y : Nat × Ev} (h : Pub tr x l) (hy : y.2 ≠ .write l) (h1 : y.2 ≠ .store x) (h2 : y.2 ≠ .swap x) : Pub (tr ++ [y]) x l := by
  intro i g hi
  rcases snoc_get.mp hi with hi | ⟨_, hi⟩
  · obtain ⟨j, g, e, a, b, c, d⟩ := h i g hi
    refine ⟨j, g, e, snoc_old a, b, fun k k' e' hk hg => ?_, d.imp id (HB.mono y)⟩
    rcases snoc_get.mp hg with hg | ⟨_, hg⟩
    · exact c k k' e' hk hg
    · rw [← hg] at h1 h2
      exact ⟨h1, h2⟩
  · exact absurd (by rw [← hi]) hy

theorem Know.pub {g : Nat} {l x : Loc} {e : Ev} (h : Know tr g l) (he : e = .store x ∨ e = .swap x) : Pub (tr ++ [(g, e)]) x l := by
  intro i g' hi
  rcases snoc_get.mp hi with hi | ⟨_, hi⟩
  · refine ⟨tr.length, g, e, snoc_new, he, fun k k' e' hk hg => ?_, .inr (h i g' hi).hb⟩
    have := get_lt hg
    simp at this
    omega
  · simp only [Prod.mk.injEq] at hi
    rcases he with rfl | rfl <;> simp at hi

theorem Pub.known {g : Nat} {l x : Loc} {e : Ev} (h : Pub tr x l) (he : e = .load x ∨ e = .swap x) : Know (tr ++ [(g, e)]) g l := by
  intro i g' hi
  rcases snoc_get.mp hi with hi | ⟨_, hi⟩
  · obtain ⟨j, g1, e1, a, b, c, d⟩ := h i g' hi
    have hE : Edge (tr ++ [(g, e)]) j tr.length := by
      refine .sync (get_lt a) (snoc_old a) snoc_new b he fun k k' e' h1 h2 h3 => c k k' e' h1 (snoc_lt h3 h2)
    refine ⟨tr.length, g, e, snoc_new, .inr ?_, .inl rfl⟩
    rcases d with rfl | d
    · exact .single hE
    · exact .tail (HB.mono _ d) hE
  · simp only [Prod.mk.injEq] at hi
    rcases he with rfl | rfl <;> simp at hi

end

/-- Pointers, and what they point to in the beginning. -/
def Given (l : Loc) : Prop := l = .role ∨ (∃ d, l = .cache d) ∨ l = .box 0

/-- What a goroutine knows where it is. -/
def DPcOk (s : DState) (g : Nat) : DPc → Prop
  | .launch b _ _ => b < s.objs ∧ Know s.trace g (.box b)
  | .ready b => b < s.objs ∧ Know s.trace g (.box b)
  | .peek b n => b < s.objs ∧ Know s.trace g (.box b) ∧ n < s.objs
  | .swapped b old => b < s.objs ∧ Know s.trace g (.box b) ∧ old < s.objs ∧ Know s.trace g (.box old)
  | .peek2 b old n => b < s.objs ∧ Know s.trace g (.box b) ∧ old < s.objs ∧ Know s.trace g (.box old) ∧ n < s.objs
  | .checked n => n < s.objs ∧ Know s.trace g (.box n)
  | .body b _ => b < s.objs ∧ Know s.trace g (.box b)
  | .hasTag d => s.cache d ≠ none
  | .fallback d => s.cache d ≠ none
  | .tagged _ n => n < s.objs ∧ Know s.trace g (.pol n)
  | .ask _ (some n) => n < s.objs ∧ Know s.trace g (.pol n)
  | .got _ n => n < s.objs ∧ Know s.trace g (.pol n)
  | .fellBack _ n => n < s.objs ∧ Know s.trace g (.pol n)
  | .hooked _ n => n < s.objs
  | _ => True

/-- The pairs that can race at all. -/
def RaceKind (s : DState) (h : Nat) (e f : Ev) : Prop :=
  (∃ x, (x = .role ∨ ∃ d, x = .cache d) ∧ ((e = .read x ∧ (f = .store x ∨ f = .swap x)) ∨ (f = .read x ∧ (e = .store x ∨ e = .swap x)))) ∨
    ∃ n, e = .write (.box n) ∧ f = .read (.box n) ∧ h ∉ s.checks

structure DInv (s : DState) : Prop where
  objs : ∀ (i g : Nat) (e : Ev) (n : Nat), s.trace[i]? = some (g, e) → (Ev.loc e = some (.box n) ∨ Ev.loc e = some (.pol n)) → n < s.objs
  pos : 0 < s.objs
  live : ∀ g, s.pc g ≠ .none → g < s.gids
  evs : ∀ (i g : Nat) (e : Ev), s.trace[i]? = some (g, e) → g < s.gids
  ptr : ∀ g, s.pc g ≠ .none → ∀ l, Given l → Know s.trace g l
  roleLt : s.role < s.objs
  role : s.role = 0 ∨ Pub s.trace .role (.box s.role)
  cacheLt : ∀ d n, s.cache d = some n → n < s.objs
  cache : ∀ d n, s.cache d = some n → Pub s.trace (.cache d) (.pol n)
  pcs : ∀ g, DPcOk s g (s.pc g)
  atom : ∀ (i g : Nat) (e : Ev) (l : Loc), s.trace[i]? = some (g, e) → (e = .load l ∨ e = .store l ∨ e = .swap l) → l = .role ∨ ∃ d, l = .cache d
  checks : ∀ g ∈ s.checks, s.pc g = .check ∨ (∃ n, s.pc g = .checked n) ∨ s.pc g = .done
  checkEv : ∀ (i g : Nat) (e : Ev), g ∈ s.checks → s.trace[i]? = some (g, e) → e = .load .role ∨ ∃ n, e = .read (.box n)
  racing : ∀ i j g h e f, Racing s.trace i j g h e f → RaceKind s h e f

/-- What a goroutine knows stays, whatever others do. -/
theorem DPcOk.mono {s s' : DState} {x : Nat × Ev} {g : Nat} {p : DPc} (h : DPcOk s g p) (ht : s'.trace = s.trace ++ [x])
    (hw : ∀ l, x.2 = .write l → ∃ n, (l = .box n ∨ l = .pol n) ∧ s.objs ≤ n) (ho : s.objs ≤ s'.objs) (hc : ∀ d, s.cache d ≠ none → s'.cache d ≠ none) :
    DPcOk s' g p := by
  have hb : ∀ n, n < s.objs → Know s.trace g (.box n) → Know s'.trace g (.box n) := by
    intro n hn hk
    rw [ht]
    refine hk.mono fun hx => ?_
    obtain ⟨m, h1, h2⟩ := hw _ hx
    simp at h1
    omega
  have hp : ∀ n, n < s.objs → Know s.trace g (.pol n) → Know s'.trace g (.pol n) := by
    intro n hn hk
    rw [ht]
    refine hk.mono fun hx => ?_
    obtain ⟨m, h1, h2⟩ := hw _ hx
    simp at h1
    omega
  cases p with
  | ask d tp =>
    cases tp with
    | none => trivial
    | some n => exact ⟨Nat.lt_of_lt_of_le h.1 ho, hp _ h.1 h.2⟩
  | launch b t k => exact ⟨Nat.lt_of_lt_of_le h.1 ho, hb _ h.1 h.2⟩
  | ready b => exact ⟨Nat.lt_of_lt_of_le h.1 ho, hb _ h.1 h.2⟩
  | peek b n => exact ⟨Nat.lt_of_lt_of_le h.1 ho, hb _ h.1 h.2.1, Nat.lt_of_lt_of_le h.2.2 ho⟩
  | swapped b o => exact ⟨Nat.lt_of_lt_of_le h.1 ho, hb _ h.1 h.2.1, Nat.lt_of_lt_of_le h.2.2.1 ho, hb _ h.2.2.1 h.2.2.2⟩
  | peek2 b o n =>
    exact ⟨Nat.lt_of_lt_of_le h.1 ho, hb _ h.1 h.2.1, Nat.lt_of_lt_of_le h.2.2.1 ho, hb _ h.2.2.1 h.2.2.2.1, Nat.lt_of_lt_of_le h.2.2.2.2 ho⟩
  | checked n => exact ⟨Nat.lt_of_lt_of_le h.1 ho, hb _ h.1 h.2⟩
  | body b d => exact ⟨Nat.lt_of_lt_of_le h.1 ho, hb _ h.1 h.2⟩
  | hasTag d => exact hc d h
  | fallback d => exact hc d h
  | tagged d n => exact ⟨Nat.lt_of_lt_of_le h.1 ho, hp _ h.1 h.2⟩
  | got d n => exact ⟨Nat.lt_of_lt_of_le h.1 ho, hp _ h.1 h.2⟩
  | fellBack d n => exact ⟨Nat.lt_of_lt_of_le h.1 ho, hp _ h.1 h.2⟩
  | hooked d n => exact Nat.lt_of_lt_of_le h ho
  | _ => trivial

/-- A step with the event `e` of `g`, after which `g` is at `p`, and the goroutine that it started, if any, at `q`. -/
structure Emits (s s' : DState) (g : Nat) (e : Ev) (p q : DPc) : Prop where
  trace : s'.trace = s.trace ++ [(g, e)]
  here : s.pc g ≠ .none
  next : p ≠ .none
  fork : (∃ h, e = .fork h) → e = .fork s.gids ∧ q ≠ .none ∧ s'.gids = s.gids + 1 ∧ s'.pc = fun h => if h = s.gids then q else if h = g then p else s.pc h
  stay : (∀ h, e ≠ .fork h) → s'.gids = s.gids ∧ s'.pc = fun h => if h = g then p else s.pc h
  objs : s.objs ≤ s'.objs
  write : ∀ l, e = .write l → ∃ n, (l = .box n ∨ l = .pol n) ∧ s.objs ≤ n
  atom : ∀ l, (e = .load l ∨ e = .store l ∨ e = .swap l) → l = .role ∨ ∃ d, l = .cache d

/-- The invariant is kept by such steps. -/
theorem DInv.next {s s' : DState} {g : Nat} {e : Ev} {p q : DPc} (hi : DInv s) (hs : Emits s s' g e p q)
    (hloc : ∀ n, (Ev.loc e = some (.box n) ∨ Ev.loc e = some (.pol n)) → n < s'.objs)
    (hrl : s'.role < s'.objs) (hr : s'.role = 0 ∨ Pub s'.trace .role (.box s'.role))
    (hcl : ∀ d n, s'.cache d = some n → n < s'.objs) (hc : ∀ d n, s'.cache d = some n → Pub s'.trace (.cache d) (.pol n))
    (hcs : ∀ d, s.cache d ≠ none → s'.cache d ≠ none)
    (hp : DPcOk s' g p) (hq : (∃ h, e = .fork h) → DPcOk s' s.gids q)
    (hch : s'.checks = s.checks ∨ s'.checks = s.gids :: s.checks ∧ q = .check ∧ ∃ h, e = .fork h)
    (hcp : g ∈ s.checks → (p = .check ∨ (∃ n, p = .checked n) ∨ p = .done) ∧ (e = .load .role ∨ ∃ n, e = .read (.box n)))
    (hread : ∀ n, e = .read (.box n) ∨ e = .read (.pol n) → (e = .read (.box n) ∧ g ∉ s.checks) ∨ ∀ l, e = .read l → Know s.trace g l) :
    DInv s' := by
  have hgl := hi.live g hs.here
  have hgl' : s.gids ≤ s'.gids := by
    by_cases hf : ∃ h, e = .fork h
    · have := (hs.fork hf).2.2.1; omega
    · have := (hs.stay (by simpa using hf)).1; omega
  have hpc : ∀ h, s'.pc h ≠ s.pc h ∨ s'.pc h = s.pc h → (h = s.gids ∧ (∃ k, e = .fork k) ∧ s'.pc h = q) ∨ (h = g ∧ s'.pc h = p) ∨
      (h ≠ g ∧ s'.pc h = s.pc h) := by
    intro h _
    by_cases hf : ∃ h, e = .fork h
    · rw [(hs.fork hf).2.2.2]
      by_cases h1 : h = s.gids
      · exact .inl ⟨h1, hf, by simp [h1]⟩
      · by_cases h2 : h = g
        · exact .inr (.inl ⟨h2, by simp [h2]; intro he; omega⟩)
        · exact .inr (.inr ⟨h2, by simp [h1, h2]⟩)
    · rw [(hs.stay (by simpa using hf)).2]
      by_cases h2 : h = g
      · exact .inr (.inl ⟨h2, by simp [h2]⟩)
      · exact .inr (.inr ⟨h2, by simp [h2]⟩)
  have hpc := fun h => hpc h (Classical.or_iff_not_imp_left.mpr fun hn => Classical.byContradiction fun hm => hn hm)
  have hgiven : ∀ l, Given l → e ≠ .write l := by
    intro l hl he
    obtain ⟨n, h1, h2⟩ := hs.write l he
    have := hi.pos
    rcases hl with rfl | ⟨d, rfl⟩ | rfl
    · simp at h1
    · simp at h1
    · simp at h1; omega
  refine ⟨?_, Nat.lt_of_lt_of_le hi.pos hs.objs, ?_, ?_, ?_, hrl, hr, hcl, hc, ?_, ?_, ?_, ?_, ?_⟩
  · intro i k e' n hk hl
    rw [hs.trace] at hk
    rcases snoc_get.mp hk with hk | ⟨_, hk⟩
    · exact Nat.lt_of_lt_of_le (hi.objs i k e' n hk hl) hs.objs
    · simp only [Prod.mk.injEq] at hk
      rw [hk.2] at hl
      exact hloc n hl
  · intro h hh
    rcases hpc h with ⟨h1, h2, _⟩ | ⟨h1, _⟩ | ⟨_, h1⟩
    · have := (hs.fork h2).2.2.1; omega
    · omega
    · have := hi.live h (h1 ▸ hh); omega
  · intro i k e' hk
    rw [hs.trace] at hk
    rcases snoc_get.mp hk with hk | ⟨_, hk⟩
    · have := hi.evs i k e' hk; omega
    · simp only [Prod.mk.injEq] at hk
      omega
  · intro h hh l hl
    rw [hs.trace]
    rcases hpc h with ⟨h1, h2, _⟩ | ⟨h1, _⟩ | ⟨_, h1⟩
    · rw [(hs.fork h2).1, h1]
      exact (hi.ptr g hs.here l hl).forked
    · rw [h1]
      exact (hi.ptr g hs.here l hl).mono (hgiven l hl)
    · exact (hi.ptr h (h1 ▸ hh) l hl).mono (hgiven l hl)
  · intro h
    rcases hpc h with ⟨h1, h2, h3⟩ | ⟨h1, h3⟩ | ⟨_, h3⟩
    · rw [h3, h1]; exact hq h2
    · rw [h3, h1]; exact hp
    · rw [h3]
      exact (hi.pcs h).mono hs.trace hs.write hs.objs hcs
  · intro i k e' l hk hl
    rw [hs.trace] at hk
    rcases snoc_get.mp hk with hk | ⟨_, hk⟩
    · exact hi.atom i k e' l hk hl
    · simp only [Prod.mk.injEq] at hk
      exact hs.atom l (hk.2 ▸ hl)
  · intro h hh
    rcases hpc h with ⟨h1, h2, h3⟩ | ⟨h1, h3⟩ | ⟨_, h3⟩
    · rcases hch with hch | ⟨hch, hqc, _⟩
      · rw [hch] at hh
        have hn : s.pc h ≠ .none := by
          rcases hi.checks h hh with h | ⟨_, h⟩ | h <;> rw [h] <;> simp
        have := hi.live h hn
        omega
      · exact .inl (h3.trans hqc)
    · rw [h3]
      rcases hch with hch | ⟨hch, _⟩
      · rw [hch] at hh
        exact (hcp (h1 ▸ hh)).1
      · rw [hch] at hh
        rcases List.mem_cons.mp hh with hh | hh
        · omega
        · exact (hcp (h1 ▸ hh)).1
    · rw [h3]
      rcases hch with hch | ⟨hch, _, hf⟩
      · exact hi.checks h (hch ▸ hh)
      · rw [hch] at hh
        rcases List.mem_cons.mp hh with hh | hh
        · rename_i hne
          exfalso
          have h4 := (hs.fork hf).2.2.2
          have h5 := (hs.fork hf).2.1
          rw [h4, hh] at h3
          simp at h3
          have h6 : s.pc s.gids = .none := Classical.byContradiction fun hn => by have := hi.live _ hn; omega
          exact h5 (h3.trans h6)
        · exact hi.checks h hh
  · intro i h e' hh hk
    rw [hs.trace] at hk
    have hold : h ∈ s.checks ∨ h = s.gids := by
      rcases hch with hch | ⟨hch, _⟩
      · exact .inl (hch ▸ hh)
      · rw [hch] at hh
        exact (List.mem_cons.mp hh).symm
    rcases snoc_get.mp hk with hk | ⟨_, hk⟩
    · rcases hold with hold | hold
      · exact hi.checkEv i h e' hold hk
      · have := hi.evs i h e' hk; omega
    · simp only [Prod.mk.injEq] at hk
      rcases hold with hold | hold
      · rw [hk.1] at hold
        rw [hk.2]
        exact (hcp hold).2
      · omega
  · rintro i j k h e1 e2 ⟨hij, h1, h2, ⟨x, hx1, hx2⟩, hw, ha, hn⟩
    rw [hs.trace] at h1 h2 hn
    have hchk : ∀ h, h < s.gids → h ∉ s.checks → h ∉ s'.checks := by
      intro h hl hh
      rcases hch with hch | ⟨hch, _⟩
      · rwa [hch]
      · rw [hch]
        intro hm
        rcases List.mem_cons.mp hm with hm | hm
        · omega
        · exact hh hm
    rcases snoc_get.mp h2 with h2 | ⟨hj, h2'⟩
    · have h1 := snoc_lt h1 (Nat.lt_trans hij (get_lt h2))
      rcases hi.racing i j k h e1 e2 ⟨hij, h1, h2, ⟨x, hx1, hx2⟩, hw, ha, fun hb => hn (HB.mono _ hb)⟩ with hk | ⟨n, a, b, c⟩
      · exact .inl hk
      · exact .inr ⟨n, a, b, hchk h (hi.evs j h e2 h2) c⟩
    · subst hj
      obtain ⟨rfl, rfl⟩ := Prod.mk.inj h2'
      replace h1 := snoc_lt h1 hij
      -- the earlier event is a plain write of a pointer
      have hgv : ∀ l, Given l → e1 ≠ .write l := fun l hl he => hn ((hi.ptr h hs.here l hl i k (he ▸ h1)).hb)
      have hfresh : ∀ l, e2 ≠ .write l := by
        intro l he
        obtain ⟨n, hl, hle⟩ := hs.write l he
        have hx : x = l := by rw [he] at hx2; simpa [Ev.loc] using hx2.symm
        have := hi.objs i k e1 n h1 (by rw [hx1, hx]; rcases hl with rfl | rfl <;> simp)
        omega
      have hgiv : ∀ l, (l = .role ∨ ∃ d, l = .cache d) → Given l := by
        rintro l (rfl | ⟨d, rfl⟩)
        · exact .inl rfl
        · exact .inr (.inl ⟨d, rfl⟩)
      -- case on the two events
      cases e1 with
      | read y =>
        simp only [Ev.loc, Option.some.injEq] at hx1
        subst hx1
        cases e2 with
        | read z => exfalso; rcases hw with ⟨_, h | h | h⟩ | ⟨_, h | h | h⟩ <;> simp at h
        | load z => exfalso; rcases hw with ⟨_, h | h | h⟩ | ⟨_, h | h | h⟩ <;> simp at h
        | write z => exact absurd rfl (hfresh z)
        | store z =>
          simp only [Ev.loc, Option.some.injEq] at hx2
          subst hx2
          exact .inl ⟨z, hs.atom z (.inr (.inl rfl)), .inl ⟨rfl, .inl rfl⟩⟩
        | swap z =>
          simp only [Ev.loc, Option.some.injEq] at hx2
          subst hx2
          exact .inl ⟨z, hs.atom z (.inr (.inr rfl)), .inl ⟨rfl, .inr rfl⟩⟩
        | _ => simp [Ev.loc] at hx2
      | write y =>
        simp only [Ev.loc, Option.some.injEq] at hx1
        subst hx1
        cases e2 with
        | read z =>
          simp only [Ev.loc, Option.some.injEq] at hx2
          subst hx2
          cases z with
          | role => exact absurd rfl (hgv _ (.inl rfl))
          | cache d => exact absurd rfl (hgv _ (.inr (.inl ⟨d, rfl⟩)))
          | box n =>
            rcases hread n (.inl rfl) with ⟨_, hh⟩ | hh
            · exact .inr ⟨n, rfl, rfl, hchk h hgl hh⟩
            · exact absurd (hh _ rfl i k h1).hb hn
          | pol n =>
            rcases hread n (.inr rfl) with ⟨hh, _⟩ | hh
            · simp at hh
            · exact absurd (hh _ rfl i k h1).hb hn
        | write z => exact absurd rfl (hfresh z)
        | load z =>
          simp only [Ev.loc, Option.some.injEq] at hx2
          subst hx2
          exact absurd rfl (hgv _ (hgiv _ (hs.atom z (.inl rfl))))
        | store z =>
          simp only [Ev.loc, Option.some.injEq] at hx2
          subst hx2
          exact absurd rfl (hgv _ (hgiv _ (hs.atom z (.inr (.inl rfl)))))
        | swap z =>
          simp only [Ev.loc, Option.some.injEq] at hx2
          subst hx2
          exact absurd rfl (hgv _ (hgiv _ (hs.atom z (.inr (.inr rfl)))))
        | _ => simp [Ev.loc] at hx2
      | load y =>
        cases e2 with
        | read z => exfalso; rcases hw with ⟨_, h | h | h⟩ | ⟨_, h | h | h⟩ <;> simp at h
        | load z => exact absurd ⟨⟨y, .inl rfl⟩, ⟨z, .inl rfl⟩⟩ ha
        | write z => exact absurd rfl (hfresh z)
        | store z => exact absurd ⟨⟨y, .inl rfl⟩, ⟨z, .inr (.inl rfl)⟩⟩ ha
        | swap z => exact absurd ⟨⟨y, .inl rfl⟩, ⟨z, .inr (.inr rfl)⟩⟩ ha
        | _ => simp [Ev.loc] at hx2
      | store y =>
        simp only [Ev.loc, Option.some.injEq] at hx1
        subst hx1
        cases e2 with
        | read z =>
          simp only [Ev.loc, Option.some.injEq] at hx2
          subst hx2
          exact .inl ⟨z, hi.atom i k _ z h1 (.inr (.inl rfl)), .inr ⟨rfl, .inl rfl⟩⟩
        | load z => exact absurd ⟨⟨y, .inr (.inl rfl)⟩, ⟨z, .inl rfl⟩⟩ ha
        | write z => exact absurd rfl (hfresh z)
        | store z => exact absurd ⟨⟨y, .inr (.inl rfl)⟩, ⟨z, .inr (.inl rfl)⟩⟩ ha
        | swap z => exact absurd ⟨⟨y, .inr (.inl rfl)⟩, ⟨z, .inr (.inr rfl)⟩⟩ ha
        | _ => simp [Ev.loc] at hx2
      | swap y =>
        simp only [Ev.loc, Option.some.injEq] at hx1
        subst hx1
        cases e2 with
        | read z =>
          simp only [Ev.loc, Option.some.injEq] at hx2
          subst hx2
          exact .inl ⟨z, hi.atom i k _ z h1 (.inr (.inr rfl)), .inr ⟨rfl, .inr rfl⟩⟩
        | load z => exact absurd ⟨⟨y, .inr (.inr rfl)⟩, ⟨z, .inl rfl⟩⟩ ha
        | write z => exact absurd rfl (hfresh z)
        | store z => exact absurd ⟨⟨y, .inr (.inr rfl)⟩, ⟨z, .inr (.inl rfl)⟩⟩ ha
        | swap z => exact absurd ⟨⟨y, .inr (.inr rfl)⟩, ⟨z, .inr (.inr rfl)⟩⟩ ha
        | _ => simp [Ev.loc] at hx2
      | _ => simp [Ev.loc] at hx1

/-- Steps that write no pointer. -/
theorem DInv.plain {s s' : DState} {g : Nat} {e : Ev} {p q : DPc} (hi : DInv s) (hs : Emits s s' g e p q) (hst : ∀ x, e ≠ .store x ∧ e ≠ .swap x)
    (hloc : ∀ n, (Ev.loc e = some (.box n) ∨ Ev.loc e = some (.pol n)) → n < s'.objs) (hr : s'.role = s.role) (hc : s'.cache = s.cache)
    (hp : DPcOk s' g p) (hq : (∃ h, e = .fork h) → DPcOk s' s.gids q)
    (hch : s'.checks = s.checks ∨ s'.checks = s.gids :: s.checks ∧ q = .check ∧ ∃ h, e = .fork h)
    (hcp : g ∈ s.checks → (p = .check ∨ (∃ n, p = .checked n) ∨ p = .done) ∧ (e = .load .role ∨ ∃ n, e = .read (.box n)))
    (hread : ∀ n, e = .read (.box n) ∨ e = .read (.pol n) → (e = .read (.box n) ∧ g ∉ s.checks) ∨ ∀ l, e = .read l → Know s.trace g l) :
    DInv s' := by
  have hb : ∀ n, n < s.objs → e ≠ .write (.box n) ∧ e ≠ .write (.pol n) := by
    intro n hn
    constructor <;> intro he <;> obtain ⟨m, h1, h2⟩ := hs.write _ he <;> simp at h1 <;> omega
  refine hi.next hs hloc ?_ ?_ ?_ ?_ ?_ hp hq hch hcp hread
  · rw [hr]; exact Nat.lt_of_lt_of_le hi.roleLt hs.objs
  · rw [hr, hs.trace]
    exact hi.role.imp id fun h => h.mono (hb _ hi.roleLt).1 (hst _).1 (hst _).2
  · intro d n hd
    rw [hc] at hd
    exact Nat.lt_of_lt_of_le (hi.cacheLt d n hd) hs.objs
  · intro d n hd
    rw [hc] at hd
    rw [hs.trace]
    exact (hi.cache d n hd).mono (hb _ (hi.cacheLt d n hd)).2 (hst _).1 (hst _).2
  · intro d hd
    rwa [hc]

/-- A goroutine of a check is nowhere else. -/
theorem DInv.notCheck {s : DState} (hi : DInv s) {g : Nat} (h1 : s.pc g ≠ .check) (h2 : ∀ n, s.pc g ≠ .checked n) (h3 : s.pc g ≠ .done) : g ∉ s.checks := by
  intro h
  rcases hi.checks g h with h | ⟨n, h⟩ | h
  · exact h1 h
  · exact h2 n h
  · exact h3 h

theorem emits_plain {s s' : DState} {g : Nat} {e : Ev} {p : DPc} (q : DPc) (ht : s'.trace = s.trace ++ [(g, e)]) (hh : s.pc g ≠ .none) (hn : p ≠ .none)
    (hf : ∀ h, e ≠ .fork h) (hg : s'.gids = s.gids) (hp : s'.pc = fun h => if h = g then p else s.pc h) (ho : s.objs ≤ s'.objs)
    (hw : ∀ l, e = .write l → ∃ n, (l = .box n ∨ l = .pol n) ∧ s.objs ≤ n)
    (ha : ∀ l, (e = .load l ∨ e = .store l ∨ e = .swap l) → l = .role ∨ ∃ d, l = .cache d) : Emits s s' g e p q :=
  ⟨ht, hh, hn, fun ⟨h, he⟩ => absurd he (hf h), fun _ => ⟨hg, hp⟩, ho, hw, ha⟩

theorem emits_fork (s : DState) (g : Nat) (p q : DPc) (cs : List Nat) (hh : s.pc g ≠ .none) (hp : p ≠ .none) (hq : q ≠ .none) :
    Emits s { s.forkTo g p q with checks := cs } g (.fork s.gids) p q :=
  ⟨rfl, hh, hp, fun _ => ⟨rfl, hq, rfl, rfl⟩, fun h => absurd rfl (h _), Nat.le_refl _, fun l h => by simp at h, fun l h => by simp at h⟩

theorem DInv.fork {s : DState} (hi : DInv s) (g : Nat) (p q : DPc) (hh : s.pc g ≠ .none) (hg : g ∉ s.checks) (hp : p ≠ .none) (hq : q ≠ .none)
    (hpk : DPcOk (s.forkTo g p q) g p) (hqk : DPcOk (s.forkTo g p q) s.gids q) : DInv (s.forkTo g p q) :=
  hi.plain (emits_fork s g p q s.checks hh hp hq) (by simp) (by simp [Ev.loc]) rfl rfl hpk (fun _ => hqk) (.inl rfl) (fun h => absurd h hg) (by simp)

theorem DInv.emit {s : DState} (hi : DInv s) (g : Nat) (e : Ev) (p : DPc) (hh : s.pc g ≠ .none) (hg : g ∉ s.checks) (hp : p ≠ .none)
    (he : e = .start ∨ e = .finish ∨ (∃ k, e = .join k) ∨ (∃ l, e = .load l ∧ (l = .role ∨ ∃ d, l = .cache d)) ∨
      (∃ l, e = .read l ∧ ((l = .role ∨ ∃ d, l = .cache d) ∨ (∃ n, n < s.objs ∧ l = .box n) ∨ ∃ n, n < s.objs ∧ l = .pol n ∧ Know s.trace g l)))
    (hpk : DPcOk (s.emit g e p) g p) : DInv (s.emit g e p) := by
  have hs : Emits s (s.emit g e p) g e p .none := by
    refine emits_plain _ rfl hh hp ?_ rfl rfl (Nat.le_refl _) ?_ ?_
    · rcases he with rfl | rfl | ⟨_, rfl⟩ | ⟨_, rfl, _⟩ | ⟨_, rfl, _⟩ <;> simp
    · rcases he with rfl | rfl | ⟨_, rfl⟩ | ⟨_, rfl, _⟩ | ⟨_, rfl, _⟩ <;> simp
    · rcases he with rfl | rfl | ⟨_, rfl⟩ | ⟨l, rfl, hl⟩ | ⟨_, rfl, _⟩ <;> simp
      exact hl
  refine hi.plain hs ?_ ?_ rfl rfl hpk ?_ (.inl rfl) (fun h => absurd h hg) ?_
  · rcases he with rfl | rfl | ⟨_, rfl⟩ | ⟨_, rfl, _⟩ | ⟨_, rfl, _⟩ <;> simp
  · show ∀ n, _ → n < s.objs
    rcases he with rfl | rfl | ⟨_, rfl⟩ | ⟨_, rfl, rfl | ⟨_, rfl⟩⟩ | ⟨_, rfl, (rfl | ⟨_, rfl⟩) | ⟨m, hm, rfl⟩ | ⟨m, hm, rfl, _⟩⟩ <;>
      simp [Ev.loc] <;> omega
  · rcases he with rfl | rfl | ⟨_, rfl⟩ | ⟨_, rfl, _⟩ | ⟨_, rfl, _⟩ <;> simp
  · rcases he with rfl | rfl | ⟨_, rfl⟩ | ⟨_, rfl, _⟩ | ⟨l, rfl, (rfl | ⟨_, rfl⟩) | ⟨m, hm, rfl⟩ | ⟨m, hm, rfl, hk⟩⟩
    · simp
    · simp
    · simp
    · simp
    · simp
    · simp
    · intro n hn
      exact .inl ⟨by simpa using hn, hg⟩
    · intro n hn
      refine .inr fun l hl => ?_
      simp only [Ev.read.injEq] at hl
      exact hl ▸ hk

/-- Places without events. -/
theorem DInv.goto {s : DState} (hi : DInv s) (g : Nat) (p : DPc) (hh : s.pc g ≠ .none) (hg : g ∉ s.checks) (hpk : DPcOk s g p) :
    DInv (s.goto g p) := by
  have hpc : ∀ h, (h = g ∧ (s.goto g p).pc h = p) ∨ (h ≠ g ∧ (s.goto g p).pc h = s.pc h) := by
    intro h
    by_cases hg : h = g
    · exact .inl ⟨hg, by simp [DState.goto, hg]⟩
    · exact .inr ⟨hg, by simp [DState.goto, hg]⟩
  have hl : ∀ h, (s.goto g p).pc h ≠ .none → s.pc h ≠ .none := by
    intro h hn
    rcases hpc h with ⟨h1, _⟩ | ⟨_, h2⟩
    · exact h1 ▸ hh
    · exact h2 ▸ hn
  refine ⟨hi.objs, hi.pos, fun h hn => hi.live h (hl h hn), hi.evs, fun h hn => hi.ptr h (hl h hn), hi.roleLt, hi.role, hi.cacheLt, hi.cache, ?_,
    hi.atom, ?_, hi.checkEv, hi.racing⟩
  · intro h
    have key : ∀ {h q}, DPcOk s h q → DPcOk (s.goto g p) h q := fun {h q} hk => by
      cases q with
      | ask d tp => cases tp <;> exact hk
      | _ => exact hk
    rcases hpc h with ⟨h1, h2⟩ | ⟨_, h2⟩
    · rw [h2, h1]; exact key hpk
    · rw [h2]; exact key (hi.pcs h)
  · intro h hm
    rcases hpc h with ⟨h1, _⟩ | ⟨_, h2⟩
    · exact absurd (h1 ▸ hm) hg
    · rw [h2]; exact hi.checks h hm

theorem dInv_init (domains : List Str) : DInv (dInit domains) := by
  have hev : ∀ (i g : Nat) (e : Ev), (dInit domains).trace[i]? = some (g, e) → g = 0 ∧ (e = .write .role ∨ e = .write (.box 0) ∨ ∃ d, e = .write (.cache d)) := by
    intro i g e h
    have hm := List.mem_of_getElem? h
    simp only [dInit, List.mem_cons, Prod.mk.injEq, List.mem_map] at hm
    rcases hm with ⟨h1, h2⟩ | ⟨h1, h2⟩ | ⟨d, _, h1, h2⟩
    · exact ⟨h1, .inl h2⟩
    · exact ⟨h1, .inr (.inl h2)⟩
    · exact ⟨h1.symm, .inr (.inr ⟨d, h2.symm⟩)⟩
  have hpc : ∀ g, (dInit domains).pc g ≠ .none → g = 0 := by
    intro g h
    simp only [dInit] at h
    split at h
    · assumption
    · exact absurd rfl h
  refine ⟨?_, by simp [dInit], ?_, ?_, ?_, by simp [dInit], .inl rfl, by simp [dInit], by simp [dInit], ?_, ?_, by simp [dInit], by simp [dInit], ?_⟩
  · intro i g e n h hl
    rcases (hev i g e h).2 with rfl | rfl | ⟨d, rfl⟩ <;> simp [Ev.loc] at hl
    simp [dInit, ← hl]
  · intro g h
    rw [hpc g h]
    simp [dInit]
  · intro i g e h
    rw [(hev i g e h).1]
    simp [dInit]
  · intro g h l _ i k hk
    exact ⟨i, k, _, hk, .inl rfl, .inl ((hev _ _ _ hk).1.trans (hpc g h).symm)⟩
  · intro g
    by_cases h : g = 0 <;> simp [dInit, h, DPcOk]
  · intro i g e l h hl
    rcases (hev i g e h).2 with rfl | rfl | ⟨d, rfl⟩ <;> simp at hl
  · rintro i j g h e f ⟨h1, h2, h3, _, _, _, h4⟩
    have hgh : h = g := (hev _ _ _ h3).1.trans (hev _ _ _ h2).1.symm
    subst hgh
    exact absurd (.single (.po h1 h2 h3)) h4

/-- Every step keeps the invariant. -/
theorem DInv.step {domains : List Str} {s s' : DState} {a : DAct} (hi : DInv s) (h : dStep domains s a = some s') : DInv s' := by
  have hmono : ∀ {g : Nat} {l : Loc} {x : Nat × Ev}, Know s.trace g l → (∀ l, x.2 ≠ .write l) → Know (s.trace ++ [x]) g l :=
    fun hk hx => hk.mono (hx _)
  have hrole : ∀ {g : Nat} {e : Ev}, s.pc g ≠ .none → (e = .load .role ∨ e = .swap .role) → Know (s.trace ++ [(g, e)]) g (.box s.role) := by
    intro g e hg he
    rcases hi.role with h0 | h0
    · rw [h0]
      refine (hi.ptr g hg _ (.inr (.inr rfl))).mono ?_
      rcases he with rfl | rfl <;> simp
    · exact h0.known he
  cases a with
  | spawn g =>
    simp only [dStep] at h
    split at h <;> simp at h
    rename_i hg
    subst h
    exact hi.fork g _ _ (by simp [hg]) (hi.notCheck (by simp [hg]) (by simp [hg]) (by simp [hg])) (by simp) (by simp) trivial trivial
  | update g todo =>
    simp only [dStep] at h
    split at h <;> simp at h
    rename_i hg
    subst h
    exact hi.emit g _ _ (by simp [hg]) (hi.notCheck (by simp [hg]) (by simp [hg]) (by simp [hg])) (by simp) (.inl rfl) trivial
  | check g =>
    simp only [dStep] at h
    split at h <;> simp at h
    rename_i hg
    subst h
    exact hi.plain (emits_fork s g _ _ _ (by simp [hg]) (by simp) (by simp)) (by simp) (by simp [Ev.loc]) rfl rfl trivial (fun _ => trivial)
      (.inr ⟨rfl, rfl, _, rfl⟩) (fun h => absurd h (hi.notCheck (by simp [hg]) (by simp [hg]) (by simp [hg]))) (by simp)
  | cancel g =>
    simp only [dStep] at h
    split at h <;> simp at h
    rename_i hg
    subst h
    exact hi.emit g _ _ (by simp [hg]) (hi.notCheck (by simp [hg]) (by simp [hg]) (by simp [hg])) (by simp) (.inr (.inl rfl)) trivial
  | fail g =>
    simp only [dStep] at h
    split at h <;> simp at h
    rename_i hg
    subst h
    exact hi.emit g _ _ (by simp [hg]) (hi.notCheck (by simp [hg]) (by simp [hg]) (by simp [hg])) (by simp) (.inr (.inl rfl)) trivial
  | debug g =>
    simp only [dStep] at h
    have hk := hi.pcs g
    split at h <;> simp at h <;> rename_i hg <;> subst h <;> rw [hg] at hk
    · exact hi.emit g _ _ (by simp [hg]) (hi.notCheck (by simp [hg]) (by simp [hg]) (by simp [hg])) (by simp)
        (.inr (.inr (.inr (.inr ⟨_, rfl, .inl (.inl rfl)⟩)))) ⟨hk.1, hmono hk.2 (by simp), hi.roleLt⟩
    · exact hi.emit g _ _ (by simp [hg]) (hi.notCheck (by simp [hg]) (by simp [hg]) (by simp [hg])) (by simp)
        (.inr (.inr (.inr (.inr ⟨_, rfl, .inl (.inl rfl)⟩)))) ⟨hk.1, hmono hk.2.1 (by simp), hk.2.2.1, hmono hk.2.2.2 (by simp), hi.roleLt⟩
  | hook g d =>
    simp only [dStep] at h
    split at h <;> simp at h
    rename_i hg
    subst h
    exact hi.fork g _ _ (by simp [hg]) (hi.notCheck (by simp [hg]) (by simp [hg]) (by simp [hg])) (by simp) (by simp) trivial trivial
  | go g c =>
    simp only [dStep, dGo] at h
    have hk := hi.pcs g
    have hfresh : ∀ (i k : Nat) (l : Loc), (l = .box s.objs ∨ l = .pol s.objs) → s.trace[i]? ≠ some (k, .write l) := by
      intro i k l hl hw
      have := hi.objs i k _ s.objs hw (by rcases hl with rfl | rfl <;> simp [Ev.loc])
      omega
    split at h
    case h_1 todo hg =>
      simp at h; subst h
      have hg' := hi.notCheck (g := g) (by simp [hg]) (by simp [hg]) (by simp [hg])
      refine hi.plain (g := g) (e := .write (.box s.objs)) (p := .launch s.objs todo []) (q := .none)
        (emits_plain _ rfl (by simp [hg]) (by simp) (by simp) rfl rfl (Nat.le_succ _) (fun l hl => ⟨s.objs, .inl (by simpa using hl.symm), Nat.le_refl _⟩) (by simp))
        (by simp) (by simp [Ev.loc]) rfl rfl ⟨Nat.lt_succ_self _, ?_⟩ (by simp) (.inl rfl) (fun h => absurd h hg') (by simp)
      exact Know.own fun i k hw => absurd hw (hfresh i k _ (.inl rfl))
    case h_2 b d todo kids hg =>
      rw [hg] at hk
      simp at h; subst h
      exact hi.fork g _ _ (by simp [hg]) (hi.notCheck (by simp [hg]) (by simp [hg]) (by simp [hg])) (by simp) (by simp) ⟨hk.1, hmono hk.2 (by simp)⟩ ⟨hk.1, hk.2.forked⟩
    case h_3 b k d kids hg =>
      rw [hg] at hk
      split at h <;> simp at h
      subst h
      exact hi.emit g _ _ (by simp [hg]) (hi.notCheck (by simp [hg]) (by simp [hg]) (by simp [hg])) (by simp) (.inr (.inr (.inl ⟨_, rfl⟩))) ⟨hk.1, hmono hk.2 (by simp)⟩
    case h_4 b hg =>
      rw [hg] at hk
      simp at h; subst h
      exact hi.fork g _ _ (by simp [hg]) (hi.notCheck (by simp [hg]) (by simp [hg]) (by simp [hg])) (by simp) (by simp) ⟨hk.1, hmono hk.2 (by simp)⟩ trivial
    case h_5 b hg =>
      rw [hg] at hk
      simp at h; subst h
      refine hi.next (g := g) (e := .swap .role) (p := .swapped b s.role) (q := .none)
        (emits_plain _ rfl (by simp [hg]) (by simp) (by simp) rfl rfl (Nat.le_refl _) (by simp) (by simp))
        (by simp [Ev.loc]) hk.1 (.inr (hk.2.pub (.inr rfl))) hi.cacheLt ?_ (fun _ h => h) ?_ (by simp) (.inl rfl)
        (fun h => absurd h (hi.notCheck (by simp [hg]) (by simp [hg]) (by simp [hg]))) (by simp)
      · exact fun d n hd => (hi.cache d n hd).mono (by simp) (by simp) (by simp)
      · exact ⟨hk.1, hmono hk.2 (by simp), hi.roleLt, hrole (by simp [hg]) (.inr rfl)⟩
    case h_6 b n hg =>
      rw [hg] at hk
      simp at h; subst h
      exact hi.emit g _ _ (by simp [hg]) (hi.notCheck (by simp [hg]) (by simp [hg]) (by simp [hg])) (by simp) (.inr (.inr (.inr (.inr ⟨_, rfl, .inr (.inl ⟨_, hk.2.2, rfl⟩)⟩)))) ⟨hk.1, hmono hk.2.1 (by simp)⟩
    case h_7 b old hg =>
      rw [hg] at hk
      simp at h; subst h
      exact hi.emit g _ _ (by simp [hg]) (hi.notCheck (by simp [hg]) (by simp [hg]) (by simp [hg])) (by simp) (.inr (.inr (.inr (.inr ⟨_, rfl, .inr (.inl ⟨_, hk.2.2.1, rfl⟩)⟩)))) trivial
    case h_8 b old n hg =>
      rw [hg] at hk
      simp at h; subst h
      exact hi.emit g _ _ (by simp [hg]) (hi.notCheck (by simp [hg]) (by simp [hg]) (by simp [hg])) (by simp) (.inr (.inr (.inr (.inr ⟨_, rfl, .inr (.inl ⟨_, hk.2.2.2.2, rfl⟩)⟩)))) ⟨hk.1, hmono hk.2.1 (by simp), hk.2.2.1, hmono hk.2.2.2.1 (by simp)⟩
    case h_9  hg =>
      rw [hg] at hk
      simp at h; subst h
      exact hi.emit g _ _ (by simp [hg]) (hi.notCheck (by simp [hg]) (by simp [hg]) (by simp [hg])) (by simp) (.inr (.inl rfl)) trivial
    case h_10  hg =>
      rw [hg] at hk
      simp at h; subst h
      exact hi.plain (g := g) (e := .load .role) (p := .checked s.role) (q := .none)
        (emits_plain _ rfl (by simp [hg]) (by simp) (by simp) rfl rfl (Nat.le_refl _) (by simp) (by simp)) (by simp) (by simp [Ev.loc]) rfl rfl
        ⟨hi.roleLt, hrole (by simp [hg]) (.inl rfl)⟩ (by simp) (.inl rfl) (fun _ => ⟨.inr (.inl ⟨_, rfl⟩), .inl rfl⟩) (by simp)
    case h_11 n hg =>
      rw [hg] at hk
      simp at h; subst h
      exact hi.plain (g := g) (e := .read (.box n)) (p := .done) (q := .none)
        (emits_plain _ rfl (by simp [hg]) (by simp) (by simp) rfl rfl (Nat.le_refl _) (by simp) (by simp)) (by simp) (by simp [Ev.loc]; exact hk.1) rfl rfl
        trivial (by simp) (.inl rfl) (fun _ => ⟨.inr (.inr rfl), .inr ⟨_, rfl⟩⟩) (fun _ _ => .inr fun l hl => by simp at hl; exact hl ▸ hk.2)
    case h_12 b d hg =>
      rw [hg] at hk
      simp at h; subst h
      exact hi.emit g _ _ (by simp [hg]) (hi.notCheck (by simp [hg]) (by simp [hg]) (by simp [hg])) (by simp) (.inr (.inr (.inr (.inr ⟨_, rfl, .inr (.inl ⟨_, hk.1, rfl⟩)⟩)))) trivial
    case h_13 d hg =>
      rw [hg] at hk
      simp at h; subst h
      refine hi.emit g _ _ (by simp [hg]) (hi.notCheck (by simp [hg]) (by simp [hg]) (by simp [hg])) (by split <;> simp) (.inr (.inr (.inr (.inr ⟨_, rfl, .inl (.inr ⟨_, rfl⟩)⟩)))) ?_
      by_cases hc : s.cache d = none
      · simp only [hc, if_true]; trivial
      · simp only [hc, if_false]; exact hc
    case h_14 d hg =>
      rw [hg] at hk
      obtain ⟨n, hn, h⟩ := Option.map_eq_some_iff.mp h
      subst h
      exact hi.emit g _ _ (by simp [hg]) (hi.notCheck (by simp [hg]) (by simp [hg]) (by simp [hg])) (by simp) (.inr (.inr (.inr (.inl ⟨_, rfl, .inr ⟨_, rfl⟩⟩)))) ⟨hi.cacheLt d n hn, (hi.cache d n hn).known (.inl rfl)⟩
    case h_15 d n hg =>
      rw [hg] at hk
      simp at h; subst h
      exact hi.emit g _ _ (by simp [hg]) (hi.notCheck (by simp [hg]) (by simp [hg]) (by simp [hg])) (by simp) (.inr (.inr (.inr (.inr ⟨_, rfl, .inr (.inr ⟨_, hk.1, rfl, hk.2⟩)⟩)))) ⟨hk.1, hmono hk.2 (by simp)⟩
    case h_16 d tp hg =>
      rw [hg] at hk
      cases c with
      | same =>
        obtain ⟨n, hn, h'⟩ := Option.map_eq_some_iff.mp h
        subst hn h'
        exact hi.emit g _ _ (by simp [hg]) (hi.notCheck (by simp [hg]) (by simp [hg]) (by simp [hg])) (by simp) (.inr (.inr (.inr (.inr ⟨_, rfl, .inr (.inr ⟨_, hk.1, rfl, hk.2⟩)⟩)))) trivial
      | new =>
        simp at h; subst h
        refine hi.plain (g := g) (e := .write (.pol s.objs)) (p := .got d s.objs) (q := .none)
          (emits_plain _ rfl (by simp [hg]) (by simp) (by simp) rfl rfl (Nat.le_succ _) (fun l hl => ⟨s.objs, .inr (by simpa using hl.symm), Nat.le_refl _⟩) (by simp))
          (by simp) (by simp [Ev.loc]) rfl rfl ⟨Nat.lt_succ_self _, ?_⟩ (by simp) (.inl rfl) (fun h => absurd h (hi.notCheck (by simp [hg]) (by simp [hg]) (by simp [hg]))) (by simp)
        exact Know.own fun i k hw => absurd hw (hfresh i k _ (.inr rfl))
      | again => simp at h; subst h; exact hi.goto g _ (by simp [hg]) (hi.notCheck (by simp [hg]) (by simp [hg]) (by simp [hg])) trivial
      | giveUp => simp at h; subst h; exact hi.goto g _ (by simp [hg]) (hi.notCheck (by simp [hg]) (by simp [hg]) (by simp [hg])) trivial
    case h_17 d n hg =>
      rw [hg] at hk
      simp at h; subst h
      refine hi.next (g := g) (e := .store (.cache d)) (p := .done) (q := .none)
        (emits_plain _ rfl (by simp [hg]) (by simp) (by simp) rfl rfl (Nat.le_refl _) (by simp) (by simp))
        (by simp [Ev.loc]) hi.roleLt (hi.role.imp id fun h => h.mono (by simp) (by simp) (by simp)) ?_ ?_ ?_ trivial (by simp) (.inl rfl)
        (fun h => absurd h (hi.notCheck (by simp [hg]) (by simp [hg]) (by simp [hg]))) (by simp)
      · intro d' m hd
        simp only at hd
        split at hd
        · simp at hd; exact hd ▸ hk.1
        · exact hi.cacheLt d' m hd
      · intro d' m hd
        simp only at hd
        split at hd
        · rename_i hdd
          simp at hd
          subst hdd hd
          exact hk.2.pub (.inl rfl)
        · rename_i hdd
          exact (hi.cache d' m hd).mono (by simp) (by simp; exact fun h => hdd h.symm) (by simp)
      · intro d' hd
        simp only
        split
        · simp
        · exact hd
    case h_18 d hg =>
      rw [hg] at hk
      simp at h; subst h
      refine hi.emit g _ _ (by simp [hg]) (hi.notCheck (by simp [hg]) (by simp [hg]) (by simp [hg])) (by split <;> simp) (.inr (.inr (.inr (.inr ⟨_, rfl, .inl (.inr ⟨_, rfl⟩)⟩)))) ?_
      by_cases hc : s.cache d = none
      · simp only [hc, if_true]; trivial
      · simp only [hc, if_false]; exact hc
    case h_19 d hg =>
      rw [hg] at hk
      obtain ⟨n, hn, h⟩ := Option.map_eq_some_iff.mp h
      subst h
      exact hi.emit g _ _ (by simp [hg]) (hi.notCheck (by simp [hg]) (by simp [hg]) (by simp [hg])) (by simp) (.inr (.inr (.inr (.inl ⟨_, rfl, .inr ⟨_, rfl⟩⟩)))) ⟨hi.cacheLt d n hn, (hi.cache d n hn).known (.inl rfl)⟩
    case h_20 d n hg =>
      rw [hg] at hk
      simp at h; subst h
      exact hi.emit g _ _ (by simp [hg]) (hi.notCheck (by simp [hg]) (by simp [hg]) (by simp [hg])) (by simp) (.inr (.inr (.inr (.inr ⟨_, rfl, .inr (.inr ⟨_, hk.1, rfl, hk.2⟩)⟩)))) trivial
    case h_21 d hg =>
      rw [hg] at hk
      simp at h; subst h
      exact hi.emit g _ _ (by simp [hg]) (hi.notCheck (by simp [hg]) (by simp [hg]) (by simp [hg])) (by simp) (.inr (.inr (.inr (.inr ⟨_, rfl, .inl (.inl rfl)⟩)))) hi.roleLt
    case h_22 d n hg =>
      rw [hg] at hk
      simp at h; subst h
      exact hi.emit g _ _ (by simp [hg]) (hi.notCheck (by simp [hg]) (by simp [hg]) (by simp [hg])) (by simp) (.inr (.inr (.inr (.inr ⟨_, rfl, .inr (.inl ⟨_, hk, rfl⟩)⟩)))) trivial
    case h_23 => simp at h

theorem DInv.run {domains : List Str} {s s' : DState} {as : List DAct} (hi : DInv s) (h : dRun domains s as = some s') : DInv s' := by
  induction as generalizing s with
  | nil => simp [dRun] at h; exact h ▸ hi
  | cons a as ih =>
    simp only [dRun, Option.bind_eq_some_iff] at h
    obtain ⟨s1, h1, h2⟩ := h
    exact ih (hi.step h1) h2

end Athenz
