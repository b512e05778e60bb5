import Verif.Spec.Handed
import Verif.Props.Check

/-! What callers of `GetPolicyCache` can do to the arrays of the cache. -/

namespace Athenz

/-- The cell holds a deny. -/
def IsDeny (mem : List Assertion) (c : Option Cell) : Prop := ∃ n a, c = some (.ptr n) ∧ mem[n]? = some a ∧ a.effect ≠ none

structure PArrOk (mem : List Assertion) (A : PArr) : Prop where
  valid : ∀ (i : Nat) (c : Cell), A.cells[i]? = some c → c = .nil ∨ ∃ n, c = .ptr n ∧ n < mem.length
  first : ∀ i j : Nat, i < j → IsDeny mem A.cells[j]? → IsDeny mem A.cells[i]?
  upper : ∀ i, A.base ≤ i → ¬ IsDeny mem A.cells[i]?

def PSlOk (heap : List PArr) (sl : Slice) : Prop :=
  ∃ A, heap[sl.arr]? = some A ∧ A.base ≤ sl.len ∧ sl.len ≤ A.cells.length ∧ ∀ i < sl.len, A.cells[i]? ≠ some .nil

/-- Later heaps: arrays keep base and capacity, and written cells stay written. -/
def PExt (heap heap' : List PArr) : Prop :=
  ∀ (n : Nat) (A : PArr), heap[n]? = some A → ∃ A', heap'[n]? = some A' ∧ A'.base = A.base ∧ A'.cells.length = A.cells.length ∧
    ∀ i : Nat, A.cells[i]? ≠ some Cell.nil → A'.cells[i]? ≠ some Cell.nil

theorem PExt.refl (heap : List PArr) : PExt heap heap := fun _ A h => ⟨A, h, rfl, rfl, fun _ h => h⟩

theorem PExt.append (heap l : List PArr) : PExt heap (heap ++ l) := fun n A h =>
  ⟨A, by rw [List.getElem?_append_left (by have := List.getElem?_eq_some_iff.mp h; exact this.1)]; exact h, rfl, rfl, fun _ h => h⟩

theorem PSlOk.ext {heap heap' : List PArr} {sl : Slice} (h : PSlOk heap sl) (he : PExt heap heap') : PSlOk heap' sl := by
  obtain ⟨A, hA, h1, h2, h3⟩ := h
  obtain ⟨A', hA', e1, e2, e3⟩ := he _ A hA
  exact ⟨A', hA', by omega, by omega, fun i hi => e3 i (h3 i hi)⟩

def PJobOk (mem : List Assertion) (heap : List PArr) : PJob → Prop
  | .start _ _ n => n < mem.length
  | .got _ _ n old => n < mem.length ∧ ∀ sl, old = some sl → PSlOk heap sl
  | .made _ _ sl => PSlOk heap sl
  | .done => True

structure CInv (c : PCore) : Prop where
  arrs : ∀ A ∈ c.heap, PArrOk c.mem A
  objs : ∀ o k sl, c.objs o k = some sl → PSlOk c.heap sl
  jobs : ∀ j ∈ c.jobs, PJobOk c.mem c.heap j

theorem CInv.init : CInv pCoreInit := ⟨by simp [pCoreInit], by simp [pCoreInit], by simp [pCoreInit]⟩

theorem IsDeny.mono {mem : List Assertion} {x : Assertion} {c : Option Cell} (h : IsDeny mem c) : IsDeny (mem ++ [x]) c := by
  obtain ⟨n, a, h1, h2, h3⟩ := h
  exact ⟨n, a, h1, by rw [List.getElem?_append_left (List.getElem?_eq_some_iff.mp h2).1]; exact h2, h3⟩

theorem PArrOk.back {mem : List Assertion} {x : Assertion} {A : PArr} (hA : PArrOk mem A) {i : Nat}
    (h : IsDeny (mem ++ [x]) A.cells[i]?) : IsDeny mem A.cells[i]? := by
  obtain ⟨n, a, h1, h2, h3⟩ := h
  rcases hA.valid i _ h1 with h | ⟨m, h, hm⟩
  · cases h
  · cases h
    exact ⟨n, a, h1, by rw [List.getElem?_append_left hm] at h2; exact h2, h3⟩

theorem PArrOk.mono {mem : List Assertion} {x : Assertion} {A : PArr} (hA : PArrOk mem A) : PArrOk (mem ++ [x]) A :=
  ⟨fun i c h => (hA.valid i c h).imp id (fun ⟨n, h1, h2⟩ => ⟨n, h1, by simp; omega⟩),
   fun i j hij h => (hA.first i j hij (hA.back h)).mono, fun i hi h => hA.upper i hi (hA.back h)⟩

theorem PJobOk.mem {mem : List Assertion} {x : Assertion} {heap : List PArr} {j : PJob} (h : PJobOk mem heap j) :
    PJobOk (mem ++ [x]) heap j := by
  cases j <;> simp_all [PJobOk] <;> omega

theorem PJobOk.ext {mem : List Assertion} {heap heap' : List PArr} {j : PJob} (h : PJobOk mem heap j) (he : PExt heap heap') :
    PJobOk mem heap' j := by
  cases j with
  | start => exact h
  | got => exact ⟨h.1, fun sl hs => (h.2 sl hs).ext he⟩
  | made => exact PSlOk.ext h he
  | done => trivial

theorem isDeny_nil {mem : List Assertion} : ¬ IsDeny mem (some Cell.nil) := by rintro ⟨n, a, h, _⟩; cases h
theorem isDeny_none {mem : List Assertion} : ¬ IsDeny mem none := by rintro ⟨n, a, h, _⟩; cases h

/-- The cells of a new array: the elements, and then nil. -/
theorem newPArr_get (cs : List Cell) (spare i : Nat) :
    (newPArr cs spare).cells[i]? = if i < cs.length then cs[i]? else if i < cs.length + spare then some .nil else none := by
  simp only [newPArr]
  by_cases h : i < cs.length
  · simp [h, List.getElem?_append_left h]
  · rw [List.getElem?_append_right (by omega), List.getElem?_replicate]
    simp only [h, if_false]
    by_cases h2 : i < cs.length + spare
    · simp [h2]; omega
    · simp [h2]; omega

theorem newPArr_ok {mem : List Assertion} {cs : List Cell} {spare : Nat}
    (hv : ∀ (i : Nat) (c : Cell), cs[i]? = some c → c = .nil ∨ ∃ n, c = .ptr n ∧ n < mem.length)
    (hf : ∀ i j : Nat, i < j → IsDeny mem cs[j]? → IsDeny mem cs[i]?) : PArrOk mem (newPArr cs spare) := by
  constructor
  · intro i c h
    rw [newPArr_get] at h
    split at h
    · exact hv i c h
    · split at h
      · exact .inl (by cases h; rfl)
      · cases h
  · intro i j hij h
    rw [newPArr_get] at h ⊢
    split at h
    · rename_i hj
      rw [if_pos (by omega)]
      exact hf i j hij h
    · split at h
      · exact absurd h isDeny_nil
      · exact absurd h isDeny_none
  · intro i hi h
    rw [newPArr_get, if_neg (by simpa [newPArr] using hi)] at h
    split at h
    · exact isDeny_nil h
    · exact isDeny_none h

theorem newPArr_slice {heap : List PArr} {cs : List Cell} {spare n : Nat} (hn : n = cs.length)
    (hw : ∀ i < cs.length, cs[i]? ≠ some .nil) : PSlOk (heap ++ [newPArr cs spare]) ⟨heap.length, n⟩ := by
  subst hn
  refine ⟨newPArr cs spare, by simp, by simp [newPArr], by simp [newPArr], fun i hi => ?_⟩
  simp only at hi
  rw [newPArr_get, if_pos hi]
  exact hw i hi

theorem sliceCells_get {heap : List PArr} {sl : Slice} {A : PArr} (h : heap[sl.arr]? = some A) (i : Nat) :
    (sliceCells heap sl)[i]? = if i < sl.len then A.cells[i]? else none := by
  simp only [sliceCells, h, List.getElem?_take]

theorem sliceCells_length {heap : List PArr} {sl : Slice} {A : PArr} (h : heap[sl.arr]? = some A) (hl : sl.len ≤ A.cells.length) :
    (sliceCells heap sl).length = sl.len := by
  simp only [sliceCells, h, List.length_take]; omega

theorem putCell_some {heap heap' : List PArr} {arr i : Nat} {c : Cell} (h : putCell heap arr i c = some heap') :
    ∃ A, heap[arr]? = some A ∧ i < A.cells.length ∧ heap' = heap.set arr { A with cells := A.cells.set i c } := by
  unfold putCell at h
  split at h
  · rename_i A hA
    split at h
    · rename_i hi; exact ⟨A, hA, hi, by cases h; rfl⟩
    · cases h
  · cases h

theorem set_get {α : Type} {l : List α} {n : Nat} {x a : α} (h : l[n]? = some a) (m : Nat) :
    (l.set n x)[m]? = if n = m then some x else l[m]? := by
  have := (List.getElem?_eq_some_iff.mp h).1
  rw [List.getElem?_set]
  by_cases hm : n = m
  · subst hm; simp [this]
  · simp [hm]

theorem lt_get {α : Type} {l : List α} {i : Nat} (h : i < l.length) : ∃ a, l[i]? = some a := ⟨l[i], List.getElem?_eq_getElem h⟩

theorem putCell_ext {heap heap' : List PArr} {arr i n : Nat} (h : putCell heap arr i (.ptr n) = some heap') : PExt heap heap' := by
  obtain ⟨A, hA, hi, rfl⟩ := putCell_some h
  intro m B hB
  rw [set_get hA]
  by_cases hm : arr = m
  · subst hm
    rw [hA] at hB
    cases hB
    obtain ⟨c, hc⟩ := lt_get hi
    refine ⟨_, if_pos rfl, rfl, by simp, fun j hj => ?_⟩
    simp only [set_get hc]
    split
    · simp
    · exact hj
  · exact ⟨B, by simp [hm, hB], rfl, rfl, fun _ h => h⟩

/-- What storing one assertion does to the heap. -/
theorem insertCell_ok {mem : List Assertion} {heap : List PArr} {n spare : Nat} {old : Option Slice}
    (ha : ∀ A ∈ heap, PArrOk mem A) (hn : n < mem.length) (ho : ∀ sl, old = some sl → PSlOk heap sl) :
    (∀ A ∈ (insertCell mem heap n old spare).1, PArrOk mem A) ∧
    PSlOk (insertCell mem heap n old spare).1 (insertCell mem heap n old spare).2 ∧
    PExt heap (insertCell mem heap n old spare).1 := by
  obtain ⟨x, hx⟩ := lt_get hn
  have one : ∀ (i : Nat) (c : Cell), [Cell.ptr n][i]? = some c → c = .nil ∨ ∃ n, c = .ptr n ∧ n < mem.length := by
    intro i c h
    cases i with
    | zero => exact .inr ⟨n, by simpa using h.symm, hn⟩
    | succ i => simp at h
  cases old with
  | none =>
    simp only [insertCell]
    refine ⟨?_, newPArr_slice rfl (by intro i hi; simp at hi; subst hi; simp), PExt.append _ _⟩
    intro A hA
    rcases List.mem_append.mp hA with h | h
    · exact ha A h
    · rw [List.mem_singleton.mp h]
      refine newPArr_ok one ?_
      intro i j hij h
      rw [List.getElem?_eq_none (by simp; omega)] at h
      exact absurd h isDeny_none
  | some sl =>
    obtain ⟨A, hA, hb, hl, hw⟩ := ho sl rfl
    have hAok := ha A (List.mem_of_getElem? hA)
    have hget := sliceCells_get hA
    have hlen := sliceCells_length hA hl
    have hval : ∀ (i : Nat) (c : Cell), (sliceCells heap sl)[i]? = some c → c = .nil ∨ ∃ n, c = .ptr n ∧ n < mem.length := by
      intro i c h
      rw [hget] at h
      split at h
      · exact hAok.valid i c h
      · cases h
    have hfst : ∀ i j : Nat, i < j → IsDeny mem (sliceCells heap sl)[j]? → IsDeny mem (sliceCells heap sl)[i]? := by
      intro i j hij h
      rw [hget] at h ⊢
      split at h
      · rw [if_pos (by omega)]; exact hAok.first i j hij h
      · exact absurd h isDeny_none
    have hwr : ∀ i < sl.len, (sliceCells heap sl)[i]? ≠ some .nil := by
      intro i hi; rw [hget, if_pos hi]; exact hw i hi
    simp only [insertCell, hx, Option.bind_some]
    by_cases he : x.effect = none
    · rw [if_pos he]
      have hnd : ¬ IsDeny mem (some (.ptr n)) := by
        rintro ⟨m, a, h1, h2, h3⟩
        cases h1
        rw [hx] at h2
        cases h2
        exact h3 he
      cases hp : putCell heap sl.arr sl.len (.ptr n) with
      | some heap' =>
        have hext := putCell_ext hp
        obtain ⟨A', hA', hi, rfl⟩ := putCell_some hp
        rw [hA] at hA'
        cases hA'
        obtain ⟨c0, hc0⟩ := lt_get hi
        refine ⟨?_, ?_, hext⟩
        · intro B hB
          rcases List.mem_or_eq_of_mem_set hB with h | rfl
          · exact ha B h
          · constructor
            · intro i c h
              simp only [set_get hc0] at h
              split at h
              · exact .inr ⟨n, by cases h; rfl, hn⟩
              · exact hAok.valid i c h
            · intro i j hij h
              simp only [set_get hc0] at h ⊢
              split at h
              · exact absurd h hnd
              · split
                · exact absurd h (hAok.upper j (by omega))
                · exact hAok.first i j hij h
            · intro i hi h
              simp only [set_get hc0] at h
              split at h
              · exact hnd h
              · exact hAok.upper i hi h
        · refine ⟨_, by rw [set_get hA, if_pos rfl], by simp only; omega, by simp; omega, fun i hi => ?_⟩
          simp only [set_get hc0]
          split
          · simp
          · exact hw i (by simp only at hi; omega)
      | none =>
        refine ⟨?_, newPArr_slice (by simp [hlen]) ?_, PExt.append _ _⟩
        · intro B hB
          rcases List.mem_append.mp hB with h | h
          · exact ha B h
          · rw [List.mem_singleton.mp h]
            refine newPArr_ok ?_ ?_
            · intro i c h
              rw [List.getElem?_append] at h
              split at h
              · exact hval i c h
              · exact one _ c h
            · intro i j hij h
              rw [List.getElem?_append] at h ⊢
              split at h
              · rw [if_pos (by omega)]; exact hfst i j hij h
              · obtain ⟨m, a, h1, h2, h3⟩ := h
                exfalso
                cases hjj : j - (sliceCells heap sl).length with
                | zero => rw [hjj] at h1; simp only [List.getElem?_cons_zero] at h1; exact hnd ⟨m, a, h1, h2, h3⟩
                | succ t => rw [hjj] at h1; simp at h1
        · intro i hi
          rw [List.getElem?_append]
          split
          · exact hwr i (by omega)
          · simp at hi
            rw [show i - (sliceCells heap sl).length = 0 by omega]
            simp
    · rw [if_neg he]
      have hd : IsDeny mem (some (.ptr n)) := ⟨n, x, rfl, hx, he⟩
      refine ⟨?_, newPArr_slice (by simp [hlen]) ?_, PExt.append _ _⟩
      · intro B hB
        rcases List.mem_append.mp hB with h | h
        · exact ha B h
        · rw [List.mem_singleton.mp h]
          refine newPArr_ok ?_ ?_
          · intro i c h
            cases i with
            | zero => exact .inr ⟨n, by simpa using h.symm, hn⟩
            | succ i => exact hval i c (by simpa using h)
          · intro i j hij h
            cases i with
            | zero => simpa using hd
            | succ i =>
              cases j with
              | zero => omega
              | succ j =>
                simp only [List.getElem?_cons_succ] at h ⊢
                exact hfst i j (by omega) h
      · intro i hi
        cases i with
        | zero => simp
        | succ i => simp only [List.getElem?_cons_succ]; exact hwr i (by simp at hi; omega)

theorem CInv.step {U : CaseFns} {c c' : PCore} {a : PAct} (hi : CInv c) (h : pCoreStep U c a = some c') : CInv c' := by
  cases a with
  | add o a =>
    simp only [pCoreStep] at h
    split at h
    · cases h
      refine ⟨fun A hA => (hi.arrs A hA).mono, hi.objs, fun j hj => ?_⟩
      rcases List.mem_append.mp hj with hj | hj
      · exact (hi.jobs j hj).mem
      · rw [List.mem_singleton.mp hj]; simp [PJobOk]
    · cases h
  | go j spare =>
    simp only [pCoreStep] at h
    split at h
    · rename_i o k n hj
      cases h
      refine ⟨hi.arrs, hi.objs, fun j' hj' => ?_⟩
      rcases List.mem_or_eq_of_mem_set hj' with h | rfl
      · exact hi.jobs j' h
      · exact ⟨hi.jobs _ (List.mem_of_getElem? hj), fun sl hs => hi.objs o k sl hs⟩
    · rename_i o k n old hj
      have hjob := hi.jobs _ (List.mem_of_getElem? hj)
      have hins := insertCell_ok (spare := spare) hi.arrs hjob.1 hjob.2
      cases h
      refine ⟨hins.1, fun o k sl hs => (hi.objs o k sl hs).ext hins.2.2, fun j' hj' => ?_⟩
      rcases List.mem_or_eq_of_mem_set hj' with h | rfl
      · exact (hi.jobs j' h).ext hins.2.2
      · exact hins.2.1
    · rename_i o k sl hj
      have hjob := hi.jobs _ (List.mem_of_getElem? hj)
      cases h
      refine ⟨hi.arrs, fun o' k' sl' hs => ?_, fun j' hj' => ?_⟩
      · simp only [setObj] at hs
        split at hs
        · cases hs; exact hjob
        · exact hi.objs o' k' sl' hs
      · rcases List.mem_or_eq_of_mem_set hj' with h | rfl
        · exact hi.jobs j' h
        · trivial
    · cases h
  | drop o k =>
    cases h
    refine ⟨hi.arrs, fun o' k' sl' hs => ?_, hi.jobs⟩
    simp only [setObj] at hs
    split at hs
    · cases hs
    · exact hi.objs o' k' sl' hs
  | swap o => cases h; exact ⟨hi.arrs, hi.objs, hi.jobs⟩

theorem gRun_append (U : CaseFns) (s : PState) (h h' : List GAct) : gRun U s (h ++ h') = (gRun U s h).bind (fun s' => gRun U s' h') := by
  induction h generalizing s with
  | nil => rfl
  | cons a as ih =>
    simp only [List.cons_append, gRun]
    cases gStep U s a with
    | none => rfl
    | some s' => exact ih s'

/-- The daemon does not look at what callers hold. -/
theorem gStep_daemon {U : CaseFns} {s s' : PState} {a : PAct} (h : gStep U s (.daemon a) = some s') :
    pCoreStep U s.core a = some s'.core ∧ s'.mine = s.mine ∧ s'.maps = s.maps := by
  simp only [gStep, Option.map_eq_some_iff] at h
  obtain ⟨c, hc, rfl⟩ := h
  exact ⟨hc, rfl, rfl⟩

/-- A caller who writes only what is theirs leaves the daemon as it is. -/
theorem userStep_own {s s' : PState} {a : UAct} (h : userStep s a = some s') (ho : Spec.OwnMemory s a) : s'.core = s.core := by
  cases a with
  | hand => cases h; rfl
  | del m k => cases h; rfl
  | copy m k k' =>
    simp only [userStep] at h
    split at h <;> cases h
    rfl
  | lit m k xs => cases h; rfl
  | reslice m k n =>
    simp only [userStep] at h
    split at h
    · split at h
      · split at h <;> cases h
        rfl
      · cases h
    · split at h <;> cases h
      rfl
    · cases h
  | append m k v =>
    simp only [userStep] at h
    split at h
    · rename_i c mine sl hv hm
      split at h
      · rename_i heap hp
        obtain ⟨A, hA, hi, _⟩ := putCell_some hp
        have := ho sl A hm hA
        omega
      · cases h; rfl
    · cases h; rfl
    · cases h
  | cell m k i v =>
    simp only [userStep] at h
    split at h
    · rename_i c mine sl hv hm
      exact absurd hm (ho sl)
    · split at h <;> cases h
      rfl
    · cases h
  | field m k i x =>
    simp only [userStep] at h
    split at h
    · rename_i n hn
      obtain ⟨cs, hcs, hi⟩ := Option.bind_eq_some_iff.mp hn
      exact absurd hi (ho cs hcs n)
    · cases h; rfl
    · cases h

theorem CInv.seen {s t : PState} (hi : CInv t.core) (h : s.core = t.core) (k : Str) : s.seen k = t.seen k := by
  simp only [PState.seen, h]
  cases hk : t.core.objs t.core.live k with
  | none => rfl
  | some sl =>
    simp only [Option.map_some, Option.some.injEq]
    refine List.map_congr_left fun c hc => ?_
    obtain ⟨A, hA, _⟩ := hi.objs _ _ _ hk
    simp only [sliceCells, hA] at hc
    obtain ⟨i, hi'⟩ := List.mem_iff_getElem?.mp (List.mem_of_mem_take hc)
    rcases (hi.arrs A (List.mem_of_getElem? hA)).valid i c hi' with rfl | ⟨n, rfl, _⟩
    · rfl
    · simp [PState.deref, h]

theorem sameDecisions_of {s t : PState} (h : ∀ k, s.seen k = t.seen k) : Spec.SameDecisions s t := by
  have : s.policies = t.policies := by funext k; simp [PState.policies, h k]
  exact ⟨h, fun U q sched r => by rw [this]⟩

/-- History induction: with callers who write only what is theirs the daemon is as it would be without them. -/
theorem own_run_from {U : CaseFns} (post pre : List GAct) {u t s : PState} (hu : gRun U gInit pre = some u) (hr : gRun U u post = some s)
    (ho : Spec.OnlyOwn U (pre ++ post)) (hc : t.core = u.core) (hi : CInv t.core) :
    ∃ t', gRun U t (Spec.withoutUsers post) = some t' ∧ t'.core = s.core ∧ CInv t'.core := by
  induction post generalizing pre u t with
  | nil => cases hr; exact ⟨t, rfl, hc, hi⟩
  | cons a as ih =>
    simp only [gRun] at hr
    split at hr
    · cases hr
    · rename_i u' hu'
      have hpre : gRun U gInit (pre ++ [a]) = some u' := by rw [gRun_append, hu]; simp [gRun, hu']
      have ho' : Spec.OnlyOwn U ((pre ++ [a]) ++ as) := by simpa using ho
      cases a with
      | user a =>
        obtain ⟨t', ht', h1, h2⟩ := ih _ hpre hr ho' (t := t) (by rw [hc, userStep_own hu' (ho pre a as u rfl hu)]) hi
        exact ⟨t', by simpa [Spec.withoutUsers] using ht', h1, h2⟩
      | daemon a =>
        have hd := gStep_daemon hu'
        obtain ⟨t', ht', h1, h2⟩ := ih _ hpre hr ho' (t := { t with core := u'.core }) rfl (hi.step (hc ▸ hd.1))
        refine ⟨t', ?_, h1, h2⟩
        simp only [Spec.withoutUsers, List.filter_cons] at ht' ⊢
        simp [gRun, gStep, hc, hd.1, ht']

theorem own_run {U : CaseFns} (h : List GAct) {s : PState} (hr : gRun U gInit h = some s) (ho : Spec.OnlyOwn U h) :
    ∃ t, gRun U gInit (Spec.withoutUsers h) = some t ∧ t.core = s.core ∧ CInv t.core :=
  own_run_from h [] rfl hr ho rfl CInv.init

/-! ## Callers who append -/

/-- The first heap, that callers appended to, has the denies of the second. -/
def HeapRel (mem : List Assertion) (hs ht : List PArr) : Prop :=
  hs.length = ht.length ∧ ∀ (n : Nat) (A B : PArr), hs[n]? = some A → ht[n]? = some B →
    A.cells.length = B.cells.length ∧ ∀ i : Nat, IsDeny mem B.cells[i]? → A.cells[i]? = B.cells[i]?

theorem HeapRel.get {mem : List Assertion} {hs ht : List PArr} (h : HeapRel mem hs ht) {n : Nat} {B : PArr} (hB : ht[n]? = some B) :
    ∃ A, hs[n]? = some A ∧ A.cells.length = B.cells.length ∧ ∀ i : Nat, IsDeny mem B.cells[i]? → A.cells[i]? = B.cells[i]? := by
  obtain ⟨A, hA⟩ := lt_get (l := hs) (i := n) (by have := (List.getElem?_eq_some_iff.mp hB).1; have := h.1; omega)
  exact ⟨A, hA, h.2 n A B hA hB⟩

theorem HeapRel.push {mem : List Assertion} {hs ht : List PArr} (h : HeapRel mem hs ht) {cs ct : List Cell} {spare : Nat}
    (hl : cs.length = ct.length) (hd : ∀ i : Nat, IsDeny mem ct[i]? → cs[i]? = ct[i]?) :
    HeapRel mem (hs ++ [newPArr cs spare]) (ht ++ [newPArr ct spare]) := by
  refine ⟨by simp [h.1], fun n A B hA hB => ?_⟩
  by_cases hn : n < ht.length
  · rw [List.getElem?_append_left (by have := h.1; omega)] at hA
    rw [List.getElem?_append_left hn] at hB
    exact h.2 n A B hA hB
  · rw [List.getElem?_append_right (by have := h.1; omega), h.1] at hA
    rw [List.getElem?_append_right (by omega)] at hB
    cases hnn : n - ht.length with
    | zero =>
      rw [hnn] at hA hB
      simp only [List.getElem?_cons_zero, Option.some.injEq] at hA hB
      subst hA hB
      refine ⟨by simp [newPArr, hl], fun i hi => ?_⟩
      rw [newPArr_get] at hi ⊢
      rw [newPArr_get]
      split at hi
      · rename_i hlt
        rw [if_pos (by omega), if_pos hlt]
        exact hd i hi
      · split at hi
        · exact absurd hi isDeny_nil
        · exact absurd hi isDeny_none
    | succ t => rw [hnn] at hA; simp at hA

theorem HeapRel.put {mem : List Assertion} {hs ht : List PArr} (h : HeapRel mem hs ht) {arr i : Nat} {A B : PArr} {c : Cell}
    (hA : hs[arr]? = some A) (hB : ht[arr]? = some B) (hi : i < B.cells.length) :
    HeapRel mem (hs.set arr { A with cells := A.cells.set i c }) (ht.set arr { B with cells := B.cells.set i c }) := by
  refine ⟨by simp [h.1], fun n A' B' hA' hB' => ?_⟩
  rw [set_get hA] at hA'
  rw [set_get hB] at hB'
  have h0 := h.2 arr A B hA hB
  split at hA'
  · rename_i hn
    rw [if_pos hn] at hB'
    cases hA'
    cases hB'
    refine ⟨by simp [h0.1], fun j hj => ?_⟩
    obtain ⟨a, ha⟩ := lt_get (l := A.cells) (i := i) (by have := h0.1; omega)
    obtain ⟨b, hb⟩ := lt_get hi
    simp only [set_get ha, set_get hb] at hj ⊢
    split
    · rfl
    · rename_i hne
      rw [if_neg hne] at hj
      exact h0.2 j hj
  · rename_i hn
    rw [if_neg hn] at hB'
    exact h.2 n A' B' hA' hB'

/-- A caller writes a cell that holds no deny. -/
theorem HeapRel.over {mem : List Assertion} {hs ht : List PArr} (h : HeapRel mem hs ht) {arr i : Nat} {A B : PArr} {c : Cell}
    (hA : hs[arr]? = some A) (hB : ht[arr]? = some B) (hi : i < A.cells.length) (hd : ¬ IsDeny mem B.cells[i]?) :
    HeapRel mem (hs.set arr { A with cells := A.cells.set i c }) ht := by
  refine ⟨by simp [h.1], fun n A' B' hA' hB' => ?_⟩
  rw [set_get hA] at hA'
  split at hA'
  · rename_i hn
    subst hn
    rw [hB] at hB'
    cases hA'
    cases hB'
    have h0 := h.2 arr A B hA hB
    refine ⟨by simp [h0.1], fun j hj => ?_⟩
    obtain ⟨a, ha⟩ := lt_get hi
    simp only [set_get ha]
    split
    · rename_i hij
      subst hij
      exact absurd hj hd
    · exact h0.2 j hj
  · exact h.2 n A' B' hA' hB'

theorem HeapRel.cells {mem : List Assertion} {hs ht : List PArr} (h : HeapRel mem hs ht) {sl : Slice} {B : PArr}
    (hB : ht[sl.arr]? = some B) :
    (sliceCells hs sl).length = (sliceCells ht sl).length ∧
    ∀ i : Nat, IsDeny mem (sliceCells ht sl)[i]? → (sliceCells hs sl)[i]? = (sliceCells ht sl)[i]? := by
  obtain ⟨A, hA, hl, hd⟩ := h.get hB
  refine ⟨by simp [sliceCells, hA, hB, hl], fun i hi => ?_⟩
  rw [sliceCells_get hB] at hi ⊢
  rw [sliceCells_get hA]
  split at hi
  · rename_i hlt; rw [if_pos hlt, if_pos hlt]; exact hd i hi
  · exact absurd hi isDeny_none

theorem insertCell_rel {mem : List Assertion} {hs ht : List PArr} {n spare : Nat} {old : Option Slice} (h : HeapRel mem hs ht)
    (ho : ∀ sl, old = some sl → PSlOk ht sl) :
    (insertCell mem hs n old spare).2 = (insertCell mem ht n old spare).2 ∧
    HeapRel mem (insertCell mem hs n old spare).1 (insertCell mem ht n old spare).1 := by
  cases old with
  | none => exact ⟨by simp [insertCell]; exact h.1, h.push rfl fun _ _ => rfl⟩
  | some sl =>
    obtain ⟨B, hB, hb, hl, hw⟩ := ho sl rfl
    obtain ⟨A, hA, hl', hd'⟩ := h.get hB
    have hc := h.cells hB
    simp only [insertCell]
    split
    · by_cases hroom : sl.len < B.cells.length
      · simp only [putCell, hA, hB, hl', hroom, if_true]
        exact ⟨trivial, h.put hA hB hroom⟩
      · simp only [putCell, hA, hB, hl', hroom, if_false]
        refine ⟨by rw [h.1], h.push (by simp [hc.1]) fun i hi => ?_⟩
        rw [List.getElem?_append] at hi ⊢
        rw [List.getElem?_append, hc.1]
        split at hi
        · rename_i hlt; rw [if_pos hlt, if_pos hlt]; exact hc.2 i hi
        · rename_i hlt; rw [if_neg hlt, if_neg hlt]
    · refine ⟨by simp [h.1], h.push (by simp [hc.1]) fun i hi => ?_⟩
      cases i with
      | zero => rfl
      | succ i => simp only [List.getElem?_cons_succ] at hi ⊢; exact hc.2 i hi

/-- The run with callers who append, and the run without them. -/
structure AppRel (s t : PState) : Prop where
  mem : s.core.mem = t.core.mem
  objs : s.core.objs = t.core.objs
  live : s.core.live = t.core.live
  jobs : s.core.jobs = t.core.jobs
  heap : HeapRel t.core.mem s.core.heap t.core.heap
  inv : CInv t.core
  held : ∀ f ∈ s.maps, ∀ k sl, f k = some (.shared sl) → ∃ B, t.core.heap[sl.arr]? = some B ∧ B.base ≤ sl.len

theorem HeapRel.mono {mem : List Assertion} {x : Assertion} {hs ht : List PArr} (h : HeapRel mem hs ht) (ha : ∀ A ∈ ht, PArrOk mem A) :
    HeapRel (mem ++ [x]) hs ht :=
  ⟨h.1, fun n A B hA hB => ⟨(h.2 n A B hA hB).1, fun i hi => (h.2 n A B hA hB).2 i ((ha B (List.mem_of_getElem? hB)).back hi)⟩⟩

theorem pCoreStep_ext {U : CaseFns} {c c' : PCore} {a : PAct} (hi : CInv c) (h : pCoreStep U c a = some c') : PExt c.heap c'.heap := by
  cases a with
  | add o a =>
    simp only [pCoreStep] at h
    split at h <;> cases h
    exact PExt.refl _
  | go j spare =>
    simp only [pCoreStep] at h
    split at h
    · cases h; exact PExt.refl _
    · rename_i o k n old hj
      have hjob := hi.jobs _ (List.mem_of_getElem? hj)
      cases h
      exact (insertCell_ok (spare := spare) hi.arrs hjob.1 hjob.2).2.2
    · cases h; exact PExt.refl _
    · cases h
  | drop o k => cases h; exact PExt.refl _
  | swap o => cases h; exact PExt.refl _

theorem AppRel.daemon {U : CaseFns} {s t s' : PState} {a : PAct} (hr : AppRel s t) (h : gStep U s (.daemon a) = some s') :
    ∃ t', gStep U t (.daemon a) = some t' ∧ AppRel s' t' := by
  have hd := gStep_daemon h
  have key : ∃ c', pCoreStep U t.core a = some c' ∧ s'.core.mem = c'.mem ∧ s'.core.objs = c'.objs ∧ s'.core.live = c'.live ∧
      s'.core.jobs = c'.jobs ∧ HeapRel c'.mem s'.core.heap c'.heap := by
    have h1 := hd.1
    generalize s'.core = sc at h1 ⊢
    cases a with
    | add o a =>
      simp only [pCoreStep] at h1 ⊢
      split at h1
      · cases h1
        rename_i x hx
        exact ⟨_, rfl, by simp [hr.mem], hr.objs, hr.live, by simp [hr.jobs, hr.mem], hr.heap.mono hr.inv.arrs⟩
      · cases h1
    | go j spare =>
      simp only [pCoreStep, hr.jobs, hr.objs, hr.mem] at h1 ⊢
      split at h1
      · rename_i hj
        cases h1
        exact ⟨_, rfl, rfl, rfl, hr.live, rfl, hr.heap⟩
      · rename_i o k n old hj
        have hjob := hr.inv.jobs _ (List.mem_of_getElem? hj)
        have hins := insertCell_rel (n := n) (spare := spare) hr.heap hjob.2
        cases h1
        exact ⟨_, rfl, rfl, rfl, hr.live, by simp only [hins.1], hins.2⟩
      · cases h1
        exact ⟨_, rfl, rfl, rfl, hr.live, rfl, hr.heap⟩
      · cases h1
    | drop o k => cases h1; exact ⟨_, rfl, hr.mem, by simp [hr.objs], hr.live, hr.jobs, hr.heap⟩
    | swap o => cases h1; exact ⟨_, rfl, hr.mem, hr.objs, rfl, hr.jobs, hr.heap⟩
  obtain ⟨c', hc, k1, k2, k3, k4, k5⟩ := key
  refine ⟨{ t with core := c' }, by simp [gStep, hc], k1, k2, k3, k4, k5, hr.inv.step hc, fun f hf k sl hs => ?_⟩
  rw [hd.2.2] at hf
  obtain ⟨B, hB, hb⟩ := hr.held f hf k sl hs
  obtain ⟨B', hB', e1, _⟩ := pCoreStep_ext hr.inv hc _ B hB
  exact ⟨B', hB', by omega⟩

theorem setMap_held {P : Slice → Prop} {maps : List (Str → Option Handed)} {m : Nat} {k : Str} {v : Option Handed}
    (h : ∀ f ∈ maps, ∀ k sl, f k = some (.shared sl) → P sl) (hv : ∀ sl, v = some (.shared sl) → P sl) :
    ∀ f ∈ setMap maps m k v, ∀ k sl, f k = some (.shared sl) → P sl := by
  intro f hf k' sl hs
  unfold setMap at hf
  split at hf
  · rename_i g hg
    rcases List.mem_or_eq_of_mem_set hf with hf | rfl
    · exact h f hf k' sl hs
    · simp only at hs
      split at hs
      · exact hv sl hs
      · exact h g (List.mem_of_getElem? hg) k' sl hs
  · exact h f hf k' sl hs

theorem bind_held {P : Slice → Prop} {maps : List (Str → Option Handed)} {m : Nat} {k : Str} {sl : Slice}
    (h : ∀ f ∈ maps, ∀ k sl, f k = some (.shared sl) → P sl) (hb : (maps[m]?).bind (· k) = some (.shared sl)) : P sl := by
  obtain ⟨f, hf, hk⟩ := Option.bind_eq_some_iff.mp hb
  exact h f (List.mem_of_getElem? hf) k sl hk

theorem AppRel.user {s t s' : PState} {a : UAct} (hr : AppRel s t) (h : userStep s a = some s') (ha : Spec.AppendOnly (.user a)) :
    AppRel s' t := by
  cases a with
  | hand =>
    cases h
    refine ⟨hr.mem, hr.objs, hr.live, hr.jobs, hr.heap, hr.inv, fun f hf k sl hs => ?_⟩
    rcases List.mem_append.mp hf with hf | hf
    · exact hr.held f hf k sl hs
    · rw [List.mem_singleton.mp hf] at hs
      obtain ⟨sl', h1, h2⟩ := Option.map_eq_some_iff.mp hs
      cases h2
      rw [hr.objs] at h1
      obtain ⟨B, hB, hb, _⟩ := hr.inv.objs _ _ _ h1
      exact ⟨B, hB, hb⟩
  | del m k => cases h; exact ⟨hr.mem, hr.objs, hr.live, hr.jobs, hr.heap, hr.inv, setMap_held hr.held (by simp)⟩
  | copy m k k' =>
    simp only [userStep] at h
    split at h
    · rename_i v hv
      cases h
      exact ⟨hr.mem, hr.objs, hr.live, hr.jobs, hr.heap, hr.inv, setMap_held hr.held (fun sl hs => by cases hs; exact bind_held hr.held hv)⟩
    · cases h
  | lit m k xs => cases h; exact ⟨hr.mem, hr.objs, hr.live, hr.jobs, hr.heap, hr.inv, setMap_held hr.held (by simp)⟩
  | reslice => exact ha.elim
  | cell => exact ha.elim
  | field => exact ha.elim
  | append m k v =>
    simp only [userStep] at h
    split at h
    · rename_i c mine sl hv hm
      obtain ⟨B, hB, hb⟩ := bind_held (P := fun sl => ∃ B, t.core.heap[sl.arr]? = some B ∧ B.base ≤ sl.len) hr.held hm
      split at h
      · rename_i heap hp
        obtain ⟨A, hA, hi, rfl⟩ := putCell_some hp
        cases h
        refine ⟨hr.mem, hr.objs, hr.live, hr.jobs,
          hr.heap.over hA hB hi ((hr.inv.arrs B (List.mem_of_getElem? hB)).upper _ hb), hr.inv, setMap_held hr.held fun sl' hs => ?_⟩
        cases hs
        exact ⟨B, hB, by simp only; omega⟩
      · cases h
        exact ⟨hr.mem, hr.objs, hr.live, hr.jobs, hr.heap, hr.inv, setMap_held hr.held (by simp)⟩
    · cases h
      exact ⟨hr.mem, hr.objs, hr.live, hr.jobs, hr.heap, hr.inv, setMap_held hr.held (by simp)⟩
    · cases h

theorem append_run {U : CaseFns} (h : List GAct) {s t s' : PState} (hr : AppRel s t) (hs : gRun U s h = some s')
    (ha : ∀ a ∈ h, Spec.AppendOnly a) : ∃ t', gRun U t (Spec.withoutUsers h) = some t' ∧ AppRel s' t' := by
  induction h generalizing s t with
  | nil => cases hs; exact ⟨t, rfl, hr⟩
  | cons a as ih =>
    simp only [gRun] at hs
    split at hs
    · cases hs
    · rename_i u hu
      have ha' : ∀ b ∈ as, Spec.AppendOnly b := fun b hb => ha b (List.mem_cons_of_mem _ hb)
      cases a with
      | daemon a =>
        obtain ⟨t1, ht1, hr1⟩ := hr.daemon hu
        obtain ⟨t', ht', hr'⟩ := ih hr1 hs ha'
        exact ⟨t', by simp only [Spec.withoutUsers, List.filter_cons] at ht' ⊢; simp [gRun, ht1, ht'], hr'⟩
      | user a =>
        obtain ⟨t', ht', hr'⟩ := ih (hr.user hu (ha _ (List.mem_cons_self ..))) hs ha'
        exact ⟨t', by simpa [Spec.withoutUsers] using ht', hr'⟩

theorem AppRel.init : AppRel gInit gInit :=
  ⟨rfl, rfl, rfl, rfl, ⟨rfl, fun _ _ _ hA hB => by simp [gInit, pCoreInit] at hA⟩, CInv.init, by simp [gInit]⟩

/-- What checks find: the same denies in front. -/
theorem AppRel.seen {s t : PState} (hr : AppRel s t) {k : Str} {l : List (Option Assertion)} (hl : t.seen k = some l) :
    ∃ l', s.seen k = some l' ∧ l'.length = l.length ∧ Spec.KeepsDenies l l' := by
  simp only [PState.seen, Option.map_eq_some_iff] at hl
  obtain ⟨sl, hsl, rfl⟩ := hl
  obtain ⟨B, hB, hb, hlen, _⟩ := hr.inv.objs _ _ _ hsl
  have hc := hr.heap.cells hB
  have hBok := hr.inv.arrs B (List.mem_of_getElem? hB)
  refine ⟨(sliceCells s.core.heap sl).map s.deref, by simp [PState.seen, hr.objs, hr.live, hsl], by simp [hc.1], ?_⟩
  intro i a hi he j hj
  simp only [List.getElem?_map, Option.map_eq_some_iff] at hi
  obtain ⟨c, hci, hca⟩ := hi
  have hden : IsDeny t.core.mem (sliceCells t.core.heap sl)[i]? := by
    have hci' := hci
    rw [sliceCells_get hB] at hci'
    split at hci'
    · rcases hBok.valid i c hci' with rfl | ⟨n, rfl, hn⟩
      · cases hca
      · exact ⟨n, a, hci, hca, he⟩
    · cases hci'
  have hdj : IsDeny t.core.mem (sliceCells t.core.heap sl)[j]? := by
    rcases Nat.lt_or_ge j i with hlt | hge
    · rw [sliceCells_get hB] at hden ⊢
      split at hden
      · rw [if_pos (by omega)]; exact hBok.first j i hlt hden
      · exact absurd hden isDeny_none
    · rw [show j = i by omega]; exact hden
  simp only [List.getElem?_map]
  rw [hc.2 j hdj]
  obtain ⟨n, b, h1, h2, _⟩ := hdj
  simp [h1, PState.deref, hr.mem]

/-- Without callers no pointer is nil. -/
theorem CInv.noNil {t : PState} (hi : CInv t.core) {k : Str} {l : List (Option Assertion)} (hl : t.seen k = some l) : none ∉ l := by
  simp only [PState.seen, Option.map_eq_some_iff] at hl
  obtain ⟨sl, hsl, rfl⟩ := hl
  obtain ⟨B, hB, hb, hlen, hw⟩ := hi.objs _ _ _ hsl
  intro hn
  obtain ⟨c, hc, hd⟩ := List.mem_map.mp hn
  obtain ⟨i, hci⟩ := List.mem_iff_getElem?.mp hc
  rw [sliceCells_get hB] at hci
  split at hci
  · rename_i hlt
    rcases (hi.arrs B (List.mem_of_getElem? hB)).valid i c hci with rfl | ⟨n, rfl, hn⟩
    · exact hw i hlt hci
    · simp only [PState.deref] at hd
      rw [List.getElem?_eq_none_iff] at hd
      omega
  · cases hci

/-- A role that is denied stays denied if the denies are kept. -/
theorem KeepsDenies.verdict {U : CaseFns} {q : CheckReq} {l l' : List (Option Assertion)} (hk : Spec.KeepsDenies l l') (hn : none ∉ l)
    {e : Err} (h : firstMatch U q (l.filterMap id) = some (some e)) : firstMatch U q (l'.filterMap id) = some (some e) := by
  have hl : l = (l.filterMap id).map some := by
    clear hk h
    induction l with
    | nil => rfl
    | cons x xs ih =>
      cases x with
      | none => simp at hn
      | some x => simp at hn ⊢; simpa using ih hn
  simp only [firstMatch, Option.map_eq_some_iff] at h ⊢
  obtain ⟨a, ha, hae⟩ := h
  refine ⟨a, ?_, hae⟩
  obtain ⟨hm, pre, post, hpp, hpre⟩ := List.find?_eq_some_iff_append.mp ha
  rw [hpp] at hl
  have hkk := hk pre.length a (by rw [hl]; simp) (by rw [hae]; simp)
  have htake : l'.take (pre.length + 1) = (pre ++ [a]).map some := by
    apply List.ext_getElem?
    intro j
    rw [List.getElem?_take]
    split
    · rw [hkk j (by omega), hl]
      rw [show pre ++ a :: post = (pre ++ [a]) ++ post by simp, List.map_append]
      rw [List.getElem?_append_left (by simp; omega)]
    · rw [List.getElem?_eq_none (by simp; omega)]
  refine List.find?_eq_some_iff_append.mpr ⟨hm, pre, (l'.drop (pre.length + 1)).filterMap id, ?_, hpre⟩
  conv => lhs; rw [← List.take_append_drop (pre.length + 1) l']
  rw [List.filterMap_append, htake]
  simp

end Athenz
