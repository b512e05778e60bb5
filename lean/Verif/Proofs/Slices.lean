import Verif.Model.Slices
import Verif.Proofs.Update
import Verif.Proofs.Policyd

/-! What sharing of arrays can and cannot do to the lists that checks read. -/

namespace Athenz

/-- An array that was made for a role with `d` denies in front: only allows are behind them, and everything is from the documents. -/
structure ArrOk (U : CaseFns) (B : List RawAssertion) (k : Str) (d : Nat) (A : Arr) : Prop where
  le : d ≤ A.cells.length
  deny : ∀ x ∈ A.cells.take d, x.effect ≠ none
  allow : ∀ x ∈ A.cells.drop d, x.effect = none
  src : ∀ x ∈ A.cells, ∃ a ∈ B, a.role = k ∧ a.conv U = some x

/-- A slice of an array of role `k`, not shorter than the denies and not longer than what was written. -/
def SlOk (heap : List Arr) (tags : List (Str × Nat)) (k : Str) (s : Slice) : Prop :=
  ∃ A d, heap[s.arr]? = some A ∧ tags[s.arr]? = some (k, d) ∧ d ≤ s.len ∧ s.len ≤ A.cells.length

/-- Later heaps: arrays grow, and the denies stay as they are. -/
def Ext (heap : List Arr) (tags : List (Str × Nat)) (heap' : List Arr) (tags' : List (Str × Nat)) : Prop :=
  (∀ (n : Nat) (m : Str × Nat), tags[n]? = some m → tags'[n]? = some m) ∧
  ∀ (n : Nat) (A : Arr) (m : Str × Nat), heap[n]? = some A → tags[n]? = some m → ∃ A', heap'[n]? = some A' ∧
    A.cells.length ≤ A'.cells.length ∧ A'.cells.take m.2 = A.cells.take m.2

theorem Ext.refl (heap : List Arr) (tags : List (Str × Nat)) : Ext heap tags heap tags :=
  ⟨fun _ _ h => h, fun _ A _ h _ => ⟨A, h, Nat.le_refl _, rfl⟩⟩

theorem SlOk.ext {heap heap' : List Arr} {tags tags' : List (Str × Nat)} {k : Str} {s : Slice} (h : SlOk heap tags k s)
    (he : Ext heap tags heap' tags') : SlOk heap' tags' k s := by
  obtain ⟨A, d, hA, hm, h1, h2⟩ := h
  obtain ⟨A', hA', hle, _⟩ := he.2 _ A _ hA hm
  exact ⟨A', d, hA', he.1 _ _ hm, h1, by omega⟩

def HPcOk (heap : List Arr) (tags : List (Str × Nat)) (k : Str) : HPc → Prop
  | .idle => True
  | .got old => ∀ s, old = some s → SlOk heap tags k s
  | .made old s => (∀ s, old = some s → SlOk heap tags k s) ∧ SlOk heap tags k s

def HJobOk (heap : List Arr) (tags : List (Str × Nat)) (B : List RawAssertion) : HJob → Prop
  | .fill _ todo pc => (∀ a ∈ todo, a ∈ B) ∧ ∀ a rest, todo = a :: rest → HPcOk heap tags a.role pc
  | .done _ => True

/-- What a worker has read: the denies that it loaded, as far as it got, and then allows from the documents. -/
structure ReadOk (U : CaseFns) (heap : List Arr) (tags : List (Str × Nat)) (B : List RawAssertion) (r : HRead) : Prop where
  len : r.loaded.length = r.sl.len
  pos : r.seen.length = r.pos
  le : r.pos ≤ r.sl.len
  arr : ∃ A d, heap[r.sl.arr]? = some A ∧ tags[r.sl.arr]? = some (r.key, d) ∧ d ≤ r.sl.len ∧ r.sl.len ≤ A.cells.length ∧
    r.loaded.take d = A.cells.take d ∧ (∀ x ∈ r.loaded.take d, x.effect ≠ none) ∧ (∀ x ∈ r.loaded.drop d, x.effect = none) ∧
    r.seen.take d = (r.loaded.take d).take r.pos ∧ ∀ x ∈ r.seen.drop d, x.effect = none
  src : ∀ x ∈ r.seen, ∃ a ∈ B, a.role = r.key ∧ a.conv U = some x

structure HInv (U : CaseFns) (s : HState) (tags : List (Str × Nat)) : Prop where
  len : tags.length = s.heap.length
  arrs : ∀ (n : Nat) (A : Arr) (k : Str) (d : Nat), s.heap[n]? = some A → tags[n]? = some (k, d) → ArrOk U s.begun k d A
  rp : ∀ k e, s.rp k = some e → SlOk s.heap tags k e.val
  jobs : ∀ j ∈ s.jobs, HJobOk s.heap tags s.begun j
  reads : ∀ r ∈ s.reads, ReadOk U s.heap tags s.begun r

theorem ArrOk.mono {U : CaseFns} {B B' : List RawAssertion} {k : Str} {d : Nat} {A : Arr} (h : ArrOk U B k d A) (hB : ∀ a ∈ B, a ∈ B') :
    ArrOk U B' k d A :=
  ⟨h.le, h.deny, h.allow, fun x hx => by obtain ⟨a, ha, h'⟩ := h.src x hx; exact ⟨a, hB a ha, h'⟩⟩

theorem HPcOk.ext {heap heap' : List Arr} {tags tags' : List (Str × Nat)} {k : Str} {pc : HPc} (h : HPcOk heap tags k pc)
    (he : Ext heap tags heap' tags') : HPcOk heap' tags' k pc := by
  cases pc with
  | idle => trivial
  | got old => exact fun s hs => (h s hs).ext he
  | made old s => exact ⟨fun s hs => (h.1 s hs).ext he, h.2.ext he⟩

theorem HJobOk.ext {heap heap' : List Arr} {tags tags' : List (Str × Nat)} {B B' : List RawAssertion} {j : HJob} (h : HJobOk heap tags B j)
    (he : Ext heap tags heap' tags') (hB : ∀ a ∈ B, a ∈ B') : HJobOk heap' tags' B' j := by
  cases j with
  | fill ttl todo pc => exact ⟨fun a ha => hB a (h.1 a ha), fun a rest hr => (h.2 a rest hr).ext he⟩
  | done e => trivial

theorem ReadOk.ext {U : CaseFns} {heap heap' : List Arr} {tags tags' : List (Str × Nat)} {B B' : List RawAssertion} {r : HRead}
    (h : ReadOk U heap tags B r) (he : Ext heap tags heap' tags') (hB : ∀ a ∈ B, a ∈ B') : ReadOk U heap' tags' B' r := by
  refine ⟨h.len, h.pos, h.le, ?_, fun x hx => by obtain ⟨a, ha, h'⟩ := h.src x hx; exact ⟨a, hB a ha, h'⟩⟩
  obtain ⟨A, d, hA, hm, h1, h2, h3, h4⟩ := h.arr
  obtain ⟨A', hA', hle, ht⟩ := he.2 _ A _ hA hm
  exact ⟨A', d, hA', he.1 _ _ hm, h1, by omega, by rw [ht]; exact h3, h4⟩

theorem HInv.congr {U : CaseFns} {s s' : HState} {tags : List (Str × Nat)} (h : HInv U s tags) (hh : s'.heap = s.heap) (hrp : ∀ k e, s'.rp k = some e → SlOk s.heap tags k e.val)
    (hB : ∀ a ∈ s.begun, a ∈ s'.begun) (hj : ∀ j ∈ s'.jobs, HJobOk s.heap tags s'.begun j)
    (hr : ∀ r ∈ s'.reads, ReadOk U s.heap tags s'.begun r) : HInv U s' tags := by
  refine ⟨by rw [hh]; exact h.len, ?_, ?_, ?_, ?_⟩
  · intro n A k d hA hm; rw [hh] at hA; exact (h.arrs n A k d hA hm).mono hB
  · intro k e he; rw [hh]; exact hrp k e he
  · intro j hjm; rw [hh]; exact hj j hjm
  · intro r hrm; rw [hh]; exact hr r hrm

theorem HInv.setJob {U : CaseFns} {s : HState} {tags : List (Str × Nat)} (h : HInv U s tags) {i : Nat} {j : HJob} (hj : HJobOk s.heap tags s.begun j) :
    ∀ x ∈ s.jobs.set i j, HJobOk s.heap tags s.begun x := by
  intro x hx
  rcases List.mem_or_eq_of_mem_set hx with hx | rfl
  · exact h.jobs x hx
  · exact hj

theorem gache_get_some {V : Type} {g : Gache V} {now : Int} {k : Str} {v : V} (h : g.get now k = some v) : ∃ e, g k = some e ∧ e.val = v := by
  unfold Gache.get at h
  split at h
  · simp at h
  · rename_i e he
    split at h
    · simp only [Option.some.injEq] at h; exact ⟨e, he, h⟩
    · simp at h

theorem SlOk.content {U : CaseFns} {s : HState} {tags : List (Str × Nat)} (hi : HInv U s tags) {k : Str} {sl : Slice} (h : SlOk s.heap tags k sl) :
    ∃ d, tags[sl.arr]? = some (k, d) ∧ d ≤ sl.len ∧ (sliceVal s.heap sl).length = sl.len ∧ (∀ x ∈ (sliceVal s.heap sl).take d, x.effect ≠ none) ∧
      (∀ x ∈ (sliceVal s.heap sl).drop d, x.effect = none) ∧ ∀ x ∈ sliceVal s.heap sl, ∃ a ∈ s.begun, a.role = k ∧ a.conv U = some x := by
  obtain ⟨A, d, hA, hm, h1, h2⟩ := h
  have ho := hi.arrs _ A k d hA hm
  have hv : sliceVal s.heap sl = A.cells.take sl.len := by simp [sliceVal, hA]
  refine ⟨d, hm, h1, by rw [hv, List.length_take]; omega, ?_, ?_, ?_⟩
  · rw [hv, List.take_take, show min d sl.len = d by omega]; exact ho.deny
  · rw [hv]; intro x hx
    rw [List.drop_take] at hx
    exact ho.allow x (List.mem_of_mem_take hx)
  · rw [hv]; intro x hx; exact ho.src x (List.mem_of_mem_take hx)

/-- Adding an array. -/
theorem ext_append {heap : List Arr} {tags : List (Str × Nat)} (A : Arr) (m : Str × Nat) :
    Ext heap tags (heap ++ [A]) (tags ++ [m]) := by
  refine ⟨fun n m' h => ?_, fun n A' m' hA hm => ⟨A', ?_, Nat.le_refl _, rfl⟩⟩
  · rw [List.getElem?_append_left (List.getElem?_eq_some_iff.mp h).1]; exact h
  · rw [List.getElem?_append_left (List.getElem?_eq_some_iff.mp hA).1]; exact hA

theorem take_set_ge {α : Type} (l : List α) (d i : Nat) (x : α) (h : d ≤ i) : (l.set i x).take d = l.take d := by
  rw [List.take_set, List.set_eq_of_length_le (by rw [List.length_take]; omega)]

/-- Writing an allow behind a slice. -/
theorem put_ok {U : CaseFns} {B : List RawAssertion} {k : Str} {d : Nat} {A A' : Arr} {i : Nat} {x : Assertion} (h : ArrOk U B k d A)
    (hd : d ≤ i) (hi : i ≤ A.cells.length) (hx : x.effect = none) (hs : ∃ a ∈ B, a.role = k ∧ a.conv U = some x) (hp : A.put i x = some A') :
    ArrOk U B k d A' ∧ A.cells.length ≤ A'.cells.length ∧ i < A'.cells.length ∧ A'.cells.take d = A.cells.take d ∧
      A'.cells.take (i + 1) = A.cells.take i ++ [x] := by
  unfold Arr.put at hp
  split at hp
  · rename_i hlt
    simp only [Option.some.injEq] at hp; subst hp
    have ht := take_set_ge A.cells d i x hd
    refine ⟨⟨by simpa using h.le, by simp only [ht]; exact h.deny, ?_, ?_⟩, by simp, by simpa using hlt, ht, ?_⟩
    · simp only
      intro y hy
      rw [List.drop_set] at hy
      split at hy
      · omega
      · rcases List.mem_or_eq_of_mem_set hy with hy | rfl
        · exact h.allow y hy
        · exact hx
    · simp only
      intro y hy
      rcases List.mem_or_eq_of_mem_set hy with hy | rfl
      · exact h.src y hy
      · exact hs
    · simp only
      rw [List.take_add_one, take_set_ge _ _ _ _ (Nat.le_refl i), List.getElem?_set_self hlt]
      rfl
  · rename_i hge
    split at hp
    · simp only [Option.some.injEq] at hp; subst hp
      have hieq : i = A.cells.length := by omega
      subst hieq
      have ht : (A.cells ++ [x]).take d = A.cells.take d := List.take_append_of_le_length h.le
      refine ⟨⟨by simp; have := h.le; omega, by simp only [ht]; exact h.deny, ?_, ?_⟩, by simp, by simp, ht, ?_⟩
      · simp only
        intro y hy
        rw [List.drop_append_of_le_length h.le] at hy
        rcases List.mem_append.mp hy with hy | hy
        · exact h.allow y hy
        · rw [List.mem_singleton.mp hy]; exact hx
      · simp only
        intro y hy
        rcases List.mem_append.mp hy with hy | hy
        · exact h.src y hy
        · rw [List.mem_singleton.mp hy]; exact hs
      · simp only
        rw [List.take_of_length_le (by simp), List.take_of_length_le (Nat.le_refl _)]
    · simp at hp

/-- What line 368-378 does to the heap. -/
theorem insertSlice_ok {U : CaseFns} {s : HState} {tags : List (Str × Nat)} (hi : HInv U s tags) {a : RawAssertion} {x : Assertion}
    (ha : a ∈ s.begun) (hx : a.conv U = some x) {old : Option Slice} (ho : ∀ sl, old = some sl → SlOk s.heap tags a.role sl) (spare : Nat) :
    ∃ tags', Ext s.heap tags (insertSlice s.heap x old spare).1 tags' ∧ tags'.length = (insertSlice s.heap x old spare).1.length ∧
      (∀ (n : Nat) (A : Arr) (k : Str) (d : Nat), (insertSlice s.heap x old spare).1[n]? = some A → tags'[n]? = some (k, d) →
        ArrOk U s.begun k d A) ∧
      SlOk (insertSlice s.heap x old spare).1 tags' a.role (insertSlice s.heap x old spare).2 := by
  have hsrc : ∃ b ∈ s.begun, b.role = a.role ∧ b.conv U = some x := ⟨a, ha, rfl, hx⟩
  -- a new array
  have hnew : ∀ (A : Arr) (d : Nat), ArrOk U s.begun a.role d A → ∃ tags', Ext s.heap tags (s.heap ++ [A]) tags' ∧
      tags'.length = (s.heap ++ [A]).length ∧
      (∀ (n : Nat) (A' : Arr) (k : Str) (d : Nat), (s.heap ++ [A])[n]? = some A' → tags'[n]? = some (k, d) → ArrOk U s.begun k d A') ∧
      SlOk (s.heap ++ [A]) tags' a.role ⟨s.heap.length, A.cells.length⟩ := by
    intro A d hA
    refine ⟨tags ++ [(a.role, d)], ext_append A _, by simp [hi.len], ?_, ⟨A, d, by simp, by simp [← hi.len], hA.le, Nat.le_refl _⟩⟩
    intro n A' k d' hn hm
    by_cases hlt : n < s.heap.length
    · rw [List.getElem?_append_left hlt] at hn
      rw [List.getElem?_append_left (by rw [hi.len]; exact hlt)] at hm
      exact hi.arrs n A' k d' hn hm
    · have hle : n < (s.heap ++ [A]).length := (List.getElem?_eq_some_iff.mp hn).1
      have : n = s.heap.length := by simp at hle; omega
      subst this
      simp only [List.getElem?_append_right (Nat.le_refl _), Nat.sub_self, List.getElem?_cons_zero, Option.some.injEq] at hn
      rw [← hi.len] at hm
      simp only [List.getElem?_append_right (Nat.le_refl _), Nat.sub_self, List.getElem?_cons_zero, Option.some.injEq, Prod.mk.injEq] at hm
      obtain ⟨rfl, rfl⟩ := hm
      subst hn
      exact hA
  unfold insertSlice
  cases old with
  | none =>
    simp only
    by_cases hxe : x.effect = none
    · exact hnew ⟨[x], 0⟩ 0 ⟨by simp, by simp, by simp [hxe], by simpa using hsrc⟩
    · exact hnew ⟨[x], 0⟩ 1 ⟨by simp, by simp [hxe], by simp, by simpa using hsrc⟩
  | some sl =>
    obtain ⟨d, hm, hd, hlen, hden, hall, hsrc'⟩ := (ho sl rfl).content hi
    simp only
    split
    · rename_i hxe
      split
      · rename_i A' hput
        obtain ⟨A, d', hA, hm', hd', hle⟩ := ho sl rfl
        rw [hm] at hm'
        obtain rfl : d = d' := by simpa using hm'
        rw [hA, Option.bind_some] at hput
        obtain ⟨hok, hgrow, hlt, htake, _⟩ := put_ok (hi.arrs _ A _ _ hA hm) hd hle hxe hsrc hput
        have hb : sl.arr < s.heap.length := (List.getElem?_eq_some_iff.mp hA).1
        refine ⟨tags, ⟨fun _ _ h => h, ?_⟩, by simpa using hi.len, ?_, ⟨A', d, by rw [List.getElem?_set_self hb], hm, by simp only; omega, hlt⟩⟩
        · intro n B m hB hmB
          by_cases hn : sl.arr = n
          · subst hn
            rw [hA] at hB
            obtain rfl := Option.some.inj hB
            rw [hm] at hmB
            obtain rfl := Option.some.inj hmB
            exact ⟨A', by rw [List.getElem?_set_self hb], hgrow, htake⟩
          · exact ⟨B, by rw [List.getElem?_set_ne hn]; exact hB, Nat.le_refl _, rfl⟩
        · intro n B k d'' hB hmB
          by_cases hn : sl.arr = n
          · subst hn
            rw [List.getElem?_set_self hb] at hB
            obtain rfl := Option.some.inj hB
            rw [hm] at hmB
            simp only [Option.some.injEq, Prod.mk.injEq] at hmB
            obtain ⟨rfl, rfl⟩ := hmB
            exact hok
          · rw [List.getElem?_set_ne hn] at hB
            exact hi.arrs n B k d'' hB hmB
      · have := hnew ⟨sliceVal s.heap sl ++ [x], spare⟩ d ⟨by simp; omega, ?_, ?_, ?_⟩
        · simpa [hlen] using this
        · simp only; rw [List.take_append_of_le_length (by omega)]; exact hden
        · simp only; rw [List.drop_append_of_le_length (by omega)]
          intro y hy
          rcases List.mem_append.mp hy with hy | hy
          · exact hall y hy
          · rw [List.mem_singleton.mp hy]; exact hxe
        · simp only
          intro y hy
          rcases List.mem_append.mp hy with hy | hy
          · exact hsrc' y hy
          · rw [List.mem_singleton.mp hy]; exact hsrc
    · rename_i hxe
      have := hnew ⟨x :: sliceVal s.heap sl, spare⟩ (d + 1) ⟨by simp; omega, ?_, ?_, ?_⟩
      · simpa [hlen] using this
      · simp only [List.take_succ_cons]
        intro y hy
        rcases List.mem_cons.mp hy with rfl | hy
        · exact hxe
        · exact hden y hy
      · simp only [List.drop_succ_cons]; exact hall
      · simp only
        intro y hy
        rcases List.mem_cons.mp hy with rfl | hy
        · exact hsrc
        · exact hsrc' y hy

theorem hInit_inv (U : CaseFns) (now : Int) : HInv U (hInit now) [] :=
  ⟨rfl, by simp [hInit], by simp [hInit, Gache.empty], by simp [hInit], by simp [hInit]⟩

theorem HInv.step {U : CaseFns} {s s' : HState} {tags : List (Str × Nat)} (h : HInv U s tags) {a : HAct} (hs : hStep U s a = some s') :
    ∃ tags', HInv U s' tags' ∧ Ext s.heap tags s'.heap tags' := by
  cases a with
  | tick d =>
    simp only [hStep, Option.some.injEq] at hs; subst hs
    exact ⟨tags, h.congr rfl h.rp (fun _ h => h) h.jobs h.reads, .refl _ _⟩
  | begin ttl todo =>
    simp only [hStep, Option.some.injEq] at hs; subst hs
    have hB : ∀ a ∈ s.begun, a ∈ s.begun ++ todo := fun a ha => List.mem_append_left _ ha
    refine ⟨tags, h.congr rfl h.rp hB ?_ fun r hr => (h.reads r hr).ext (.refl _ _) hB, .refl _ _⟩
    intro j hj
    rcases List.mem_append.mp hj with hj | hj
    · exact (h.jobs j hj).ext (.refl _ _) hB
    · rw [List.mem_singleton.mp hj]
      exact ⟨fun a ha => List.mem_append_right _ ha, fun _ _ _ => trivial⟩
  | fill i spare =>
    simp only [hStep] at hs
    split at hs
    · simp only [Option.some.injEq] at hs; subst hs
      exact ⟨tags, h.congr rfl h.rp (fun _ h => h) (h.setJob trivial) h.reads, .refl _ _⟩
    · rename_i ttl a rest hj
      have hjo := h.jobs _ (List.mem_of_getElem? hj)
      split at hs
      · simp only [Option.some.injEq] at hs; subst hs
        refine ⟨tags, h.congr rfl h.rp (fun _ h => h) (h.setJob ⟨hjo.1, ?_⟩) h.reads, .refl _ _⟩
        intro b r hbr
        simp only [List.cons.injEq] at hbr
        obtain ⟨rfl, rfl⟩ := hbr
        intro sl hsl
        obtain ⟨e, he, rfl⟩ := gache_get_some hsl
        exact h.rp _ e he
      · simp only [Option.some.injEq] at hs; subst hs
        exact ⟨tags, h.congr rfl h.rp (fun _ h => h) (h.setJob trivial) h.reads, .refl _ _⟩
      · simp at hs
    · rename_i ttl a rest old hj
      have hjo := h.jobs _ (List.mem_of_getElem? hj)
      split at hs
      · rename_i x hx
        simp only [Option.some.injEq] at hs; subst hs
        have hcv : a.conv U = some x := by simp [RawAssertion.conv, hx]
        obtain ⟨tags', hext, hlen, harr, hsl⟩ := insertSlice_ok h (hjo.1 a (by simp)) hcv (hjo.2 a rest rfl) spare
        refine ⟨tags', ⟨hlen, harr, fun k e he => (h.rp k e he).ext hext, ?_, fun r hr => (h.reads r hr).ext hext fun _ h => h⟩, hext⟩
        intro j hjm
        rcases List.mem_or_eq_of_mem_set hjm with hjm | rfl
        · exact (h.jobs j hjm).ext hext fun _ h => h
        · refine ⟨hjo.1, ?_⟩
          intro b r hbr
          simp only [List.cons.injEq] at hbr
          obtain ⟨rfl, rfl⟩ := hbr
          exact ⟨fun sl hsl => (hjo.2 a rest rfl sl hsl).ext hext, hsl⟩
      · simp at hs
    · rename_i ttl a rest old sl hj
      have hjo := h.jobs _ (List.mem_of_getElem? hj)
      simp only [Option.some.injEq] at hs; subst hs
      refine ⟨tags, h.congr rfl ?_ (fun _ h => h) (h.setJob ⟨fun b hb => hjo.1 b (List.mem_cons_of_mem _ hb), fun _ _ _ => trivial⟩) h.reads,
        .refl _ _⟩
      intro k e he
      simp only [Gache.set] at he
      split at he
      · rename_i hk
        simp only [Option.some.injEq] at he
        subst he; subst hk
        exact (hjo.2 a rest rfl).2
      · exact h.rp k e he
    · simp at hs
  | expire k =>
    simp only [hStep] at hs
    split at hs
    · simp at hs
    · split at hs
      · simp at hs
      · simp only [Option.some.injEq] at hs; subst hs
        refine ⟨tags, h.congr rfl ?_ (fun _ h => h) h.jobs h.reads, .refl _ _⟩
        intro k' e he
        simp only [Gache.delete] at he
        split at he
        · simp at he
        · exact h.rp k' e he
  | load k =>
    simp only [hStep] at hs
    split at hs
    · simp at hs
    · rename_i sl hsl
      simp only [Option.some.injEq] at hs; subst hs
      obtain ⟨e, he, rfl⟩ := gache_get_some hsl
      have hok := h.rp k e he
      obtain ⟨d, hm, hd, hlen, hden, hall, hsrc⟩ := hok.content h
      obtain ⟨A, d', hA, hm', _, hle⟩ := hok
      rw [hm] at hm'
      obtain rfl : d = d' := by simpa using hm'
      refine ⟨tags, h.congr rfl h.rp (fun _ h => h) h.jobs ?_, .refl _ _⟩
      intro r hr
      rcases List.mem_append.mp hr with hr | hr
      · exact h.reads r hr
      · rw [List.mem_singleton.mp hr]
        refine ⟨hlen, rfl, Nat.zero_le _, ⟨A, d, hA, hm, hd, hle, ?_, hden, hall, by simp, by simp⟩, by simp⟩
        simp only [sliceVal, hA, List.take_take]
        rw [show min d e.val.len = d by omega]
  | read r =>
    simp only [hStep] at hs
    split at hs
    · simp at hs
    · rename_i rd hrd
      split at hs
      · rename_i hlt
        split at hs
        · rename_i x hx
          simp only [Option.some.injEq] at hs; subst hs
          refine ⟨tags, h.congr rfl h.rp (fun _ h => h) h.jobs ?_, .refl _ _⟩
          intro r' hr'
          rcases List.mem_or_eq_of_mem_set hr' with hr' | rfl
          · exact h.reads r' hr'
          · have ho := h.reads rd (List.mem_of_getElem? hrd)
            obtain ⟨A, d, hA, hm, hd, hle, ht, hden, hall, hseen, hsa⟩ := ho.arr
            have hok := h.arrs _ A _ d hA hm
            rw [hA, Option.bind_some] at hx
            have hxm : x ∈ A.cells := List.mem_of_getElem? hx
            refine ⟨ho.len, by simp [ho.pos], by simp only; omega, ⟨A, d, hA, hm, hd, hle, ht, hden, hall, ?_, ?_⟩, ?_⟩
            · simp only
              by_cases hpd : rd.pos < d
              · rw [List.take_of_length_le (by simp [ho.pos]; omega), List.take_add_one]
                have h1 : rd.seen = (rd.loaded.take d).take rd.pos := by
                  rw [← hseen, List.take_of_length_le (by rw [ho.pos]; omega)]
                rw [← h1, ht, List.getElem?_take_of_lt hpd, hx]; rfl
              · rw [List.take_append_of_le_length (by rw [ho.pos]; omega), hseen]
                rw [List.take_take, List.take_take, show min rd.pos d = d by omega, show min (rd.pos + 1) d = d by omega]
            · simp only
              intro y hy
              by_cases hpd : rd.pos < d
              · rw [List.drop_of_length_le (by simp [ho.pos]; omega)] at hy
                simp at hy
              · rw [List.drop_append_of_le_length (by rw [ho.pos]; omega)] at hy
                rcases List.mem_append.mp hy with hy | hy
                · exact hsa y hy
                · rw [List.mem_singleton.mp hy]
                  refine hok.allow x (List.mem_iff_getElem?.mpr ⟨rd.pos - d, ?_⟩)
                  rw [List.getElem?_drop, show d + (rd.pos - d) = rd.pos by omega]; exact hx
            · simp only
              intro y hy
              rcases List.mem_append.mp hy with hy | hy
              · exact ho.src y hy
              · rw [List.mem_singleton.mp hy]; exact hok.src x hxm
        · simp at hs
      · simp at hs

theorem HInv.run {U : CaseFns} {s s' : HState} {tags : List (Str × Nat)} (h : HInv U s tags) {as : List HAct} (hs : hRun U s as = some s') :
    ∃ tags', HInv U s' tags' := by
  induction as generalizing s tags with
  | nil => simp only [hRun, Option.some.injEq] at hs; subst hs; exact ⟨tags, h⟩
  | cons a as ih =>
    simp only [hRun] at hs
    split at hs
    · simp at hs
    · rename_i s1 hs1
      obtain ⟨tags1, h1, _⟩ := h.step hs1
      exact ih h1 hs

end Athenz
