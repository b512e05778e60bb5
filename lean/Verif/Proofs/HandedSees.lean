import Verif.Spec.Handed
import Verif.Proofs.Handed

/-! # What callers of `GetPolicyCache` see of what they do -/

namespace Athenz.HandedSeesP

theorem setMap_get {maps : List (Str → Option Handed)} {m : Nat} (hm : m < maps.length) (k : Str) (v : Option Handed) :
    ((setMap maps m k v)[m]?).bind (· k) = v := by
  unfold setMap
  rw [List.getElem?_eq_getElem hm]
  simp [hm]

theorem lt_of_bind {maps : List (Str → Option Handed)} {m : Nat} {k : Str} {v : Handed} (h : (maps[m]?).bind (· k) = some v) : m < maps.length := by
  cases hm : maps[m]? with
  | none => rw [hm] at h; cases h
  | some f => exact (List.getElem?_eq_some_iff.mp hm).1

theorem written {s s' : PState} {v : UVal} {c : Cell} {mine : List Assertion} (h : s.value v = some (c, mine)) (hm : s'.mine = mine) :
    Spec.WrittenCell s s' v c := by
  cases v with
  | nil => cases h; exact ⟨rfl, hm⟩
  | fresh x => cases h; exact ⟨by simp [PState.deref, hm], hm⟩
  | found m k i =>
    simp only [PState.value, Option.map_eq_some_iff, Prod.mk.injEq] at h
    obtain ⟨c', h1, rfl, rfl⟩ := h
    exact ⟨h1, hm⟩

theorem sees {s s' : PState} {a : UAct} (h : userStep s a = some s') : Spec.CallerSees s s' a := by
  cases a with
  | hand => cases h; simp [Spec.CallerSees]
  | del m k =>
    cases h
    show PState.held _ m k = none
    unfold PState.held
    by_cases hm : m < s.maps.length
    · simp only [setMap_get hm]
    · have : s.maps[m]? = none := List.getElem?_eq_none (by omega)
      simp [setMap, this]
  | copy m k k' =>
    simp only [userStep] at h
    split at h
    · rename_i v hv
      cases h
      show PState.held _ m k' = PState.held _ m k
      unfold PState.held
      simp only [setMap_get (lt_of_bind hv), hv]
    · cases h
  | lit m k xs =>
    cases h
    intro hm
    unfold PState.held
    simp only [setMap_get hm, Option.map_some, List.map_map]
    congr 1
    apply List.ext_getElem?
    intro i
    by_cases hi : i < xs.length
    · simp [PState.deref, hi]
    · simp [hi]
  | reslice m k n =>
    simp only [userStep] at h
    split at h
    · rename_i sl hv
      split at h
      · rename_i A hA
        split at h
        · rename_i hn
          cases h
          refine ⟨sliceCells s.core.heap sl, sliceCells s.core.heap ⟨sl.arr, n⟩, ?_, ?_, ?_, ?_⟩
          · simp only [PState.held, hv]
          · simp only [PState.held, setMap_get (lt_of_bind hv)]
          · exact sliceCells_length (sl := ⟨sl.arr, n⟩) hA hn
          · intro i hi hl
            have hl' : i < sl.len := by
              simp only [sliceCells, hA, List.length_take] at hl
              omega
            rw [sliceCells_get (sl := ⟨sl.arr, n⟩) hA, sliceCells_get hA, if_pos hi, if_pos hl']
        · cases h
      · cases h
    · rename_i cs hv
      split at h
      · rename_i hn
        cases h
        refine ⟨cs, cs.take n, ?_, ?_, ?_, ?_⟩
        · simp only [PState.held, hv]
        · simp only [PState.held, setMap_get (lt_of_bind hv)]
        · rw [List.length_take]; omega
        · intro i hi _; rw [List.getElem?_take, if_pos hi]
      · cases h
    · cases h
  | append m k v =>
    simp only [userStep] at h
    split at h
    · rename_i c mine sl hc hv
      split at h
      · rename_i heap hp
        cases h
        obtain ⟨A, hA, hi, rfl⟩ := putCell_some hp
        refine ⟨sliceCells s.core.heap sl, c, ?_, ?_, written hc rfl⟩
        · simp only [PState.held, hv]
        · simp only [PState.held, setMap_get (lt_of_bind hv)]
          have hlt : sl.arr < s.core.heap.length := (List.getElem?_eq_some_iff.mp hA).1
          simp only [sliceCells, hA, List.getElem?_set_self hlt]
          congr 1
          rw [List.take_add_one, List.take_set_of_le (Nat.le_refl _), List.getElem?_set_self hi]
          rfl
      · cases h
        refine ⟨sliceCells s.core.heap sl, c, ?_, ?_, written hc rfl⟩
        · simp only [PState.held, hv]
        · simp only [PState.held, setMap_get (lt_of_bind hv)]
    · rename_i c mine cs hc hv
      cases h
      refine ⟨cs, c, ?_, ?_, written hc rfl⟩
      · simp only [PState.held, hv]
      · simp only [PState.held, setMap_get (lt_of_bind hv)]
    · cases h
  | cell m k i v =>
    simp only [userStep] at h
    split at h
    · rename_i c mine sl hc hv
      split at h
      · rename_i hi
        split at h
        · rename_i heap hp
          cases h
          obtain ⟨A, hA, hiA, rfl⟩ := putCell_some hp
          refine ⟨sliceCells s.core.heap sl, c, ?_, ?_, ?_, written hc rfl⟩
          · simp only [PState.held, hv]
          · simp only [sliceCells, hA, List.length_take]; omega
          · simp only [PState.held, hv]
            have hlt : sl.arr < s.core.heap.length := (List.getElem?_eq_some_iff.mp hA).1
            simp only [sliceCells, hA, List.getElem?_set_self hlt]
            congr 1
            exact List.take_set
        · cases h
      · cases h
    · rename_i c mine cs hc hv
      split at h
      · rename_i hi
        cases h
        refine ⟨cs, c, ?_, hi, ?_, written hc rfl⟩
        · simp only [PState.held, hv]
        · simp only [PState.held, setMap_get (lt_of_bind hv)]
      · cases h
    · cases h
  | field m k i x =>
    simp only [userStep] at h
    split at h
    · rename_i n hb
      cases h
      obtain ⟨l, h1, h2⟩ := Option.bind_eq_some_iff.mp hb
      refine ⟨l, .ptr n, h1, h1, h2, by simp, fun hd => ?_⟩
      cases hn : s.core.mem[n]? with
      | none => exact absurd hn hd
      | some y => simp [PState.deref, (List.getElem?_eq_some_iff.mp hn).1]
    · rename_i n hb
      cases h
      obtain ⟨l, h1, h2⟩ := Option.bind_eq_some_iff.mp hb
      refine ⟨l, .own n, h1, h1, h2, by simp, fun hd => ?_⟩
      cases hn : s.mine[n]? with
      | none => exact absurd hn hd
      | some y => simp [PState.deref, (List.getElem?_eq_some_iff.mp hn).1]
    · cases h

end Athenz.HandedSeesP
