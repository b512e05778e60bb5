import Verif.Go.Str

/-! # `sync.Map` with string keys, as an association list -/

namespace Athenz

abbrev SMap (V : Type) := List (Str × V)

namespace SMap
variable {V : Type}

/-- `Load`. -/
def load (m : SMap V) (k : Str) : Option V := (m.find? fun p => p.1 == k).map (·.2)

/-- `Delete`. -/
def delete (m : SMap V) (k : Str) : SMap V := m.filter fun p => !(p.1 == k)

/-- `Store`. -/
def store (m : SMap V) (k : Str) (v : V) : SMap V := (k, v) :: m.delete k

/-- The keys, in some order. -/
def keys (m : SMap V) : List Str := m.map (·.1)

theorem load_cons (p : Str × V) (m : SMap V) (k : Str) : load (p :: m) k = if p.1 = k then some p.2 else load m k := by
  simp only [load, List.find?_cons]
  by_cases h : p.1 = k
  · simp [h]
  · have hb : (p.1 == k) = false := by simpa using h
    simp [h, hb]

theorem load_delete (m : SMap V) (k k' : Str) : (m.delete k).load k' = if k' = k then none else m.load k' := by
  induction m with
  | nil => simp [delete, load]
  | cons p m ih =>
    have ih' : load (List.filter (fun p => !(p.1 == k)) m) k' = if k' = k then none else load m k' := ih
    simp only [delete, List.filter_cons]
    by_cases h : p.1 = k
    · simp only [h, beq_self_eq_true, Bool.not_true, Bool.false_eq_true, if_false]
      rw [ih', load_cons]
      by_cases h2 : k' = k
      · simp [h2]
      · have : ¬ p.1 = k' := by rw [h]; exact Ne.symm h2
        simp [h2, this]
    · have hb : (p.1 == k) = false := by simpa using h
      simp only [hb, Bool.not_false, if_true]
      rw [load_cons, ih', load_cons]
      by_cases h2 : k' = k
      · have : ¬ p.1 = k' := by rw [h2]; exact h
        simp [h2, h]
      · simp [h2]

theorem load_store (m : SMap V) (k k' : Str) (v : V) : (m.store k v).load k' = if k' = k then some v else m.load k' := by
  simp only [store, load_cons, load_delete]
  by_cases h : k' = k
  · simp [h]
  · simp [h, Ne.symm h]

theorem mem_keys {m : SMap V} {k : Str} : k ∈ m.keys ↔ (m.load k).isSome := by
  induction m with
  | nil => simp [keys, load]
  | cons p m ih =>
    rw [load_cons]
    simp only [keys, List.map_cons, List.mem_cons] at ih ⊢
    by_cases h : p.1 = k
    · simp [h]
    · simp only [h, if_false]
      rw [← ih]
      simp [Ne.symm h]

end SMap

end Athenz
