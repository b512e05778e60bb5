import Verif.Model.Races
import Mathlib.Logic.Relation

/-! # Data races, as the Go memory model defines them -/

namespace Athenz.Spec

/-- The variable that an event reads or writes. -/
def Ev.loc : Ev → Option Loc
  | .read x | .write x | .load x | .store x | .swap x => some x
  | _ => none

/-- The event writes its variable. -/
def Ev.Writes (e : Ev) : Prop := ∃ x, e = .write x ∨ e = .store x ∨ e = .swap x

/-- The event is an operation of `sync/atomic`. -/
def Ev.Atomic (e : Ev) : Prop := ∃ x, e = .load x ∨ e = .store x ∨ e = .swap x

/-- Event `i` is ordered before event `j` directly: they are of one goroutine; or `j` is of the goroutine that `i` started; or `i` is of the
goroutine that `j` waited for; or `j` reads atomically what `i` wrote atomically. -/
inductive Edge (tr : List (Nat × Ev)) : Nat → Nat → Prop
  | po {i j g : Nat} {e f : Ev} : i < j → tr[i]? = some (g, e) → tr[j]? = some (g, f) → Edge tr i j
  | fork {i j g h : Nat} {f : Ev} : i < j → tr[i]? = some (g, .fork h) → tr[j]? = some (h, f) → Edge tr i j
  | join {i j g h : Nat} {e : Ev} : i < j → tr[i]? = some (h, e) → tr[j]? = some (g, .join h) → Edge tr i j
  | sync {i j g h : Nat} {e f : Ev} {x : Loc} : i < j → tr[i]? = some (g, e) → tr[j]? = some (h, f) → (e = .store x ∨ e = .swap x) →
      (f = .load x ∨ f = .swap x) → (∀ k k' e', i < k → k < j → tr[k]? = some (k', e') → e' ≠ .store x ∧ e' ≠ .swap x) → Edge tr i j

/-- Event `i` happens before event `j`. -/
def HB (tr : List (Nat × Ev)) : Nat → Nat → Prop := Relation.TransGen (Edge tr)

/-- The events `i` and `j`, of goroutines `g` and `h`, access the same variable, one of them writes it, one of them is not atomic, and neither
happens before the other. -/
def Racing (tr : List (Nat × Ev)) (i j g h : Nat) (e f : Ev) : Prop :=
  i < j ∧ tr[i]? = some (g, e) ∧ tr[j]? = some (h, f) ∧ (∃ x, Ev.loc e = some x ∧ Ev.loc f = some x) ∧ (Ev.Writes e ∨ Ev.Writes f) ∧
    ¬ (Ev.Atomic e ∧ Ev.Atomic f) ∧ ¬ HB tr i j

/-- There is a data race. -/
def Race (tr : List (Nat × Ev)) : Prop := ∃ i j g h e f, Racing tr i j g h e f

/-- Whenever Update is called, all earlier calls of it have returned, and their return happened before. -/
def OneByOne (tr : List (Nat × Ev)) : Prop :=
  ∀ i j g h, i < j → tr[i]? = some (g, .start) → tr[j]? = some (h, .start) → ∃ k, i < k ∧ k < j ∧ tr[k]? = some (g, .finish) ∧ HB tr k j

end Athenz.Spec
