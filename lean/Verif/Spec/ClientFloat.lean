import Mathlib.Data.Rat.Floor
import Verif.Model.Client

/-! # Specification for C96 -/

namespace Athenz.Spec

/-- The pause after attempt `count`, `(2 * count + 1) / f²` seconds, exactly, in nanoseconds. -/
def exactWait (f : ℚ) (count : Nat) : ℚ := (2 * count + 1) * 1000000000 / f ^ 2

/-- IEEE 754: the numbers of 64 bit floating point, leaving aside how large they can be. -/
def IsDouble (z : ℚ) : Prop := ∃ k e : Int, |k| ≤ 2 ^ 53 ∧ -1074 ≤ e ∧ z = k * 2 ^ e

/-- The numbers of the attempts in a run of the transport. -/
def attempts : List RtEvent → List Nat
  | [] => []
  | .call i :: es => i :: attempts es
  | .sleep _ _ :: es => attempts es

/-- The pauses in a run of the transport. -/
def pauses : List RtEvent → List Int
  | [] => []
  | .call _ :: es => pauses es
  | .sleep _ d :: es => d :: pauses es

end Athenz.Spec
