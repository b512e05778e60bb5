import Verif.Go.Str

/-! # Texts that mean a duration -/

namespace Athenz.Spec

/-- Decimal digits only. -/
def Digits (s : Str) : Prop := ∀ c ∈ s, '0' ≤ c ∧ c ≤ '9'

/-- The number that digits denote. -/
def numberOf (s : Str) : Nat := s.foldl (fun n c => 10 * n + (c.toNat - '0'.toNat)) 0

/-- The units, in nanoseconds. -/
def timeUnits : List (Str × Nat) :=
  [("ns".toList, 1), ("us".toList, 1000), ("µs".toList, 1000), ("μs".toList, 1000), ("ms".toList, 10 ^ 6), ("s".toList, 10 ^ 9),
    ("m".toList, 60 * 10 ^ 9), ("h".toList, 60 * 60 * 10 ^ 9)]

/-- A number with a unit: whole part, fraction, unit, and the length of the unit. -/
structure DurPart where
  whole : Str
  fraction : Option Str
  unit : Str
  ns : Nat

def DurPart.text (p : DurPart) : Str := p.whole ++ (match p.fraction with | some f => '.' :: f | none => []) ++ p.unit

/-- It is well formed. -/
structure DurPart.Good (p : DurPart) : Prop where
  whole : Digits p.whole
  fraction : Digits (p.fraction.getD [])
  some : p.whole ++ p.fraction.getD [] ≠ []
  unit : (p.unit, p.ns) ∈ timeUnits

/-- Its length; `frac f k u` is the length of the fraction `f / 10 ^ k` of a unit `u`. -/
def DurPart.value (frac : Nat → Nat → Nat → Nat) (p : DurPart) : Nat :=
  numberOf p.whole * p.ns + (match p.fraction with | some f => if numberOf f = 0 then 0 else frac (numberOf f) f.length p.ns | none => 0)

/-- The fraction is not longer than 63 bits allow. -/
def DurPart.Short (p : DurPart) : Prop := numberOf (p.fraction.getD []) ≤ 2 ^ 63

/-- A list of such parts, without a blank. -/
def durText (ps : List DurPart) : Str := ps.flatMap DurPart.text

/-- The sum. -/
def durSum (frac : Nat → Nat → Nat → Nat) (ps : List DurPart) : Nat := (ps.map (DurPart.value frac)).sum

end Athenz.Spec
