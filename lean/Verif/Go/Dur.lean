import Verif.Go.Num

/-!
# `time.ParseDuration` (Go standard library)

The rounding of fractions is done in floating point; it is a parameter.
-/

namespace Athenz

/-- `leadingInt`: digits onto `x`, and the rest; `none` on overflow. -/
def leadingInt : Nat → Str → Option (Nat × Str)
  | x, [] => some (x, [])
  | x, c :: cs => match digitVal c with
    | none => some (x, c :: cs)
    | some d => if x > 2 ^ 63 / 10 ∨ x * 10 + d > 2 ^ 63 then none else leadingInt (x * 10 + d) cs

/-- `leadingFraction`: digits onto `x` and their number `k`, without those that would overflow, and the rest. -/
def leadingFraction : Nat → Nat → Bool → Str → (Nat × Nat) × Str
  | x, k, _, [] => ((x, k), [])
  | x, k, over, c :: cs => match digitVal c with
    | none => ((x, k), c :: cs)
    | some d =>
      if over = true ∨ x > (2 ^ 63 - 1) / 10 ∨ x * 10 + d > 2 ^ 63 then leadingFraction x k true cs
      else leadingFraction (x * 10 + d) (k + 1) false cs

/-- `unitMap`, in nanoseconds. -/
def durUnit (u : Str) : Option Nat :=
  if u = "ns".toList then some 1
  else if u = "us".toList ∨ u = "µs".toList ∨ u = "μs".toList then some 1000
  else if u = "ms".toList then some 1000000
  else if u = "s".toList then some 1000000000
  else if u = "m".toList then some 60000000000
  else if u = "h".toList then some 3600000000000
  else none

/-- The end of a unit: a digit or the point. -/
def numChar (c : Char) : Bool := c == '.' || (digitVal c).isSome

/-- A number with an optional fraction: integer part, fraction with its number of digits, and the rest.  There must be a digit. -/
def durNumber (s : Str) : Option (Nat × (Nat × Nat) × Str) :=
  match leadingInt 0 s with
  | none => none
  | some (v, s1) =>
    match s1 with
    | '.' :: r =>
      let (fk, r') := leadingFraction 0 0 false r
      if s1.length = s.length ∧ r'.length = r.length then none else some (v, fk, r')
    | _ => if s1.length = s.length then none else some (v, (0, 0), s1)

/-- The loop over numbers with units; `d` has been summed up.  `frac f k unit` is `uint64(float64(f) * (float64(unit) / 10^k))`. -/
def durLoop (frac : Nat → Nat → Nat → Nat) : Nat → Nat → Str → Option Nat
  | _, d, [] => some d
  | 0, _, _ :: _ => none
  | fuel + 1, d, c :: cs =>
    match durNumber (c :: cs) with
    | none => none
    | some (v, (f, k), s2) =>
      match durUnit (s2.takeWhile fun c => !numChar c) with
      | none => none
      | some unit =>
        if v > 2 ^ 63 / unit then none
        else
          let w := if f > 0 then (v * unit + frac f k unit) % 2 ^ 64 else v * unit
          if f > 0 ∧ w > 2 ^ 63 then none
          else if (d + w) % 2 ^ 64 > 2 ^ 63 then none
          else durLoop frac fuel ((d + w) % 2 ^ 64) (s2.dropWhile fun c => !numChar c)

/-- After the sign. -/
def durAbs (frac : Nat → Nat → Nat → Nat) (s : Str) : Option Nat :=
  if s = "0".toList then some 0 else if s = [] then none else durLoop frac s.length 0 s

/-- `time.ParseDuration`, in nanoseconds. -/
def parseDuration (frac : Nat → Nat → Nat → Nat) (s : Str) : Option Int :=
  match s with
  | '-' :: r => (durAbs frac r).map fun d => -(d : Int)
  | '+' :: r => (durAbs frac r).bind fun d => if d < 2 ^ 63 then some (d : Int) else none
  | r => (durAbs frac r).bind fun d => if d < 2 ^ 63 then some (d : Int) else none

example : parseDuration (fun f k u => f * u / 10 ^ k) "1.5s".toList = some 1500000000 := by decide +kernel
example : parseDuration (fun f k u => f * u / 10 ^ k) "-1h30m".toList = some (-5400000000000) := by decide +kernel
example : parseDuration (fun _ _ _ => 0) "3".toList = none := by decide +kernel

end Athenz
