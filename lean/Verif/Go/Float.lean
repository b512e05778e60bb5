import Mathlib.Data.Int.Log
import Mathlib.Data.Rat.Floor
import Verif.Go.Num

/-! # Go's `float64`, as far as client/exp_rt.go uses it: numbers that are not negative, and infinity -/

namespace Athenz

/-- client/exp_rt.go:48, 95.  A `float64` that is not negative and not NaN. -/
inductive F64 where
  | fin (q : ℚ)
  | inf
deriving DecidableEq

/-- client/exp_rt.go:48, 95.  The nearest integer, the even one if there are two (IEEE 754). -/
def roundEven (x : ℚ) : Int :=
  if 2 * (x - ⌊x⌋) < 1 then ⌊x⌋
  else if 1 < 2 * (x - ⌊x⌋) then ⌊x⌋ + 1
  else if ⌊x⌋ % 2 = 0 then ⌊x⌋ else ⌊x⌋ + 1

/-- client/exp_rt.go:48, 95.  The distance of the `float64` numbers around `x`: 53 bits, and exponents from -1022 on. -/
def ulp (x : ℚ) : ℚ := (2 : ℚ) ^ (max (Int.log 2 |x|) (-1022) - 52)

/-- client/exp_rt.go:48, 95.  `x` rounded to 53 bits. -/
def round53 (x : ℚ) : ℚ := roundEven (x / ulp x) * ulp x

/-- client/exp_rt.go:48, 95.  The `float64` next to `x`. -/
def F64.ofRat (x : ℚ) : F64 := if 2 ^ 1024 ≤ round53 x then .inf else .fin (round53 x)

/-- client/exp_rt.go:48.  `math.Pow(f, 2.0)`.  For arguments whose square is not below 2^-1022 that is the rounded square. -/
def F64.square (f : ℚ) : F64 := F64.ofRat (f * f)

/-- client/exp_rt.go:48.  `s / x`. -/
def F64.under (s : ℚ) : F64 → F64
  | .fin q => if q = 0 then .inf else F64.ofRat (s / q)
  | .inf => .fin 0

/-- client/exp_rt.go:95.  `float64(n) * x` for an integer `n`, which is not 0. -/
def F64.times (n : Nat) (x : F64) : F64 :=
  match F64.ofRat n, x with
  | .fin a, .fin b => F64.ofRat (a * b)
  | _, _ => .inf

/-- client/exp_rt.go:95.  The conversion to `time.Duration`.  For values that an `int64` cannot hold Go leaves the result to the implementation:
`big`. -/
def F64.toInt64 (big : Int) : F64 → Int
  | .fin q => if ⌊q⌋ < 2 ^ 63 then ⌊q⌋ else big
  | .inf => big

end Athenz
