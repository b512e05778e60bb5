import Verif.Go.Str

/-!
# int64 arithmetic, `strconv.ParseInt`, `time`
-/

namespace Athenz

/-- Two's complement wrap-around of an `int64` operation. -/
def wrap64 (x : Int) : Int := (x + 2 ^ 63) % 2 ^ 64 - 2 ^ 63

/-- The values of `int64`. -/
def IsInt64 (x : Int) : Prop := -(2 ^ 63) ≤ x ∧ x < 2 ^ 63

instance (x : Int) : Decidable (IsInt64 x) := by unfold IsInt64; infer_instance

/-- A decimal digit. -/
def digitVal (c : Char) : Option Nat :=
  if '0' ≤ c ∧ c ≤ '9' then some (c.toNat - '0'.toNat) else none

/-- Digits of a decimal number, most significant first, accumulated onto `acc`; `none` on any other rune. -/
def parseDigits : Nat → Str → Option Nat
  | acc, [] => some acc
  | acc, c :: cs => match digitVal c with
    | some d => parseDigits (10 * acc + d) cs
    | none => none

/-- `strconv.ParseInt(s, 10, 64)`: optional sign, at least one digit, range check.  (Go standard library.) -/
def parseInt64 (s : Str) : Option Int :=
  let go (neg : Bool) (ds : Str) : Option Int :=
    if ds = [] then none
    else match parseDigits 0 ds with
      | none => none
      | some n =>
        if neg then (if n ≤ 2 ^ 63 then some (-(n : Int)) else none)
        else (if n < 2 ^ 63 then some (n : Int) else none)
  match s with
  | [] => none
  | c :: cs => if c = '+' then go false cs else if c = '-' then go true cs else go false s

/-- The seconds from the internal epoch of Go's `time` (year 1) to the Unix epoch: `unixToInternal`. -/
def unixToInternal : Int := 62135596800

/-- A wall-clock `time.Time`: seconds since year 1 as an int64, nanoseconds in the second. -/
structure GoTime where
  isec : Int
  nsec : Nat
deriving DecidableEq, Repr

namespace GoTime

/-- The zero value `time.Time{}`. -/
def zero : GoTime := ⟨0, 0⟩

/-- `time.Unix(s, 0)`; the addition of the epoch offset wraps around. -/
def ofUnix (s : Int) : GoTime := ⟨wrap64 (s + unixToInternal), 0⟩

/-- `t.Unix()`; the subtraction wraps around. -/
def unix (t : GoTime) : Int := wrap64 (t.isec - unixToInternal)

/-- `t.After(u)`. -/
def after (t u : GoTime) : Bool := decide (t.isec > u.isec) || (decide (t.isec = u.isec) && decide (t.nsec > u.nsec))

/-- `t.Before(u)`. -/
def before (t u : GoTime) : Bool := u.after t

/-- `t.Equal(u)`. -/
def equal (t u : GoTime) : Bool := decide (t.isec = u.isec) && decide (t.nsec = u.nsec)

/-- A clock reading: some time from the year 1 on whose Unix seconds are an int64, with a proper nanosecond part. -/
def IsClock (t : GoTime) : Prop := 0 ≤ t.isec ∧ t.isec < 2 ^ 63 ∧ t.nsec < 1000000000

instance (t : GoTime) : Decidable t.IsClock := by unfold IsClock; infer_instance

end GoTime

end Athenz
