import Verif.Go.Query
import Verif.Spec.Translator

/-! # What the text of a query says -/

namespace Athenz.Spec

/-- The hexadecimal digit `c` stands for `n`. -/
def HexDigit (c : Char) (n : Nat) : Prop := "0123456789abcdef".toList[n]? = some c ∨ "0123456789ABCDEF".toList[n]? = some c

/-- The text is the escape of the byte `n` and then `s`. -/
def Escape (n : Nat) (s text : Str) : Prop := ∃ a b x y, text = '%' :: a :: b :: s ∧ HexDigit a x ∧ HexDigit b y ∧ n = 16 * x + y

/-- The text consists of escapes of these bytes, which are 128 or more. -/
inductive HighRun : Str → List Nat → Prop
  | nil : HighRun [] []
  | cons {n : Nat} {s text : Str} {bs : List Nat} : Escape n s text → 128 ≤ n → HighRun s bs → HighRun text (n :: bs)

/-- The text does not begin with the escape of a byte from 128 on. -/
def NoHigh (text : Str) : Prop := ∀ n s, Escape n s text → n < 128

/-- The text `s` is a way to write `t`: a plus stands for a space, an escape for its character, several escapes from 128 on for what the bytes
say in UTF-8, and everything else for itself. -/
inductive Written (utf8 : List Nat → Str) : Str → Str → Prop
  | nil : Written utf8 [] []
  | plain {c : Char} {s t : Str} : c ≠ '%' → c ≠ '+' → Written utf8 s t → Written utf8 (c :: s) (c :: t)
  | plus {s t : Str} : Written utf8 s t → Written utf8 ('+' :: s) (' ' :: t)
  | low {n : Nat} {s text t : Str} : Escape n s text → n < 128 → Written utf8 s t → Written utf8 text (Char.ofNat n :: t)
  | high {w s t : Str} {bs : List Nat} : HighRun w bs → bs ≠ [] → NoHigh s → Written utf8 s t → Written utf8 (w ++ s) (utf8 bs ++ t)

/-- The pieces of a query say these parameters: `key=value`, or `key` alone for an empty value; empty pieces say nothing; there are no
semicolons. -/
inductive Says (utf8 : List Nat → Str) : List Str → List (Str × Str) → Prop
  | nil : Says utf8 [] []
  | empty {ws : List Str} {ps : List (Str × Str)} : Says utf8 ws ps → Says utf8 ([] :: ws) ps
  | alone {w k : Str} {ws : List Str} {ps : List (Str × Str)} : w ≠ [] → '=' ∉ w → ';' ∉ w → Written utf8 w k → Says utf8 ws ps →
      Says utf8 (w :: ws) ((k, []) :: ps)
  | pair {a b k v : Str} {ws : List Str} {ps : List (Str × Str)} : '=' ∉ a → ';' ∉ a → ';' ∉ b → Written utf8 a k → Written utf8 b v → Says utf8 ws ps →
      Says utf8 ((a ++ '=' :: b) :: ws) ((k, v) :: ps)

/-- The query has these parameters, in this order. -/
def QueryText (utf8 : List Nat → Str) (q : Str) (ps : List (Str × Str)) : Prop := ∃ ws, SplitInto '&' q ws ∧ Says utf8 ws ps

/-- The values of the key, in order. -/
def valuesOf (k : Str) (ps : List (Str × Str)) : List Str := ps.filterMap fun p => if p.1 = k then some p.2 else none

/-- The parameters as a map, if no key occurs twice. -/
def single (ps : List (Str × Str)) : SMap (List Str) := ps.map fun p => (p.1, [p.2])

end Athenz.Spec
