import Verif.Proofs.Str
import Verif.Model.Role

/-! # Specification: the role token format -/

namespace Athenz
namespace Spec

/-- The value of a digit string, most significant first. -/
def decVal : List Nat → Nat
  | [] => 0
  | d :: ds => d * 10 ^ ds.length + decVal ds

/-- The digit `d`. -/
def digit (d : Nat) : Char := Char.ofNat (48 + d)

/-- `v` is a decimal numeral, with or without sign, of the 64 bit integer `i`. -/
def Numeral (v : Str) (i : Int) : Prop :=
  IsInt64 i ∧ ∃ ds : List Nat, ds ≠ [] ∧ (∀ d ∈ ds, d < 10) ∧
    (((v = ds.map digit ∨ v = '+' :: ds.map digit) ∧ i = decVal ds) ∨ (v = '-' :: ds.map digit ∧ i = -(decVal ds : Int)))

/-- The value of the last pair with this key. -/
def lastValue (key : String) (kvs : List (Str × Str)) : Option Str := (kvs.reverse.find? fun p => p.1 == key.toList).map (·.2)

/-- The pairs as text. -/
def pairsText (kvs : List (Str × Str)) : Str := Str.join ';' (kvs.map fun p => p.1 ++ '=' :: p.2)

/-- `tok` consists of an unsigned part, `;s=` for the first time, and a signature; the unsigned part consists of the pairs `kvs`, whose
`e` and `t` values are 64 bit numerals. -/
structure RoleText (tok unsigned sig : Str) (kvs : List (Str × Str)) : Prop where
  text : tok = unsigned ++ ";s=".toList ++ sig
  first : ∀ a b, tok = a ++ ";s=".toList ++ b → unsigned.length ≤ a.length
  nonempty : kvs ≠ []
  pairs : unsigned = pairsText kvs
  keys : ∀ p ∈ kvs, ';' ∉ p.1 ∧ '=' ∉ p.1 ∧ ';' ∉ p.2
  times : ∀ p ∈ kvs, p.1 = "e".toList ∨ p.1 = "t".toList → ∃ i, Numeral p.2 i

/-- Unix nanoseconds of a clock reading. -/
def unixNanos (t : GoTime) : Int := (t.isec - unixToInternal) * 1000000000 + t.nsec

/-- The expiry second `i` is representable as a Go time and has not passed. -/
def NotExpired (now : GoTime) (i : Int) : Prop := i < 2 ^ 63 - unixToInternal ∧ unixNanos now ≤ i * 1000000000

/-- The role list of the value `v`: the pieces between the commas. -/
def Pieces (v : Str) (roles : List Str) : Prop := roles ≠ [] ∧ (∀ w ∈ roles, ',' ∉ w) ∧ Str.join ',' roles = v

/-- `u` is the text before the first `;s=`. -/
def UnsignedPart (tok u : Str) : Prop :=
  ∃ sig, tok = u ++ ";s=".toList ++ sig ∧ ∀ a b, tok = a ++ ";s=".toList ++ b → u.length ≤ a.length

/-- The signature that counts: the text behind the marker, unless the token begins with an `s` pair. -/
def usedSignature (kvs : List (Str × Str)) (sig : Str) : Str :=
  match kvs.head? with
  | some p => if p.1 = "s".toList then p.2 else sig
  | none => sig

/-- The contents of a token with these pairs: of every field the last value counts, missing texts are empty and missing times are the zero
time. -/
structure RoleFields (rt : RoleToken) (kvs : List (Str × Str)) : Prop where
  domain : rt.domain = (lastValue "d" kvs).getD []
  principal : rt.principal = (lastValue "p" kvs).getD []
  keyId : rt.keyId = (lastValue "k" kvs).getD []
  roles : ∀ v, lastValue "r" kvs = some v → Pieces v rt.roles
  noRoles : lastValue "r" kvs = none → rt.roles = []
  expiry : ∀ v i, lastValue "e" kvs = some v → Numeral v i → rt.expiryTime = GoTime.ofUnix i
  noExpiry : lastValue "e" kvs = none → rt.expiryTime = GoTime.zero
  time : ∀ v i, lastValue "t" kvs = some v → Numeral v i → rt.timeStamp = GoTime.ofUnix i
  noTime : lastValue "t" kvs = none → rt.timeStamp = GoTime.zero

/-- A clock after the first instant of the year 1. -/
def ClockOk (now : GoTime) : Prop := now.IsClock ∧ 0 < now.isec

/-- Decimal text of a natural number. -/
def decimalNat (n : Nat) : Str := if _h : n < 10 then [digit n] else decimalNat (n / 10) ++ [digit (n % 10)]
termination_by n

/-- Decimal text of an integer. -/
def decimal (i : Int) : Str := if 0 ≤ i then decimalNat i.toNat else '-' :: decimalNat (-i).toNat

/-- The pairs that state the fields of a token. -/
def corePairs (domain : Str) (roles : List Str) (principal : Str) (time expiry : Int) (keyId : Str) : List (Str × Str) :=
  [("d".toList, domain), ("r".toList, Str.join ',' roles), ("p".toList, principal), ("t".toList, decimal time), ("e".toList, decimal expiry),
    ("k".toList, keyId)]

end Spec
end Athenz
