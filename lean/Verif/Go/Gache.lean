import Verif.Go.Num

/-!
# `github.com/kpango/gache` v1.2.8

The TTL cache used for policies, ETags and authorization results.  The library is not part of the repository; modelled is its
contract for `Get`, `SetWithExpire`, `Delete` and `Clear`: a value stored with a positive TTL is valid up to and including
`now + ttl` (nanoseconds, int64 arithmetic), a value whose stored expiry is zero or negative never expires.
-/

namespace Athenz

/-- A cache entry. -/
structure GEntry (V : Type) where
  val : V
  /-- absolute expiry in Unix nanoseconds, `≤ 0` = never -/
  expire : Int
deriving DecidableEq, Repr

/-- A cache, as its content. -/
abbrev Gache (V : Type) := Str → Option (GEntry V)

namespace Gache
variable {V : Type}

/-- `gache.New()`. -/
def empty : Gache V := fun _ => none

/-- `isValid` of an entry at time `now` (Unix nanoseconds). -/
def valid (now : Int) (e : GEntry V) : Bool := decide (e.expire ≤ 0) || decide (now ≤ e.expire)

/-- `Get(key)` at time `now`. -/
def get (g : Gache V) (now : Int) (k : Str) : Option V :=
  match g k with
  | none => none
  | some e => if valid now e then some e.val else none

/-- `SetWithExpire(key, val, ttl)` at time `now`. -/
def set (g : Gache V) (now : Int) (k : Str) (v : V) (ttl : Int) : Gache V :=
  fun k' => if k' = k then some ⟨v, if ttl > 0 then wrap64 (now + ttl) else ttl⟩ else g k'

/-- `Delete(key)`; also what the expiry sweep and a failed `Get` do to an invalid entry. -/
def delete (g : Gache V) (k : Str) : Gache V := fun k' => if k' = k then none else g k'

/-- The expiry sweep `DeleteExpired`, or any partial sweep: every invalid entry selected by `sel` is dropped. -/
def sweep (g : Gache V) (now : Int) (sel : Str → Bool) : Gache V :=
  fun k => match g k with
    | none => none
    | some e => if sel k && !valid now e then none else some e

theorem get_set_same (g : Gache V) (now now' : Int) (k : Str) (v : V) (ttl : Int) (hp : 0 < ttl)
    (ho : now + ttl < 2 ^ 63) (hn : 0 ≤ now) :
    (g.set now k v ttl).get now' k = if now' ≤ now + ttl then some v else none := by
  have hw : wrap64 (now + ttl) = now + ttl := by unfold wrap64; omega
  simp only [get, set, if_true, valid, hp, hw]
  by_cases h : now' ≤ now + ttl
  · simp [h]
  · have h1 : ¬ (now + ttl ≤ 0) := by omega
    simp [h, h1]

theorem get_set_other (g : Gache V) (now now' : Int) (k k' : Str) (v : V) (ttl : Int) (h : k' ≠ k) :
    (g.set now k v ttl).get now' k' = g.get now' k' := by
  simp [get, set, h]

/-- Sweeping is invisible: only entries that `Get` already refuses are dropped. -/
theorem get_sweep (g : Gache V) (now now' : Int) (sel : Str → Bool) (k : Str) (hm : now ≤ now') :
    (g.sweep now sel).get now' k = g.get now' k := by
  simp only [get, sweep]
  cases hg : g k with
  | none => simp
  | some e =>
    simp only
    by_cases h : (sel k && !valid now e) = true
    · simp only [h, if_true]
      have : valid now' e = false := by
        simp only [Bool.and_eq_true, Bool.not_eq_true', valid, Bool.or_eq_false_iff, decide_eq_false_iff_not] at h ⊢
        omega
      simp [this]
    · simp [h]

end Gache

end Athenz
