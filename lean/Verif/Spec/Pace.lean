import Verif.Model.Pace

/-! # Specification for C94 and C95: what is in force at a time -/

namespace Athenz.Spec

/-- When a call of `Update` returns. -/
def stops (u : PaceUpd) : Int := u.start + u.dur

/-- Of the updates `upd`, which come one after the other, number `i` is the last that succeeded until `x`: what it got is in force at `x`. -/
def LastGood (upd : Nat → PaceUpd) (x : Int) (i : Nat) : Prop :=
  (upd i).ok = true ∧ stops (upd i) ≤ x ∧ ∀ j, (upd j).ok = true → stops (upd j) ≤ x → j ≤ i

/-- Every update takes some time, and at most `U`. -/
def Takes (U : Nat) (env : Nat → Int → TFetch) : Prop := ∀ i t, 1 ≤ (env i t).dur ∧ (env i t).dur ≤ U

/-- How many of the first `n` updates failed. -/
def failedUpdates (upd : Nat → PaceUpd) (n : Nat) : Nat := (List.range n).countP fun i => !(upd i).ok

/-- policy/daemon.go:121-136.  Update number `n` has a failure to make up for: one before it failed, and no update since was made for that reason. -/
def Owed (upd : Nat → PaceUpd) (n : Nat) : Prop :=
  ∃ i, i < n ∧ (upd i).ok = false ∧ ∀ j, i < j → j < n → (upd j).trig ≠ .retry

/-- The ticker has fired until `x`, after the beginning of the updates before number `n` which the ticker began. -/
def Unseen (cfg : PaceCfg) (upd : Nat → PaceUpd) (n : Nat) (x : Int) : Prop :=
  ∃ k : Int, 0 < k ∧ cfg.t0 + k * cfg.period ≤ x ∧ ∀ j, j < n → (upd j).trig = .tick → (upd j).start < cfg.t0 + k * cfg.period

/-- When the goroutine is ready for update number `n`: after the one before, and after the pause if that failed and is one after which there is
a pause. -/
def readyAt (cfg : PaceCfg) (upd : Nat → PaceUpd) : Nat → Int
  | 0 => cfg.t0
  | n + 1 => stops (upd n) + if (upd n).ok = false ∧ ((upd n).trig = .retry ∨ cfg.atTick = true) then cfg.delay.toNat else 0

end Athenz.Spec
