import Verif.Model.SystemLoop
import Verif.Spec.Change

/-! # Specification: the policy daemon that refreshes by itself -/

namespace Athenz
namespace Spec

/-- An infinite execution of the authorizer with the goroutine of `Start`. -/
structure LsExec (cfg : SysCfg) (ce : Str) (now : Int) where
  state : Nat → LSys
  act : Nat → LsAct
  init : state 0 = lsInit (sysInit cfg now)
  next : ∀ n, lsStep cfg ce (state n) (act n) = some (state (n + 1))

/-- The step is one of the goroutine. -/
def OfLoop : LsAct → Prop
  | .call _ _ => True
  | .ret _ => True
  | .loop .selDone => True
  | .loop .send => True
  | .loop .wake => True
  | .loop .offer => True
  | .loop .stop => True
  | _ => False

/-- The goroutine goes on if it can go on, whatever it does then; and the ticker goes on for ever. -/
structure LsFair {cfg : SysCfg} {ce : Str} {now : Int} (x : LsExec cfg ce now) : Prop where
  loop : ∀ n, (∀ m, n ≤ m → ∃ a, OfLoop a ∧ (lsStep cfg ce (x.state m) a).isSome) → ∃ m, n ≤ m ∧ OfLoop (x.act m)
  ticks : ∀ n, ∃ m, n ≤ m ∧ x.act m = .loop .tick

/-- Somebody reads the error channel as long as there is something in it. -/
def Reads {cfg : SysCfg} {ce : Str} {now : Int} (x : LsExec cfg ce now) : Prop :=
  ∀ n, (∀ m, n ≤ m → (x.state m).loop.ech ≠ []) → ∃ m, n ≤ m ∧ x.act m = .loop .recv

/-- The context given to `Start` is not cancelled. -/
def NotStopped {cfg : SysCfg} {ce : Str} {now : Int} (x : LsExec cfg ce now) : Prop := ∀ n, x.act n ≠ .loop .cancel

end Spec
end Athenz
