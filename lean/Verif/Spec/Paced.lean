import Verif.Spec.SysLive
import Verif.Spec.Pace

/-! # Specification: an assembled authorizer whose policy daemon updates in time -/

namespace Athenz.Spec

/-- Until the time `T`, the updates of the policies in the execution `x` are `upd`: number `k` is called in step `call k`, at the time that `upd` says,
and has returned after step `done k`, at the time that `upd` says.  Nobody else calls `Update`, except for calls that have returned before the
first of them. -/
structure PacedUntil {cfg : SysCfg} {now : Int} (x : SysExec cfg now) (upd : Nat → PaceUpd) (T : Int) (call done : Nat → Nat) : Prop where
  order : ∀ k, stops (upd k) ≤ T → call k ≤ done k
  next : ∀ k, (upd (k + 1)).start ≤ T → done k ≤ call (k + 1)
  called : ∀ k, (upd k).start ≤ T → (∃ fetch, x.act (call k) = .pd (.update fetch)) ∧ (x.state (call k)).auth.now = (upd k).start
  returned : ∀ k, stops (upd k) ≤ T → (x.state (done k)).auth.now = stops (upd k) ∧
    ∃ t, (x.state (done k)).pd.tasks[(x.state (call k)).pd.tasks.length]? = some t ∧ t.ret ≠ none
  only : ∀ n fetch, x.act n = .pd (.update fetch) → (x.state n).auth.now ≤ T → (∃ k, (upd k).start ≤ T ∧ n = call k) ∨
    ∃ t, (x.state (call 0)).pd.tasks[(x.state n).pd.tasks.length]? = some t ∧ t.ret ≠ none

end Athenz.Spec
