import Verif.Spec.SystemLoop
import Verif.Spec.LoopTime

/-! # Specification for C101: an assembled authorizer in which the goroutine of the policy daemon goes on without delay -/

namespace Athenz.Spec

/-- From step `B` on, at which the ticker is created, the goroutine of the policy daemon in the execution `y` goes on without delay: `c` is the
goroutine with the time, and every step of `y` is one in time of the goroutine, or none of it.  Before `B` the goroutine does nothing.  Only the
goroutine calls `Update`, except for calls that have returned before `B`, as that of `Init`. -/
structure InTime {cfg : SysCfg} {ce : Str} {now : Int} (y : LsExec cfg ce now) (pace : PaceCfg) (env : Nat → Int → TFetch) (B : Nat)
    (c : Nat → TLoop) : Prop where
  before : ∀ n, n < B → ∃ a, y.act n = .sys a
  others : ∀ n fetch, y.act n = .sys (.pd (.update fetch)) → n < B ∧
    ∃ t, (y.state B).sys.pd.tasks[(y.state n).sys.pd.tasks.length]? = some t ∧ t.ret ≠ none
  init : c B = tlInit pace
  loop : ∀ n, B ≤ n → (c n).l = (y.state n).loop
  clock : ∀ n, B ≤ n → (c n).now = (y.state n).sys.auth.now
  step : ∀ n, B ≤ n → c (n + 1) = c n ∨ TlStep .policyd ce pace env (c n) (c (n + 1))

end Athenz.Spec
