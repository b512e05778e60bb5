import Verif.Spec.PacedPk
import Verif.Spec.Paced

/-! # Specification for C105: a started authorizer in which the goroutine of the policy daemon goes on without delay -/

namespace Athenz.Spec

/-- The goroutine of the policy daemon in the execution `y` goes on without delay: `c` is the goroutine with the time, and every step of `y` is one in
time of the goroutine, or none of it.  Before `B` it does not call `Update`.  Only the goroutine calls `Update`, except for calls that have returned
before `B`, as that of `Init`. -/
structure PdInTime {cfg : SysCfg} {ce : Str} {now : Int} {on : LKind → Bool} (y : RsExec cfg ce now on) (pace : PaceCfg) (env : Nat → Int → TFetch)
    (B : Nat) (c : Nat → TLoop) : Prop where
  before : ∀ n retry fetch, n < B → y.act n ≠ .call .policyd retry fetch
  others : ∀ n fetch, y.act n = .sys (.pd (.update fetch)) → n < B ∧
    ∃ t, (y.state B).sys.pd.tasks[(y.state n).sys.pd.tasks.length]? = some t ∧ t.ret ≠ none
  prompt : Prompt .policyd ce pace env B c
  loop : ∀ n, B ≤ n → (y.state n).fwd.child .policyd = some (c n).l
  clock : ∀ n, B ≤ n → (c n).now = (y.state n).sys.auth.now

end Athenz.Spec
