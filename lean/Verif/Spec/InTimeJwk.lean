import Verif.Spec.PacedJwk
import Verif.Spec.Running
import Verif.Spec.LoopTime

/-! # Specification for C102: a started authorizer in which the goroutine of the JWK daemon goes on without delay -/

namespace Athenz.Spec

/-- From step `B` on, at which the ticker is created, the goroutine `c` goes on without delay. -/
structure Prompt (k : LKind) (ce : Str) (pace : PaceCfg) (env : Nat → Int → TFetch) (B : Nat) (c : Nat → TLoop) : Prop where
  init : c B = tlInit pace
  step : ∀ n, B ≤ n → c (n + 1) = c n ∨ TlStep k ce pace env (c n) (c (n + 1))

/-- The goroutine of the JWK daemon in the execution `y` goes on without delay: `c` is the goroutine with the time, and every step of `y` is one in time
of the goroutine, or none of it.  Before `B` it does not call `Update`.  Only the goroutine calls `Update`, except for calls that have returned
before `B`, as that of `Init`. -/
structure JwkInTime {cfg : SysCfg} {ce : Str} {now : Int} {on : LKind → Bool} (y : RsExec cfg ce now on) (pace : PaceCfg) (env : Nat → Int → TFetch)
    (B : Nat) (c : Nat → TLoop) : Prop where
  before : ∀ n retry fetch, n < B → y.act n ≠ .call .jwkd retry fetch
  others : ∀ n, y.act n = .sys (.jwk .update) → n < B ∧
    ∃ b e, (y.state B).sys.jwk.jobs[(y.state n).sys.jwk.jobs.length]? = some b ∧ b.result = some e
  prompt : Prompt .jwkd ce pace env B c
  loop : ∀ n, B ≤ n → (y.state n).fwd.child .jwkd = some (c n).l
  clock : ∀ n, B ≤ n → (c n).now = (y.state n).sys.auth.now

end Athenz.Spec
