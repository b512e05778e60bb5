import Verif.Spec.SystemCert
import Verif.Spec.Change

/-! # Specification: what an execution with calls of `VerifyRoleCert` is for the rest of the system -/

namespace Athenz
namespace Spec

/-- What a step is for the rest: a call of `VerifyRoleCert` shows in the policy checks it makes only. -/
def CActSees (s : CSys) : CAct → SysAct → Prop
  | .sys a, b => b = a
  | .call _ _ _ _, b => b = .tick 0
  | .next i, b => ∃ c d rs, s.certs[i]? = some c ∧ c.order[c.checks.length]? = some (d, rs) ∧ b = .pd (.check ⟨d, rs, c.act, c.res⟩)
  | .ret _, b => b = .tick 0

/-- The execution `y` is the execution `x` without the calls of `VerifyRoleCert`. -/
structure CExec.Rest {cfg : SysCfg} {now : Int} (x : CExec cfg now) (y : SysExec cfg now) : Prop where
  state : ∀ n, y.state n = (x.state n).sys
  act : ∀ n, CActSees (x.state n) (x.act n) (y.act n)

end Spec
end Athenz
