import Verif.Spec.Authority
import Verif.Spec.Pace

/-! # Specification for C97: how long calls take and what they see -/

namespace Athenz.Spec

/-- No call stores its result later than `L` after it began. -/
def StoresWithin (L : Int) (log : List AEvent) : Prop :=
  ∀ j tb ts k p, .begun j tb ∈ log → .stored j ts k p ∈ log → ts ≤ tb + L

/-- Every policy check, made at `x`, sees only views that satisfy `G x`, to begin with and until it has an answer. -/
def ChecksSee (cfg : AuthCfg) (s0 : AState) (acts : List AAct) (G : Int → PolicyView → Prop) : Prop :=
  ∀ pre j view sched post s1, acts = pre ++ .check j view sched :: post → aRun cfg s0 pre = some s1 →
    G s1.now view ∧ ∀ v, CheckAct.mutate v ∈ sched → G s1.now v

/-- Everything that the view says comes from the assertions `as`. -/
def ShowsOnly (U : CaseFns) (as : List RawAssertion) (v : PolicyView) : Prop :=
  ∀ role l, v role = some l → ∀ x ∈ l, ∃ a ∈ as, a.role = role ∧ newAssertion U a.action a.resource a.effect = .ok x

end Athenz.Spec
