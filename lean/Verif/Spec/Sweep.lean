import Verif.Spec.Authority

/-! # Specification for C98: what the cache of results holds -/

namespace Athenz.Spec

/-- At the end `s` of the run every key has been swept in the last `P`, unless the run is not longer than that. -/
def SweptWithin (P : Int) (cfg : AuthCfg) (s0 : AState) (acts : List AAct) (s : AState) : Prop :=
  ∀ k : Str, s.now ≤ s0.now + P ∨
    ∃ pre sel post s1, acts = pre ++ .sweep sel :: post ∧ aRun cfg s0 pre = some s1 ∧ sel k = true ∧ s.now ≤ s1.now + P

/-- The event is a grant whose result was stored not before `x`. -/
def storedSince (x : Int) : AEvent → Bool
  | .stored _ t _ _ => decide (x ≤ t)
  | _ => false

end Athenz.Spec
