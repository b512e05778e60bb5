import Verif.Spec.InForce

/-! # Specification: a list of the policies about a role -/

namespace Athenz
namespace Spec

/-- The entry `x` shows the assertion `a`: its action, the domain and the path of its resource, and whether it denies. -/
structure Shows (U : CaseFns) (a : RawAssertion) (x : Assertion) : Prop where
  action : x.action = a.action
  resource : a.resource = x.resourceDomain ++ ':' :: x.resource ∧ ':' ∉ x.resourceDomain
  effect : x.effect = some .denyByPolicy ∧ IsDeny U a ∨ x.effect = none ∧ ¬ IsDeny U a

/-- No allowing entry stands before a denying one. -/
def DeniesFirst (l : List Assertion) : Prop :=
  ∀ (i j : Nat) (x y : Assertion), l[i]? = some x → l[j]? = some y → x.effect = none → y.effect ≠ none → j < i

/-- `o` lists what the assertions `A` say about the role `k`: nothing else, every action and resource that they mention, denied if one of them
denies it, and the denied ones first. -/
structure Lists (U : CaseFns) (A : List RawAssertion) (k : Str) (o : Option (List Assertion)) : Prop where
  only : ∀ l, o = some l → ∀ x ∈ l, ∃ a ∈ A, a.role = k ∧ Shows U a x
  all : ∀ a ∈ A, a.role = k → ∃ l, o = some l ∧ ∃ x ∈ l, x.action = a.action ∧ a.resource = x.resourceDomain ++ ':' :: x.resource ∧
    ':' ∉ x.resourceDomain ∧ (IsDeny U a → x.effect = some .denyByPolicy)
  deniesFirst : ∀ l, o = some l → DeniesFirst l

end Spec
end Athenz
