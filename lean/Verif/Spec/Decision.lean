import Verif.Spec.Policy
import Verif.Model.CheckPolicy

/-! # Specification: the decision that a set of assertions prescribes -/

namespace Athenz
namespace Spec

/-- `r` is what the assertions `A` prescribe for the request: success, with the roles that are allowed, exactly if one is allowed and none
is denied, and otherwise the error that tells why.  Only a check whose context was cancelled may end without a decision. -/
def Decision (U : CaseFns) (A : List RawAssertion) (q : CheckReq) : Res (List Str) → Prop
  | .ok rs => (∃ role ∈ q.roles, Allowed U A q.domain role q.action q.resource) ∧
      (¬ ∃ role ∈ q.roles, Denied U A q.domain role q.action q.resource) ∧
      ∀ role, role ∈ rs ↔ role ∈ q.roles ∧ Allowed U A q.domain role q.action q.resource
  | .err e => e = .ctx ∨
      (e = .denyByPolicy ∧ ∃ role ∈ q.roles, Denied U A q.domain role q.action q.resource) ∨
      (e = .noMatch ∧ ∀ role ∈ q.roles, ¬ Allowed U A q.domain role q.action q.resource ∧ ¬ Denied U A q.domain role q.action q.resource)
  | .panic => False

end Spec
end Athenz
