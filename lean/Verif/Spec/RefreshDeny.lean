import Verif.Spec.Policy
import Verif.Model.Policyd

/-! # Specification: the background refresh of expired policy cache entries -/

namespace Athenz
namespace Spec

/-- Every goroutine of the task has ended. -/
def Ended (t : Task) : Prop := ∀ j ∈ t.jobs, ∃ e, j = .done e

/-- Nobody is about to write into the policies in force. -/
def NoRefresh (s : PdState) : Prop := ∀ (i : Nat) (t : Task), s.tasks[i]? = some t → t.obj = s.live → Ended t

/-- Task `i` is a refresh that has ended without error. -/
def RefreshDone (s : PdState) (i : Nat) : Prop := ∃ t, s.tasks[i]? = some t ∧ t.isUpdate = false ∧ t.jobs = [.done none]

/-- No call of `Update` has returned nil between the two moments. -/
def NoUpdateBetween (s s' : PdState) : Prop :=
  ∀ (i : Nat) (t' : Task), s'.tasks[i]? = some t' → t'.ret = some true → ∃ t, s.tasks[i]? = some t ∧ t.ret = some true

/-- The document is valid at `t`, and the arithmetic on its expiry does not overflow. -/
def ValidAt (t : Int) (d : PolicyDoc) : Prop := t < d.expires ∧ d.expires + t < 2 ^ 63

/-- The document denies the request to one of the roles, unmistakably: every policy that mentions the same role, action and resource denies them, too,
and no other assertion has the same role, action and resource when these are joined with commas. -/
def DeniesClearly (U : CaseFns) (d : PolicyDoc) (q : CheckReq) : Prop :=
  ∃ role ∈ q.roles, ∃ a ∈ d.policies.flatten, Applies U a q.domain role q.action q.resource ∧ IsDeny U a ∧ DeniedByAll U d.policies a ∧
    ∀ b ∈ d.policies.flatten, joined b = joined a → SameTriple a b

/-- A goroutine of the task is writing the policies of a document into the cache. -/
def Writes (t : Task) : Prop := ∃ j ∈ t.jobs, ∃ ttl todo pc, j = .fill ttl todo pc

/-- At most one refresh is writing into the cache object `o`. -/
def OneWrites (o : Nat) (s : PdState) : Prop :=
  ∀ (i i' : Nat) (t t' : Task), s.tasks[i]? = some t → s.tasks[i']? = some t' → t.obj = o → t'.obj = o → Writes t → Writes t' → i = i'

end Spec
end Athenz
