import Verif.Spec.Translator

/-! # What can be wrong with translation rules, and the error that says so -/

namespace Athenz.Spec

/-- The path of a rule, without its query, has the segments `segs`. -/
def RuleSegs (r : Rule) (segs : List Str) : Prop :=
  ('?' ∉ r.path ∧ SplitInto '/' r.path segs) ∨ ∃ p q, r.path = p ++ '?' :: q ∧ '?' ∉ p ∧ SplitInto '/' p segs

/-- What is wrong with a rule. -/
inductive RuleFault (pq : QueryParser) (r : Rule) : Err → Prop
  | blank : r.method = [] ∨ r.action = [] ∨ r.resource = [] → RuleFault pq r (.other "rule is empty")
  | slash : r.path ≠ [] → (∀ t, r.path ≠ '/' :: t) → RuleFault pq r (.other "path doesn't start with slash")
  | query (p q : Str) : r.path = p ++ '?' :: q → '?' ∉ p → pq q = none → RuleFault pq r (.other "url.ParseQuery")
  | values (segs : List Str) (qm : SMap (List Str)) (k : Str) (vs : List Str) : RuleParts pq r segs qm → (k, vs) ∈ qm → (∀ v, vs ≠ [v]) →
      RuleFault pq r (.other "query multiple values is not allowed")
  | emptyPath (segs : List Str) : RuleSegs r segs → "{}".toList ∈ segs → RuleFault pq r (.other "placeholder is empty")
  | emptyQuery (segs : List Str) (qm : SMap (List Str)) : RuleParts pq r segs qm → "{}".toList ∈ qm.flatMap (·.2) → RuleFault pq r (.other "placeholder is empty")
  | twicePath (segs : List Str) (a : Str) : RuleSegs r segs → IsPh a → 2 ≤ segs.count a → RuleFault pq r (.other "placeholder is duplicated")
  | twice (segs : List Str) (qm : SMap (List Str)) (a : Str) : RuleParts pq r segs qm → IsPh a → 2 ≤ (segs ++ qm.flatMap (·.2)).count a →
      RuleFault pq r (.other "placeholder is duplicated")
  /-- A rule that was validated before, with this placeholder in its query. -/
  | before (segs : List Str) (k a : Str) : RuleSegs r segs → IsPh a → a ∈ segs → (k, ⟨a, true⟩) ∈ r.queryValueMap →
      RuleFault pq r (.other "placeholder is duplicated")

/-- What is wrong with a set of rules. -/
inductive RuleSetFault (pq : QueryParser) : Option RuleSet → Err → Prop
  | noRules : RuleSetFault pq none (.other "rules is nil")
  | noDomain (m : RuleSet) (v : Option (List Rule)) : ([], v) ∈ m → RuleSetFault pq (some m) (.other "domain is empty")
  | noList (m : RuleSet) (k : Str) : (k, none) ∈ m → RuleSetFault pq (some m) (.other "rules is nil")
  | rule (m : RuleSet) (k : Str) (rs : List Rule) (r : Rule) (e : Err) : (k, some rs) ∈ m → r ∈ rs → RuleFault pq r e → RuleSetFault pq (some m) e

end Athenz.Spec
