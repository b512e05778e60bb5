import Verif.Spec.Glob

/-! # What a set of policy documents means -/

namespace Athenz

/-- github.com/AthenZ/athenz/utils/zpe-updater/util `Assertion`: one assertion as it stands in a signed policy document. -/
structure RawAssertion where
  role : Str
  action : Str
  resource : Str
  effect : Str
deriving DecidableEq, Repr

namespace Spec

/-- `a` is about role `role` of domain `domain` and matches the requested action and resource.  The role is compared exactly, the
domain of the resource up to case folding, action and resource as globs after lowering. -/
def Applies (U : CaseFns) (a : RawAssertion) (domain role action resource : Str) : Prop :=
  a.role = domain ++ ":role.".toList ++ role ∧
  ∃ rd rr, a.resource = rd ++ ':' :: rr ∧ ':' ∉ rd ∧ rd.map U.fold = domain.map U.fold ∧
    Glob (a.action.map U.lower) (action.map U.lower) ∧ Glob (rr.map U.lower) (resource.map U.lower)

/-- The word "deny" in any letter case. -/
def IsDeny (U : CaseFns) (a : RawAssertion) : Prop := a.effect.map U.fold = "deny".toList.map U.fold

/-- Some applying assertion among `as` denies. -/
def Denied (U : CaseFns) (as : List RawAssertion) (domain role action resource : Str) : Prop :=
  ∃ a ∈ as, Applies U a domain role action resource ∧ IsDeny U a

/-- Some applying assertion among `as` allows. -/
def Allowed (U : CaseFns) (as : List RawAssertion) (domain role action resource : Str) : Prop :=
  ∃ a ∈ as, Applies U a domain role action resource ∧ ¬ IsDeny U a

/-- The two assertions speak about the same role, action and resource. -/
def SameTriple (a b : RawAssertion) : Prop := b.role = a.role ∧ b.action = a.action ∧ b.resource = a.resource

/-- Role, action and resource of the assertion, joined with commas. -/
def joined (a : RawAssertion) : Str := a.role ++ ",".toList ++ a.action ++ ",".toList ++ a.resource

/-- Every one of the policies that mentions the triple of `a` denies it. -/
def DeniedByAll (U : CaseFns) (policies : List (List RawAssertion)) (a : RawAssertion) : Prop :=
  ∀ p ∈ policies, (∃ b ∈ p, SameTriple a b) → ∃ b ∈ p, SameTriple a b ∧ IsDeny U b

end Spec
end Athenz
