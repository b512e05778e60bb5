import Verif.Spec.Change

/-! # Specification: an authorizer that gets no news from the policy server -/

namespace Athenz
namespace Spec

/-- From the moment `N` on the fetchers of the configured domains learn nothing new: at that moment they have the documents `D`, whose resources
name a domain, and requests fail, or their answers give the same documents once more or say that these are unchanged.  No call of `Update` is
cancelled. -/
structure NoNews {cfg : SysCfg} {now : Int} (x : SysExec cfg now) (N : Nat) (D : List PolicyDoc) : Prop where
  len : D.length = cfg.domains.length
  had : ∀ (j : Nat) (dom : Str) (d : PolicyDoc), cfg.domains[j]? = some dom → D[j]? = some d →
    ∃ c, ((x.state N).fs dom).cache = some c ∧ PolicySays c.sp d
  same : ∀ (j : Nat) (dom : Str) (d : PolicyDoc), cfg.domains[j]? = some dom → D[j]? = some d → ∀ n, N ≤ n → ∀ k r sp,
    x.act n = .fetcher dom (.answer k r) → FAct.succeeds cfg.fetch ((x.state n).fs dom) (.answer k r) sp → PolicySays sp d
  good : ∀ d ∈ D, ∀ a ∈ d.policies.flatten, ':' ∈ a.resource
  noCancel : ∀ n i, N ≤ n → x.act n ≠ .pd (.task i .cancel)

/-- From the moment `N` on no request for policies succeeds. -/
def CutOff {cfg : SysCfg} {now : Int} (x : SysExec cfg now) (N : Nat) : Prop :=
  ∀ dom n, N ≤ n → ∀ k r sp, x.act n = .fetcher dom (.answer k r) → ¬ FAct.succeeds cfg.fetch ((x.state n).fs dom) (.answer k r) sp

end Spec
end Athenz
