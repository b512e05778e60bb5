import Verif.Spec.System

/-! # Specification: how recent a policy is -/

namespace Athenz
namespace Spec

/-- During `h`, which begins in `s0`, the fetcher of `dom` sent a request, in the state `s1`, and it was answered with `r`. -/
def Exchange (cfg : SysCfg) (s0 : Sys) (h : List SysAct) (dom : Str) (s1 : Sys) (r : HttpResult) : Prop :=
  ∃ h1 h2 h3 j, h = h1 ++ SysAct.fetcher dom (.send j) :: h2 ++ SysAct.fetcher dom (.answer j r) :: h3 ∧
    SysAct.fetcher dom (.send j) ∉ h2 ∧ sysRun cfg s0 h1 = some s1

/-- During `h` the policy server was asked for the policy of `dom` and answered with `sp`, or that the policy `sp`, which the fetcher had
when it asked, is not modified. -/
def Confirmed (cfg : SysCfg) (s0 : Sys) (h : List SysAct) (dom : Str) (sp : SignedPolicy) : Prop :=
  (∃ s1 eTag body, Exchange cfg s0 h dom s1 (.answer 200 eTag body) ∧ cfg.fetch.codec.decode body = some (some sp)) ∨
  ∃ s1 eTag body c, Exchange cfg s0 h dom s1 (.answer 304 eTag body) ∧ (s1.fs dom).cache = some c ∧ c.sp = sp

/-- During `h` all attempts to ask for the policy of `dom` had failed, and `sp` was what the fetcher still had. -/
def KeptInstead (cfg : SysCfg) (s0 : Sys) (h : List SysAct) (dom : Str) (sp : SignedPolicy) : Prop :=
  ∃ h1 h2 j s1 c, h = h1 ++ SysAct.fetcher dom (.giveUp j) :: h2 ∧ sysRun cfg s0 h1 = some s1 ∧ (s1.fs dom).cache = some c ∧ c.sp = sp

/-- Each of the roles `rs` is asked for and is allowed by an assertion of a policy `sp` of a configured domain for which `P dom sp` holds. -/
def GrantedBy (cfg : SysCfg) (P : Str → SignedPolicy → Prop) (q : CheckReq) (rs : List Str) : Prop :=
  rs ≠ [] ∧ ∀ role ∈ rs, role ∈ q.roles ∧ ∃ dom ∈ cfg.domains, ∃ sp d a, P dom sp ∧ PolicySays sp d ∧ a ∈ d.policies.flatten ∧
    Applies cfg.auth.U a q.domain role q.action q.resource ∧ ¬ IsDeny cfg.auth.U a

end Spec
end Athenz
