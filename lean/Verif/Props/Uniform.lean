import Verif.Props.RoleCert

/-! # C64: the same request is decided alike whatever the kind of credential -/

namespace Athenz
open Spec

/-- The certificates name the roles `rs` of the domain and nothing else. -/
def Spec.NamesOnly (pre : Str) (certs : List Cert) (domain : Str) (rs : List Str) : Prop :=
  rs ≠ [] ∧ ∀ d r, NamesRole pre certs d r ↔ d = domain ∧ r ∈ rs

/-- What a token for the domain and the roles is granted: the policy check behind `authorize` (see C35). -/
def Spec.TokenVerdict (cfg : AuthCfg) (domain : Str) (rs : List Str) (act res : Str) (view : PolicyView) (granted : Prop) : Prop :=
  act ≠ [] ∧ res ≠ [] ∧ ∃ seed act' res' sched r, Translates cfg seed domain ⟨.roleToken, [], act, res, [], none⟩ act' res' ∧
    Undisturbed sched ∧ CheckReturns cfg.U ⟨domain, rs, act', cfg.resourcePrefix ++ res'⟩ view sched r ∧ (granted ↔ ∃ x, r = .ok x)

/-- The full statement of C64: with the same policies, action and resource, a role certificate and a token for the same roles are granted
the same. -/
def C64_statement : Prop :=
  ∀ (cfg : AuthCfg) (certs : List Cert) (domain : Str) (rs : List Str) (act res : Str) (order : List (Str × List Str))
    (oracle : List (PolicyView × List CheckAct)) (view : PolicyView) (granted : Prop) (rc : Res Unit), cfg.disablePolicyd = false →
    NamesOnly cfg.roleCertURIPrefix certs domain rs → TokenVerdict cfg domain rs act res view granted → Steady view oracle →
    VerifyRoleCertReturns cfg certs act res order oracle rc → (granted ↔ rc = .ok ())

theorem noClash_of_only {pre : Str} {certs : List Cert} {domain : Str} {rs : List Str} (h : NamesOnly pre certs domain rs) :
    NoClash pre certs := by
  intro d r d' r' h1 h2 he
  obtain ⟨rfl, _⟩ := (h.2 d r).mp h1
  obtain ⟨rfl, _⟩ := (h.2 d' r').mp h2
  exact ⟨rfl, List.append_cancel_left he⟩

/-- **C64** holds without translator and resource prefix.  Missing: configurations with one of them. -/
theorem C64_plain_partial (cfg : AuthCfg) (certs : List Cert) (domain : Str) (rs : List Str) (act res : Str) (order : List (Str × List Str))
    (oracle : List (PolicyView × List CheckAct)) (view : PolicyView) (granted : Prop) (rc : Res Unit) (hd : cfg.disablePolicyd = false)
    (ht : cfg.translator = none) (hp : cfg.resourcePrefix = []) (hn : NamesOnly cfg.roleCertURIPrefix certs domain rs)
    (hv : TokenVerdict cfg domain rs act res view granted) (ho : Steady view oracle)
    (h : VerifyRoleCertReturns cfg certs act res order oracle rc) : granted ↔ rc = .ok () := by
  obtain ⟨_, _, seed, act', res', sched, r, htr, hs, hc, hg⟩ := hv
  obtain ⟨rfl, rfl⟩ := htr.1 ht
  rw [hp, List.nil_append] at hc
  rw [hg, (steady_check hs hc).2, C43_noClash_partial cfg certs _ _ order oracle view rc hd ho (noClash_of_only hn) h]
  constructor
  · rintro ⟨⟨x, hx, ha⟩, hnd⟩
    exact ⟨domain, ⟨x, (hn.2 _ _).mpr ⟨rfl, hx⟩, ha⟩, fun y e hy => hnd y ((hn.2 _ _).mp hy).2 e⟩
  · rintro ⟨d, ⟨x, hx, ha⟩, hnd⟩
    obtain ⟨rfl, hx'⟩ := (hn.2 _ _).mp hx
    exact ⟨⟨x, hx', ha⟩, fun y hy e => hnd y e ((hn.2 _ _).mpr ⟨rfl, hy⟩)⟩

/-- **C64**, always: what decides about a role certificate is the policy on the action and resource as given, neither translated nor
prefixed. -/
theorem C64_raw (cfg : AuthCfg) (certs : List Cert) (domain : Str) (rs : List Str) (act res : Str) (order : List (Str × List Str))
    (oracle : List (PolicyView × List CheckAct)) (view : PolicyView) (rc : Res Unit) (hd : cfg.disablePolicyd = false)
    (hn : NamesOnly cfg.roleCertURIPrefix certs domain rs) (ho : Steady view oracle)
    (h : VerifyRoleCertReturns cfg certs act res order oracle rc) :
    rc = .ok () ↔ (∃ r ∈ rs, Decides cfg.U ⟨domain, [], act, res⟩ view r none) ∧
      ∀ r ∈ rs, ∀ e, ¬ Decides cfg.U ⟨domain, [], act, res⟩ view r (some e) := by
  rw [C43_noClash_partial cfg certs _ _ order oracle view rc hd ho (noClash_of_only hn) h]
  constructor
  · rintro ⟨d, ⟨x, hx, ha⟩, hnd⟩
    obtain ⟨rfl, hx'⟩ := (hn.2 _ _).mp hx
    exact ⟨⟨x, hx', ha⟩, fun y hy e => hnd y e ((hn.2 _ _).mpr ⟨rfl, hy⟩)⟩
  · rintro ⟨⟨x, hx, ha⟩, hnd⟩
    exact ⟨domain, ⟨x, (hn.2 _ _).mpr ⟨rfl, hx⟩, ha⟩, fun y e hy => hnd y ((hn.2 _ _).mp hy).2 e⟩

namespace Ex

/-- Nothing matches. -/
def schedNone : List CheckAct := [.worker 0, .worker 0, .worker 0, .close, .recv]

/-- All resources of the service begin with "/svc" in the policies. -/
def prefixCfg : AuthCfg := { coCfg with resourcePrefix := "/svc".toList }

/-- The translator makes everything harmless. -/
def harmlessCfg : AuthCfg := { coCfg with translator := some fun _ _ _ _ _ => .ok ("look".toList, "/nothing".toList) }

/-- The role may do anything to anything. -/
def rootView : PolicyView := fun k =>
  if k = "dom:role.admin".toList then
    ((⟨"dom:role.admin".toList, "*".toList, "dom:*".toList, "ALLOW".toList⟩ : RawAssertion).conv asciiCase).map fun x => [x]
  else none

theorem rcCert_names : NamesOnly "athenz://role/".toList [rcCert] "dom".toList ["admin".toList] := by
  refine ⟨by simp, fun d r => ?_⟩
  have hpairs : certPairs "athenz://role/".toList [rcCert] = [("dom".toList, "admin".toList)] := by decide +kernel
  rw [← mem_certPairs, hpairs, List.mem_singleton, Prod.mk.injEq, List.mem_singleton]

theorem undisturbed_schedR : Undisturbed schedR := by
  intro a ha; simp [schedR] at ha; rcases ha with rfl | rfl | rfl | rfl <;> trivial

theorem undisturbed_schedNo : Undisturbed schedNone := by
  intro a ha; simp [schedNone] at ha; rcases ha with rfl | rfl | rfl <;> trivial

theorem steady_one (view : PolicyView) : Steady view [(view, schedR)] := by
  intro o ho
  simp only [List.mem_singleton] at ho
  subst ho
  exact ⟨rfl, undisturbed_schedR⟩

theorem rcCert_grants (cfg : AuthCfg) (hd : cfg.disablePolicyd = false) (hp : cfg.roleCertURIPrefix = "athenz://role/".toList)
    (view : PolicyView) (act res : Str)
    (h : checkDomains cfg.U act res [("dom".toList, ["admin".toList])] [(view, schedR)] (.ok ()) = some (.ok ())) :
    VerifyRoleCertReturns cfg [rcCert] act res [("dom".toList, ["admin".toList])] [(view, schedR)] (.ok ()) := by
  unfold VerifyRoleCertReturns
  rw [if_neg (by simp [hd]), hp]
  have : (certRoles "athenz://role/".toList [rcCert]).roles = [("dom".toList, ["admin".toList])] := by decide +kernel
  rw [this, if_neg (by decide)]
  exact ⟨List.Perm.refl _, h⟩

end Ex

/-- The policies allow "/x", not "/svc/x": the token is refused, the role certificate accepted. -/
theorem C64_refuted : ¬ C64_statement := by
  intro h
  have hc : CheckReturns asciiCase ⟨"dom".toList, ["admin".toList], "read".toList, "/svc/x".toList⟩ Ex.auView Ex.schedNone (.err .noMatch) :=
    Ex.returns_of_ret (by decide +kernel)
  have := (h Ex.prefixCfg [Ex.rcCert] "dom".toList ["admin".toList] "read".toList "/x".toList _ _ Ex.auView False (.ok ()) rfl
    Ex.rcCert_names
    ⟨by decide, by decide, 0, "read".toList, "/x".toList, Ex.schedNone, .err .noMatch, ⟨fun _ => ⟨rfl, rfl⟩, fun t ht => by cases ht⟩,
      Ex.undisturbed_schedNo, hc, by simp⟩
    (Ex.steady_one _) (Ex.rcCert_grants _ rfl rfl _ _ _ (by decide +kernel))).mpr rfl
  exact this

/-- The same with a translator: the policies say nothing about what the translator makes of the request, but allow the request as it is. -/
theorem C64_translator_refuted :
    ∃ (cfg : AuthCfg) (certs : List Cert) (act res : Str) (view : PolicyView) (order : List (Str × List Str))
      (oracle : List (PolicyView × List CheckAct)), cfg.disablePolicyd = false ∧ cfg.resourcePrefix = [] ∧
      NamesOnly cfg.roleCertURIPrefix certs "dom".toList ["admin".toList] ∧
      TokenVerdict cfg "dom".toList ["admin".toList] act res view False ∧ Steady view oracle ∧
      VerifyRoleCertReturns cfg certs act res order oracle (.ok ()) :=
  ⟨Ex.harmlessCfg, [Ex.rcCert], "read".toList, "/x".toList, Ex.auView, _, _, rfl, rfl, Ex.rcCert_names,
    ⟨by decide, by decide, 0, "look".toList, "/nothing".toList, Ex.schedNone, .err .noMatch,
      ⟨fun ht => (by cases ht), fun t ht => by simp only [Ex.harmlessCfg, Option.some.injEq] at ht; subst ht; rfl⟩,
      Ex.undisturbed_schedNo, Ex.returns_of_ret (by decide +kernel), by simp⟩,
    Ex.steady_one _, Ex.rcCert_grants _ rfl rfl _ _ _ (by decide +kernel)⟩

/-- A role certificate is accepted even without action and resource, which no token is (C40). -/
theorem C64_empty_refuted :
    ∃ (cfg : AuthCfg) (certs : List Cert) (view : PolicyView) (order : List (Str × List Str)) (oracle : List (PolicyView × List CheckAct)),
      cfg.disablePolicyd = false ∧ Steady view oracle ∧ VerifyRoleCertReturns cfg certs [] [] order oracle (.ok ()) :=
  ⟨Ex.coCfg, [Ex.rcCert], Ex.rootView, _, _, rfl, Ex.steady_one _, Ex.rcCert_grants _ rfl rfl _ _ _ (by decide +kernel)⟩

/-- Without translator and prefix: both are accepted. -/
example : TokenVerdict Ex.coCfg "dom".toList ["admin".toList] "read".toList "/x".toList Ex.auView True ∧
    VerifyRoleCertReturns Ex.coCfg [Ex.rcCert] "read".toList "/x".toList [("dom".toList, ["admin".toList])] [(Ex.auView, Ex.schedR)] (.ok ()) :=
  ⟨⟨by decide, by decide, 0, "read".toList, "/x".toList, Ex.schedR, .ok ["admin".toList], ⟨fun _ => ⟨rfl, rfl⟩, fun t ht => by cases ht⟩,
      Ex.undisturbed_schedR, Ex.returns_of_ret (by decide +kernel), by simp⟩,
    Ex.rcCert_grants _ rfl rfl _ _ _ (by decide +kernel)⟩

end Athenz
