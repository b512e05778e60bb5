import Verif.Proofs.RoleCert
import Verif.Props.Authority

/-! # C43: role certificates -/

namespace Athenz
open Spec

/-- The policy grants the request to the roles of the domain that the certificates name: one of them is allowed and none is denied. -/
def Spec.DomainGrants (U : CaseFns) (pre : Str) (certs : List Cert) (act res : Str) (view : PolicyView) (d : Str) : Prop :=
  (∃ r, NamesRole pre certs d r ∧ Decides U ⟨d, [], act, res⟩ view r none) ∧
  ∀ r e, NamesRole pre certs d r → ¬ Decides U ⟨d, [], act, res⟩ view r (some e)

/-- All checks see the same policies and are not disturbed. -/
def Spec.Steady (view : PolicyView) (oracle : List (PolicyView × List CheckAct)) : Prop := ∀ o ∈ oracle, o.1 = view ∧ Undisturbed o.2

/-- The verdict of one undisturbed check. -/
theorem steady_check {U : CaseFns} {d : Str} {rs : List Str} {act res : Str} {view : PolicyView} {sched : List CheckAct} {r : Res (List Str)}
    (hs : Undisturbed sched) (h : CheckReturns U ⟨d, rs, act, res⟩ view sched r) :
    r ≠ .panic ∧ ((∃ allowed, r = .ok allowed) ↔
      (∃ x ∈ rs, Decides U ⟨d, [], act, res⟩ view x none) ∧ ∀ x ∈ rs, ∀ e, ¬ Decides U ⟨d, [], act, res⟩ view x (some e)) := by
  have hc := C03_result U _ view sched hs r h
  have hD : ∀ x e, Decides U ⟨d, rs, act, res⟩ view x e ↔ Decides U ⟨d, [], act, res⟩ view x e := fun _ _ => Iff.rfl
  cases r with
  | panic => exact hc.elim
  | ok allowed =>
    refine ⟨by simp, ⟨fun _ => ?_, fun _ => ⟨allowed, rfl⟩⟩⟩
    obtain ⟨hne, hnd, f, hf, hp⟩ := hc
    refine ⟨?_, fun x hx e => hnd x hx e⟩
    cases allowed with
    | nil => exact absurd rfl hne
    | cons y ys =>
      obtain ⟨h1, h2⟩ := List.mem_filter.mp (hp.mem_iff.mp (List.mem_cons_self ..))
      exact ⟨y, h1, (hf y).mp h2⟩
  | err e =>
    refine ⟨by simp, ⟨by rintro ⟨_, h⟩; simp at h, ?_⟩⟩
    rintro ⟨⟨x, hx, hax⟩, hn⟩
    rcases hc with ⟨y, hy, hd⟩ | ⟨_, hf⟩ | ⟨_, hno⟩
    · exact absurd hd (hn y hy e)
    · exact hf.elim
    · exact absurd hax (hno x hx none)

/-- The verdict for the lists of roles that are checked. -/
theorem steady_domains {U : CaseFns} {act res : Str} {l : List (Str × List Str)} {o : List (PolicyView × List CheckAct)} {view : PolicyView}
    {last r : Res Unit} (hl : l ≠ [] ∨ last ≠ .ok ()) (ho : Steady view o) (h : checkDomains U act res l o last = some r) :
    r = .ok () ↔ ∃ d rs, (d, rs) ∈ l ∧ (∃ x ∈ rs, Decides U ⟨d, [], act, res⟩ view x none) ∧
      ∀ x ∈ rs, ∀ e, ¬ Decides U ⟨d, [], act, res⟩ view x (some e) := by
  constructor
  · rintro rfl
    obtain ⟨d, rs, v, sched, allowed, h1, h2, h3⟩ := checkDomains_ok hl h
    obtain ⟨h4, h5⟩ := ho _ h2
    simp only at h4 h5
    subst h4
    exact ⟨d, rs, h1, ((steady_check h5 h3).2).mp ⟨allowed, rfl⟩⟩
  · rintro ⟨d, rs, hm, hg⟩
    refine checkDomains_complete h ?_ hm ?_
    · intro d' rs' v sched _ h2 hc
      obtain ⟨h4, h5⟩ := ho _ h2
      simp only at h4 h5
      subst h4
      exact (steady_check h5 hc).1 rfl
    · intro v sched e h2 hc
      obtain ⟨h4, h5⟩ := ho _ h2
      simp only at h4 h5
      subst h4
      obtain ⟨a, ha⟩ := ((steady_check h5 hc).2).mpr hg
      simp at ha

/-- The full statement of C43. -/
def C43_statement : Prop :=
  ∀ (cfg : AuthCfg) (certs : List Cert) (act res : Str) (order : List (Str × List Str)) (oracle : List (PolicyView × List CheckAct))
    (view : PolicyView) (r : Res Unit), cfg.disablePolicyd = false → Steady view oracle →
    VerifyRoleCertReturns cfg certs act res order oracle r →
    (r = .ok () ↔ ∃ d, DomainGrants cfg.U cfg.roleCertURIPrefix certs act res view d)

/-- It holds unless two of the roles named have the same text when domain and role are written one behind the other.  Missing: certificates
with such roles. -/
theorem C43_noClash_partial (cfg : AuthCfg) (certs : List Cert) (act res : Str) (order : List (Str × List Str))
    (oracle : List (PolicyView × List CheckAct)) (view : PolicyView) (r : Res Unit) (hd : cfg.disablePolicyd = false) (ho : Steady view oracle)
    (hn : NoClash cfg.roleCertURIPrefix certs) (h : VerifyRoleCertReturns cfg certs act res order oracle r) :
    r = .ok () ↔ ∃ d, DomainGrants cfg.U cfg.roleCertURIPrefix certs act res view d := by
  unfold VerifyRoleCertReturns at h
  rw [if_neg (by simp [hd])] at h
  obtain ⟨hp, h⟩ := h
  have hmem : ∀ d rs, (d, rs) ∈ order ↔ (d, rs) ∈ (certRoles cfg.roleCertURIPrefix certs).roles := fun d rs => hp.mem_iff
  split at h
  · rename_i he
    subst h
    constructor
    · intro h; simp at h
    · rintro ⟨d, ⟨x, hx, _⟩, _⟩
      obtain ⟨rs, h1, _⟩ := certRoles_complete hn hx
      rw [← hmem, he] at h1
      simp at h1
  · rename_i he
    rw [steady_domains (.inl he) ho h]
    constructor
    · rintro ⟨d, rs, hm, ⟨x, hx, ha⟩, hnd⟩
      obtain ⟨_, _, h3⟩ := certRoles_exact hn ((hmem d rs).mp hm)
      exact ⟨d, ⟨x, (h3 x).mp hx, ha⟩, fun y e hy => hnd y ((h3 y).mpr hy) e⟩
    · rintro ⟨d, ⟨x, hx, ha⟩, hnd⟩
      obtain ⟨rs, h1, h2⟩ := certRoles_complete hn hx
      obtain ⟨_, _, h3⟩ := certRoles_exact hn h1
      exact ⟨d, rs, (hmem d rs).mpr h1, ⟨x, h2, ha⟩, fun y hy e => hnd y e ((h3 y).mp hy)⟩

/-- **C43**, always, also if policies change meanwhile: a grant is the grant of the check of some domain with different roles that the
certificates name for it. -/
theorem C43_sound (cfg : AuthCfg) (certs : List Cert) (act res : Str) (order : List (Str × List Str))
    (oracle : List (PolicyView × List CheckAct)) (hd : cfg.disablePolicyd = false)
    (h : VerifyRoleCertReturns cfg certs act res order oracle (.ok ())) :
    ∃ d rs view sched allowed, rs ≠ [] ∧ rs.Nodup ∧ (∀ x ∈ rs, NamesRole cfg.roleCertURIPrefix certs d x) ∧ (view, sched) ∈ oracle ∧
      CheckReturns cfg.U ⟨d, rs, act, res⟩ view sched (.ok allowed) := by
  unfold VerifyRoleCertReturns at h
  rw [if_neg (by simp [hd])] at h
  obtain ⟨hp, h⟩ := h
  split at h
  · simp at h
  · rename_i he
    obtain ⟨d, rs, view, sched, allowed, h1, h2, h3⟩ := checkDomains_ok (.inl he) h
    obtain ⟨h4, h5, h6⟩ := certRoles_sound (hp.mem_iff.mp h1)
    exact ⟨d, rs, view, sched, allowed, h4, h5, h6, h2, h3⟩

/-- **C43**, always: the verdict does not depend on the order in which the domains are checked, nor on the schedules. -/
theorem C43_order (cfg : AuthCfg) (certs : List Cert) (act res : Str) (order order' : List (Str × List Str))
    (oracle oracle' : List (PolicyView × List CheckAct)) (view : PolicyView) (r r' : Res Unit) (ho : Steady view oracle) (ho' : Steady view oracle')
    (h : VerifyRoleCertReturns cfg certs act res order oracle r) (h' : VerifyRoleCertReturns cfg certs act res order' oracle' r') :
    r = .ok () ↔ r' = .ok () := by
  unfold VerifyRoleCertReturns at h h'
  split at h
  · rename_i hd
    rw [if_pos hd] at h'
    rw [h, h']
  · rename_i hd
    rw [if_neg hd] at h'
    obtain ⟨hp, h⟩ := h
    obtain ⟨hp', h'⟩ := h'
    have hpp : order.Perm order' := hp.trans hp'.symm
    by_cases he : order = []
    · have he' : order' = [] := by rw [he] at hpp; exact hpp.symm.eq_nil
      rw [if_pos he] at h
      rw [if_pos he'] at h'
      rw [h, h']
    · have he' : order' ≠ [] := by
        intro h0; rw [h0] at hpp; exact he hpp.eq_nil
      rw [if_neg he] at h
      rw [if_neg he'] at h'
      rw [steady_domains (.inl he) ho h, steady_domains (.inl he') ho' h']
      simp only [hpp.mem_iff]

/-- **C43**, always: certificates that name no role are refused. -/
theorem C43_none (cfg : AuthCfg) (certs : List Cert) (act res : Str) (order : List (Str × List Str)) (oracle : List (PolicyView × List CheckAct))
    (r : Res Unit) (hd : cfg.disablePolicyd = false) (hn : ∀ d x, ¬ NamesRole cfg.roleCertURIPrefix certs d x)
    (h : VerifyRoleCertReturns cfg certs act res order oracle r) : r = .err (.other "invalid role certificate") := by
  unfold VerifyRoleCertReturns at h
  rw [if_neg (by simp [hd])] at h
  obtain ⟨hp, h⟩ := h
  split at h
  · exact h
  · rename_i he
    cases order with
    | nil => exact absurd rfl he
    | cons p l =>
      obtain ⟨d, rs⟩ := p
      obtain ⟨h1, _, h3⟩ := certRoles_sound (hp.mem_iff.mp (List.mem_cons_self ..))
      cases rs with
      | nil => exact absurd rfl h1
      | cons x xs => exact absurd (h3 x (List.mem_cons_self ..)) (hn d x)

namespace Ex

/-- The certificate has the common name "a:role.bc" and URIs for the roles "x" and "c" of "ab". -/
def clashCert : Cert :=
  { raw := [], subjectCN := "a:role.bc".toList, issuerCN := [], notBefore := ⟨unixToInternal, 0⟩,
    uris := ["athenz://role/ab/x".toList, "athenz://role/ab/c".toList] }

/-- The domain "ab" allows its role "x" to read and denies its role "c" everything. -/
def clashView : PolicyView := fun k =>
  if k = "ab:role.x".toList then
    ((⟨"ab:role.x".toList, "read".toList, "ab:r".toList, "ALLOW".toList⟩ : RawAssertion).conv asciiCase).map fun x => [x]
  else if k = "ab:role.c".toList then
    ((⟨"ab:role.c".toList, "*".toList, "ab:*".toList, "DENY".toList⟩ : RawAssertion).conv asciiCase).map fun x => [x]
  else none

def clashOracle : List (PolicyView × List CheckAct) := [(clashView, schedR)]

theorem clashSteady : Steady clashView clashOracle := by
  intro o ho
  simp only [clashOracle, List.mem_singleton] at ho
  subst ho
  refine ⟨rfl, ?_⟩
  intro a ha
  simp [schedR] at ha
  rcases ha with rfl | rfl | rfl | rfl <;> trivial

end Ex

/-- The role "c" of "ab" is taken for the role "bc" of "a", which is known already, and so its denial is overlooked. -/
theorem C43_refuted : ¬ C43_statement := by
  intro h
  have hr : VerifyRoleCertReturns Ex.auCfg [Ex.clashCert] "read".toList "r".toList [("ab".toList, ["x".toList]), ("a".toList, ["bc".toList])]
      Ex.clashOracle (.ok ()) := by
    unfold VerifyRoleCertReturns
    rw [if_neg (by decide)]
    have : (certRoles Ex.auCfg.roleCertURIPrefix [Ex.clashCert]).roles = [("a".toList, ["bc".toList]), ("ab".toList, ["x".toList])] := by decide +kernel
    rw [this]
    refine ⟨List.Perm.swap _ _ _, ?_⟩
    rw [if_neg (by decide)]
    decide +kernel
  obtain ⟨d, ⟨x, hx, hax⟩, hnd⟩ := (h Ex.auCfg [Ex.clashCert] _ _ _ _ Ex.clashView _ rfl Ex.clashSteady hr).mp rfl
  -- the domain that grants can only be "ab"
  have hin := mem_certPairs.mpr hx
  have hpairs : certPairs Ex.auCfg.roleCertURIPrefix [Ex.clashCert] =
      [("a".toList, "bc".toList), ("ab".toList, "x".toList), ("ab".toList, "c".toList)] := by decide +kernel
  have hc : NamesRole Ex.auCfg.roleCertURIPrefix [Ex.clashCert] "ab".toList "c".toList := mem_certPairs.mp (by rw [hpairs]; simp)
  rw [hpairs] at hin
  have hd : d = "ab".toList := by
    simp only [List.mem_cons, Prod.mk.injEq, List.not_mem_nil, or_false] at hin
    rcases hin with ⟨rfl, rfl⟩ | ⟨rfl, _⟩ | ⟨rfl, _⟩
    · rw [decides_iff] at hax
      exact absurd hax (by decide +kernel)
    · rfl
    · rfl
  subst hd
  exact hnd _ .denyByPolicy hc ((decides_iff ..).mpr (by decide +kernel))

/-- Two certificates that name roles of two domains, without clash, of which one grants. -/
example : NoClash Ex.auCfg.roleCertURIPrefix [Ex.rcCert] ∧ Steady Ex.auView [(Ex.auView, Ex.schedR)] ∧
    VerifyRoleCertReturns Ex.auCfg [Ex.rcCert] "read".toList "/x".toList [("dom".toList, ["admin".toList])] [(Ex.auView, Ex.schedR)] (.ok ()) := by
  refine ⟨?_, ?_, ?_⟩
  · intro d r d' r' h h' _
    have hpairs : certPairs Ex.auCfg.roleCertURIPrefix [Ex.rcCert] = [("dom".toList, "admin".toList)] := by decide +kernel
    have h1 := mem_certPairs.mpr h
    have h2 := mem_certPairs.mpr h'
    rw [hpairs, List.mem_singleton, Prod.mk.injEq] at h1 h2
    rw [h1.1, h1.2, h2.1, h2.2]
    exact ⟨rfl, rfl⟩
  · intro o ho
    simp only [List.mem_singleton] at ho
    subst ho
    refine ⟨rfl, ?_⟩
    intro a ha
    simp [Ex.schedR] at ha
    rcases ha with rfl | rfl | rfl | rfl <;> trivial
  · unfold VerifyRoleCertReturns
    rw [if_neg (by decide)]
    have : (certRoles Ex.auCfg.roleCertURIPrefix [Ex.rcCert]).roles = [("dom".toList, ["admin".toList])] := by decide +kernel
    rw [this, if_neg (by decide)]
    exact ⟨List.Perm.refl _, by decide +kernel⟩

end Athenz
