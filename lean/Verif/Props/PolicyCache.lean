import Verif.Model.PolicyCache
import Verif.Spec.PolicyCache
import Verif.Proofs.PolicyCache
import Verif.Props.InForce

/-!
# C71: `GetPolicyCache` shows the policies that are in force
-/

namespace Athenz
open Spec

theorem conv_shows {U : CaseFns} {a : RawAssertion} {x : Assertion} (h : a.conv U = some x) : Shows U a x := by
  have he := conv_effect h
  have h' := conv_some h
  unfold newAssertion at h'
  split at h'
  · simp at h'
  · rename_i dom res hcut
    split at h'
    · simp at h'
    · split at h'
      · simp at h'
      · simp only [Res.ok.injEq] at h'
        subst h'
        have := Str.cut_singleton_iff.mp hcut
        refine ⟨rfl, this, ?_⟩
        rw [← isDeny_iff]
        cases hd : a.isDeny U with
        | true => rw [hd] at he; exact .inl ⟨he, rfl⟩
        | false => rw [hd] at he; exact .inr ⟨he, by simp⟩

theorem DenyFirst.deniesFirst {l : List Assertion} (h : DenyFirst l) : DeniesFirst l := by
  obtain ⟨ds, as, rfl, h1, h2⟩ := h
  intro i j x y hx hy hex hey
  have hj : j < ds.length := by
    refine Classical.byContradiction fun hn => hey (h2 y ?_)
    rw [List.getElem?_append_right (by omega)] at hy
    exact List.mem_of_getElem? hy
  have hi : ds.length ≤ i := by
    refine Classical.byContradiction fun hn => ?_
    rw [List.getElem?_append_left (by omega)] at hx
    have := h1 x (List.mem_of_getElem? hx)
    rw [hex] at this
    simp at this
  omega

theorem RepKey.lists {U : CaseFns} {A : List RawAssertion} {k : Str} {o : Option (List Assertion)} (h : RepKey U A k o) : Lists U A k o := by
  refine ⟨fun l hl x hx => ?_, fun a ha hr => ?_, fun l hl => (h.denyFirst l hl).deniesFirst⟩
  · obtain ⟨a, ha, hr, hc⟩ := h.sound l hl x hx
    exact ⟨a, ha, hr, conv_shows hc⟩
  · obtain ⟨l, hl, b, x, hx, hc, _, h2, h3, h4⟩ := h.complete a ha hr
    have hs := conv_shows hc
    refine ⟨l, hl, x, hx, hs.action.trans h2, h3 ▸ hs.resource.1, hs.resource.2, fun hd => ?_⟩
    rcases hs.effect with ⟨he, _⟩ | ⟨_, hn⟩
    · exact he
    · exact absurd ((isDeny_iff U b).mp (h4 ((isDeny_iff U a).mpr hd))) hn

/-- The full statement of C71, for executions without background refresh: the call, if its context is not done, shows for every role what
the policies say that were in force at a moment during the call, unless one of them has expired. -/
def C71_statement : Prop :=
  ∀ (cfg : SysCfg) (now : Int) (h : List SysAct) (s : Sys) (n : Nat) (m : Str → Option (List Assertion)), 0 ≤ now →
    cfg.auth.disablePolicyd = false → (∀ n f, .pd (.hook n f) ∉ h) → sysRun cfg (sysInit cfg now) h = some s →
    GetPolicyCacheReturns cfg (sysInit cfg now) h n false m →
    ∃ j s1 docs, n ≤ j ∧ j ≤ h.length ∧ sysRun cfg (sysInit cfg now) (h.take j) = some s1 ∧ InForce cfg (sysInit cfg now) (h.take j) s1 docs ∧
      ((∀ d, some d ∈ docs → s.auth.now < d.expires ∧ d.expires + s.auth.now < 2 ^ 63) →
        ∀ k, Lists cfg.auth.U (allAssertions docs) k (m k))

/-- **C71**, in every execution, with or without background refresh: whatever the call shows is an assertion about that role in a policy
received with valid signatures for a configured domain, and the denying ones come first. -/
theorem C71_origin (cfg : SysCfg) (now : Int) (hpol : cfg.auth.disablePolicyd = false) (h : List SysAct) (n : Nat) (cancelled : Bool)
    (m : Str → Option (List Assertion)) (hm : GetPolicyCacheReturns cfg (sysInit cfg now) h n cancelled m) (k : Str) (l : List Assertion)
    (hl : m k = some l) : DeniesFirst l ∧ ∀ x ∈ l, ∃ dom ∈ cfg.domains, ∃ a, ReceivedAssertion cfg (sysInit cfg now) h dom a ∧ a.role = k ∧
      Shows cfg.auth.U a x := by
  unfold GetPolicyCacheReturns PolicyCacheReturns at hm
  rw [hpol] at hm
  simp only [Bool.false_eq_true, if_false] at hm
  obtain ⟨s, _, hk⟩ := hm
  rcases hk k with ⟨_, h1⟩ | ⟨j, s1, _, hj, hat, hmk⟩
  · rw [h1] at hl; simp at hl
  · obtain ⟨σ, hσ, rfl⟩ := Option.map_eq_some_iff.mp hat
    obtain ⟨A, hA, hg⟩ := (sysOrigin_run hσ).2.pd
    rw [hl] at hmk
    have hs : SoundKey cfg.auth.U A k (some l) := by
      rw [hmk]
      cases ho : σ.pd.objs[s.live]? with
      | none => exact ⟨by simp [viewOf, Gache.get, Gache.empty], by simp [viewOf, Gache.get, Gache.empty]⟩
      | some g => exact (hg.objs g (List.mem_of_getElem? ho)).view _ k
    refine ⟨(hs.denyFirst l rfl).deniesFirst, fun x hx => ?_⟩
    obtain ⟨a, ha, hr, hc⟩ := hs.sound l rfl x hx
    obtain ⟨dom, hd, hra⟩ := hA a ha
    refine ⟨dom, hd, a, ?_, hr, conv_shows hc⟩
    have := ReceivedAssertion.mono (h' := h.drop j) hra
    rwa [List.take_append_drop] at this

/-- **C71**: one call shows one version of the policies, the one published when the call began, if no refresh of an expired entry began
while this version was the last; entries can only be missing because they expired, or because the context was done.  Missing: calls during
which, or before which, the published policies were refreshed (C13). -/
theorem C71_version_partial (cfg : SysCfg) (now : Int) (hpol : cfg.auth.disablePolicyd = false) (h : List SysAct) (n : Nat) (cancelled : Bool)
    (m : Str → Option (List Assertion)) (hm : GetPolicyCacheReturns cfg (sysInit cfg now) h n cancelled m)
    (hnr : ∀ s, sysRun cfg (sysInit cfg now) (h.take n) = some s → NotRefreshed cfg (sysInit cfg now) (h.take n) s h) :
    ∃ s, sysRun cfg (sysInit cfg now) (h.take n) = some s ∧ ∀ k, (cancelled = true ∧ m k = none) ∨
      ∃ j s1, n ≤ j ∧ j ≤ h.length ∧ sysRun cfg (sysInit cfg now) (h.take j) = some s1 ∧ s.auth.now ≤ s1.auth.now ∧
        m k = viewOf s.pd.liveObj s1.auth.now k := by
  unfold GetPolicyCacheReturns PolicyCacheReturns at hm
  rw [hpol] at hm
  simp only [Bool.false_eq_true, if_false] at hm
  obtain ⟨p, hat, hk⟩ := hm
  obtain ⟨s, hs, rfl⟩ := Option.map_eq_some_iff.mp hat
  refine ⟨s, hs, fun k => ?_⟩
  rcases hk k with h1 | ⟨j, p1, hnj, hj, hat1, hmk⟩
  · exact .inl h1
  · obtain ⟨s1, hs1, rfl⟩ := Option.map_eq_some_iff.mp hat1
    right
    have hsplit : h.take j = h.take n ++ (h.take j).drop n := by
      conv => lhs; rw [← List.take_append_drop n (h.take j)]
      rw [List.take_take, Nat.min_eq_left hnj]
    have hs2 : sysRun cfg s ((h.take j).drop n) = some s1 := by
      rw [hsplit, sysRun_append, hs] at hs1; exact hs1
    have hnr' : NotRefreshed cfg (sysInit cfg now) (h.take n) s (h.take n ++ (h.take j).drop n) := by
      rw [← hsplit]
      refine NotRefreshed.earlier (h' := h.drop j) ?_
      rw [List.take_append_drop]
      exact hnr s hs
    have hno := noHookOn_of hs (by rw [← hsplit]; exact hs1) hnr'
    have hsame := quiet_run hno hs hs2 ((objVer_run hno.prefix hs).quiet_live rfl)
    have hc2 := (sysRuns_run hs1).1.clock.2.1
    refine ⟨j, s1, hnj, hj, hs1, sysRun_now hs2, ?_⟩
    rw [hmk, ← hc2]
    exact hsame _ (Int.le_refl _) k

/-- **C71**: a call whose context is not done shows exactly what the policies in force when it began say about every role for which these
are regular, if the refreshes of expired entries that began while they were in force got nothing about this role that they do not say.  Missing:
irregular documents, see `C71_refuted`, and calls during which, or before which, the policies in force were refreshed with others (C13). -/
theorem C71_exact_partial (cfg : SysCfg) (now : Int) (hnow : 0 ≤ now) (hpol : cfg.auth.disablePolicyd = false) (h : List SysAct) (s : Sys)
    (hr : sysRun cfg (sysInit cfg now) h = some s) (n : Nat)
    (m : Str → Option (List Assertion)) (hm : GetPolicyCacheReturns cfg (sysInit cfg now) h n false m) :
    ∃ s1 docs, sysRun cfg (sysInit cfg now) (h.take n) = some s1 ∧ InForce cfg (sysInit cfg now) (h.take n) s1 docs ∧
      ∀ k, RegularAt cfg.auth.U docs now s.auth.now s.auth.now k →
        RefreshedWith cfg (sysInit cfg now) (h.take n) s1 h s (fun d => SaysAlike docs now s.auth.now k d) →
        Lists cfg.auth.U (allAssertions docs) k (m k) := by
  obtain ⟨s1, hs1⟩ : ∃ s1, sysRun cfg (sysInit cfg now) (h.take n) = some s1 := by
    have := hr
    rw [← List.take_append_drop n h, sysRun_append] at this
    cases h1 : sysRun cfg (sysInit cfg now) (h.take n) with
    | none => rw [h1] at this; simp at this
    | some s1 => exact ⟨s1, rfl⟩
  obtain ⟨docs, hin, _⟩ := C68_in_force_any cfg now _ s1 hs1
  refine ⟨s1, docs, hs1, hin, fun k hreg hrw => RepKey.lists ?_⟩
  unfold GetPolicyCacheReturns PolicyCacheReturns at hm
  rw [hpol] at hm
  simp only [Bool.false_eq_true, if_false] at hm
  obtain ⟨p, hat, hk⟩ := hm
  rw [hs1] at hat
  simp only [Option.map_some, Option.some.injEq] at hat
  subst hat
  rcases hk k with ⟨h1, _⟩ | ⟨j, p2, hnj, hj, hat2, hmk⟩
  · simp at h1
  · obtain ⟨s2, hs2, rfl⟩ := Option.map_eq_some_iff.mp hat2
    have hs3 : sysRun cfg s2 (h.drop j) = some s := by
      have := hr
      rw [← List.take_append_drop j h, sysRun_append, hs2] at this; exact this
    have hle := sysRun_now hs3
    have hsplit : h.take j = h.take n ++ (h.take j).drop n := by
      conv => lhs; rw [← List.take_append_drop n (h.take j)]
      rw [List.take_take, Nat.min_eq_left hnj]
    have hrw2 : RefreshedWith cfg (sysInit cfg now) (h.take n) s1 (h.take j) s2 (fun d => SaysAlike docs now s.auth.now k d) :=
      RefreshedWith.earlier (h' := h.drop j) (by rw [List.take_append_drop]; exact hrw) hs2 hs3
    rw [hsplit] at hrw2 hs2
    obtain ⟨n1, hinv⟩ := roleInv_run (K := (· = k)) hnow hs1 hs2 hin (InForceSince.start _ _)
      (by rintro _ rfl; exact hreg.earlier hnow (Int.le_refl _) hle hle)
      (hrw2.imp fun d hd => by rintro _ rfl; exact hd.earlier hle (Int.le_refl _))
    obtain ⟨g, hg, hrep⟩ := hinv.obj
    rw [hmk, hg, Option.getD_some]
    exact hrep k rfl s2.pd.now (Int.le_refl _) (by rw [(sysRuns_run hs2).1.clock.2.1]; exact Int.le_refl _)

/-- **C71**: without the policy daemon the call shows nothing. -/
theorem C71_disabled (cfg : SysCfg) (s0 : Sys) (hpol : cfg.auth.disablePolicyd = true) (h : List SysAct) (n : Nat) (cancelled : Bool)
    (m : Str → Option (List Assertion)) (hm : GetPolicyCacheReturns cfg s0 h n cancelled m) (k : Str) : m k = none := by
  unfold GetPolicyCacheReturns at hm
  rw [hpol] at hm
  exact hm k

/-- **C71** is false for the code: the merge loses the deny (C10), and the call shows that the action is allowed and shows no deny, although the one
policy in force, received with valid signatures and unexpired, has one. -/
theorem C71_refuted : ¬ C71_statement := by
  intro hst
  obtain ⟨s, hs, hp⟩ := Ex.exists_of_map (o := sysRun Ex.ifCfg (sysInit Ex.ifCfg (Ex.auT 1500)) Ex.ifHist)
    (p := fun s => decide (s.auth.now = Ex.auT 1500) &&
      (match viewOf ((s.pd.objs[s.pd.live]?).getD Gache.empty) s.pd.now "dom:role.admin".toList with
       | some l => !l.isEmpty && l.all fun x => decide (x.effect = none)
       | none => false)) (by decide +kernel)
  simp only [Bool.and_eq_true, decide_eq_true_eq] at hp
  obtain ⟨hnow, hview⟩ := hp
  have hhook : ∀ x ∈ Ex.ifHist, (match x with | .pd (.hook _ _) => false | _ => true) = true := by decide +kernel
  obtain ⟨j, s1, docs, hj1, hj2, hr1, hin, hl⟩ := hst Ex.ifCfg (Ex.auT 1500) Ex.ifHist s Ex.ifHist.length
    (viewOf ((s.pd.objs[s.pd.live]?).getD Gache.empty) s.pd.now) (by decide) rfl (fun n f hm => absurd (hhook _ hm) (by simp)) hs (by
      unfold GetPolicyCacheReturns
      rw [if_neg (by decide)]
      exact ⟨s.pd, by simp [hs], fun k => .inr ⟨Ex.ifHist.length, s.pd, by simp, by simp, by simp [hs], rfl⟩⟩)
  have hje : j = Ex.ifHist.length := by omega
  subst hje
  simp only [List.take_length] at hr1 hin
  obtain rfl := Ex.ifParts_docs (h2 := []) (by simp) (by simp [Ex.ifHist, Ex.ifCall]) hr1 hin
  obtain ⟨l, hl1, x, hx, _, _, _, hd⟩ := (hl (by
    intro d hd
    simp only [List.mem_singleton, Option.some.injEq] at hd
    subst hd
    rw [hnow]
    decide) "dom:role.admin".toList).all Ex.ifDeny (by simp [allAssertions, Ex.ifDoc]) (by decide +kernel)
  rw [hl1] at hview
  simp only [Bool.and_eq_true, List.all_eq_true, decide_eq_true_eq] at hview
  have := hview.2 x hx
  rw [hd (by decide +kernel)] at this
  simp at this

/-- An execution to which `C71_exact_partial` and `C71_origin` apply: the policy has been loaded, it is regular for the role, and the call shows its one
assertion. -/
example : ∃ s m l, sysRun (Ex.syCfg ["dom".toList]) (sysInit (Ex.syCfg ["dom".toList]) (Ex.auT 1500)) (Ex.syKeys ++ Ex.syLoad "dom".toList) = some s ∧
    GetPolicyCacheReturns (Ex.syCfg ["dom".toList]) (sysInit (Ex.syCfg ["dom".toList]) (Ex.auT 1500)) (Ex.syKeys ++ Ex.syLoad "dom".toList)
      (Ex.syKeys ++ Ex.syLoad "dom".toList).length false m ∧
    m "dom:role.admin".toList = some l ∧ l.length = 1 ∧ s.pd.liveDocs = [some Ex.frDoc] ∧
    RegularAt asciiCase s.pd.liveDocs (Ex.auT 1500) s.auth.now s.auth.now "dom:role.admin".toList := by
  obtain ⟨s, hs, hp⟩ := Ex.exists_of_map
    (o := sysRun (Ex.syCfg ["dom".toList]) (sysInit (Ex.syCfg ["dom".toList]) (Ex.auT 1500)) (Ex.syKeys ++ Ex.syLoad "dom".toList))
    (p := fun s => decide (s.pd.liveDocs = [some Ex.frDoc]) && decide (s.auth.now = Ex.auT 1500) &&
      decide ((viewOf ((s.pd.objs[s.pd.live]?).getD Gache.empty) s.pd.now "dom:role.admin".toList).map (·.length) = some 1))
    (by decide +kernel)
  simp only [Bool.and_eq_true, decide_eq_true_eq] at hp
  obtain ⟨⟨hdocs, hnow⟩, hview⟩ := hp
  obtain ⟨l, hl, hlen⟩ := Option.map_eq_some_iff.mp hview
  refine ⟨s, viewOf ((s.pd.objs[s.pd.live]?).getD Gache.empty) s.pd.now, l, hs, ?_, hl, hlen, hdocs, ?_⟩
  · unfold GetPolicyCacheReturns
    rw [if_neg (by decide)]
    exact ⟨s.pd, by simp only [List.take_length, hs]; rfl, fun k => .inr ⟨_, s.pd, Nat.le_refl _, Nat.le_refl _, by simp only [List.take_length, hs]; rfl, rfl⟩⟩
  · rw [hdocs, hnow]
    refine .inr ⟨0, Ex.frDoc, ⟨rfl, ?_, .inr (by decide)⟩, ?_⟩
    · intro j d hj hd
      match j with
      | 0 => exact absurd rfl hj
      | n + 1 => simp at hd
    · intro a ha hr
      simp [Ex.frDoc] at ha
      subst ha
      refine ⟨fun b hb _ => by simp [Ex.frDoc] at hb; subst hb; exact ⟨rfl, rfl, rfl⟩, fun hd => absurd hd (by decide)⟩

end Athenz
