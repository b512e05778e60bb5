import Verif.Proofs.Options

/-! # C57: options and New -/

namespace Athenz
open Spec

theorem athenzURL_ok_iff (url : Str) : (∃ u, athenzURL url = .ok u) ↔ ∃ u, Trimmed url u ∧ ¬ Scheme u :=
  ⟨fun ⟨u, h⟩ => ⟨u, (C50_stored url u).mp h⟩, fun ⟨u, h⟩ => ⟨u, (C50_stored url u).mpr h⟩⟩

/-- The default URL is acceptable. -/
theorem default_url_ok : athenzURL "athenz.io/zts/v1".toList = .ok "athenz.io/zts/v1".toList := by decide +kernel

theorem settings_ok_iff (opts : List Opt) : (∃ a, settings opts = .ok a) ↔ URLsOk opts := by
  unfold settings
  rw [applyAll_ok (fun o => ∀ url, o = .athenzURL url → ∃ u, athenzURL url = .ok u) Opt.apply_ok]
  unfold URLsOk
  simp only [List.mem_append]
  constructor
  · intro h url hm
    exact (athenzURL_ok_iff url).mp (h _ (.inr hm) url rfl)
  · rintro h o (hm | hm) url rfl
    · simp only [defaultOpts, List.mem_cons, Opt.athenzURL.injEq, reduceCtorEq, List.not_mem_nil, or_false] at hm
      exact ⟨_, hm ▸ default_url_ok⟩
    · exact (athenzURL_ok_iff url).mpr (h url hm)

/-- A setting other than the URL. -/
local macro "opt_field" : tactic => `(tactic| (
  intro o s s' hne h; cases o
  case athenzURL url => exact absurd rfl (hne url)
  case httpClient c => cases c <;> (cases h; rfl)
  all_goals (cases h; rfl)))

/-- **C57**.  The options are accepted exactly if every Athenz URL is acceptable; then every setting has the value of the last option about it,
or its default. -/
theorem C57_settings (opts : List Opt) (a : Settings) : settings opts = .ok a ↔ URLsOk opts ∧ a = settingsOf opts := by
  have fields : ∀ a, settings opts = .ok a → a = settingsOf opts := by
    intro a h
    have key : ∀ {α : Type} (g : Settings → α) (v : Opt → Option α), (∀ o s s', Opt.apply o s = .ok s' → g s' = (v o).getD (g s)) →
        g a = lastSet v opts (lastSet v defaultOpts (g zeroSettings)) := by
      intro α g v hv
      rw [← lastSet_append]
      exact applyAll_last g v hv _ _ _ h
    have step : ∀ {o : Opt} {s s' : Settings}, Opt.apply o s = .ok s' →
        (∃ url, o = .athenzURL url ∧ s' = { s with athenzURL := trimHTTPScheme url }) ∨ (∀ url, o ≠ .athenzURL url) := by
      intro o s s' h
      cases o
      case athenzURL url =>
        simp only [Opt.apply] at h
        split at h
        · rename_i u hu
          rw [athenzURL_ok url u hu] at h
          cases h
          exact .inl ⟨url, rfl, rfl⟩
        · cases h
        · cases h
      all_goals (right; intro url hh; cases hh)
    have other : ∀ {α : Type} (g : Settings → α) (v : Opt → Option α), (∀ url, v (.athenzURL url) = none) →
        (∀ (s : Settings) u, g { s with athenzURL := u } = g s) →
        (∀ o s s', (∀ url, o ≠ .athenzURL url) → Opt.apply o s = .ok s' → g s' = (v o).getD (g s)) →
        g a = lastSet v opts (lastSet v defaultOpts (g zeroSettings)) := by
      intro α g v h1 h2 h3
      refine key g v ?_
      intro o s s' h
      rcases step h with ⟨url, rfl, rfl⟩ | hne
      · rw [h1, h2]; rfl
      · exact h3 o s s' hne h
    have e0 := key (·.athenzURL) (fun o => (urlOf o).map trimHTTPScheme) (by
      intro o s s' h
      rcases step h with ⟨url, rfl, rfl⟩ | hne
      · rfl
      · cases o
        case athenzURL url => exact absurd rfl (hne url)
        case httpClient c => cases c <;> (cases h; rfl)
        all_goals (cases h; rfl))
    have hd : lastSet (fun o => (urlOf o).map trimHTTPScheme) defaultOpts zeroSettings.athenzURL = trimHTTPScheme "athenz.io/zts/v1".toList := rfl
    rw [hd, lastSet_map] at e0
    have e1 := other (·.client) (fun o => (clientOf o).map some) (fun _ => rfl) (fun _ _ => rfl) (by opt_field)
    have hd1 : lastSet (fun o => (clientOf o).map some) defaultOpts zeroSettings.client = some HClient.timeout30 := rfl
    rw [hd1, lastSet_map] at e1
    have e2 := other (·.cacheExp) cacheExpOf (fun _ => rfl) (fun _ _ => rfl) (by opt_field)
    have e3 := other (·.roleCertURIPrefix) rolePrefixOf (fun _ => rfl) (fun _ _ => rfl) (by opt_field)
    have e4 := other (·.disablePubkeyd) pubkeydOf (fun _ => rfl) (fun _ _ => rfl) (by opt_field)
    have e5 := other (·.pubkeyRefreshPeriod) pubkeyRefreshOf (fun _ => rfl) (fun _ _ => rfl) (by opt_field)
    have e6 := other (·.pubkeyRetryDelay) pubkeyRetryOf (fun _ => rfl) (fun _ _ => rfl) (by opt_field)
    have e7 := other (·.pubkeySysAuthDomain) sysAuthOf (fun _ => rfl) (fun _ _ => rfl) (by opt_field)
    have e8 := other (·.pubkeyETagExpiry) eTagExpiryOf (fun _ => rfl) (fun _ _ => rfl) (by opt_field)
    have e9 := other (·.pubkeyETagPurgePeriod) eTagPurgeOf (fun _ => rfl) (fun _ _ => rfl) (by opt_field)
    have e10 := other (·.disablePolicyd) policydOf (fun _ => rfl) (fun _ _ => rfl) (by opt_field)
    have e11 := other (·.athenzDomains) domainsOf (fun _ => rfl) (fun _ _ => rfl) (by opt_field)
    have e12 := other (·.policyExpiryMargin) policyMarginOf (fun _ => rfl) (fun _ _ => rfl) (by opt_field)
    have e13 := other (·.policyRefreshPeriod) policyRefreshOf (fun _ => rfl) (fun _ _ => rfl) (by opt_field)
    have e14 := other (·.policyPurgePeriod) policyPurgeOf (fun _ => rfl) (fun _ _ => rfl) (by opt_field)
    have e15 := other (·.policyRetryDelay) policyRetryOf (fun _ => rfl) (fun _ _ => rfl) (by opt_field)
    have e16 := other (·.policyRetryAttempts) policyAttemptsOf (fun _ => rfl) (fun _ _ => rfl) (by opt_field)
    have e17 := other (·.disableJwkd) jwkdOf (fun _ => rfl) (fun _ _ => rfl) (by opt_field)
    have e18 := other (·.jwkRefreshPeriod) jwkRefreshOf (fun _ => rfl) (fun _ _ => rfl) (by opt_field)
    have e19 := other (·.jwkRetryDelay) jwkRetryOf (fun _ => rfl) (fun _ _ => rfl) (by opt_field)
    have e20 := other (·.jwkURLs) jwkURLsOf (fun _ => rfl) (fun _ _ => rfl) (by opt_field)
    have e21 := other (·.accessTokenParam) accessTokenOf (fun _ => rfl) (fun _ _ => rfl) (by opt_field)
    have e22 := other (·.enableRoleToken) roleTokenOf (fun _ => rfl) (fun _ _ => rfl) (by opt_field)
    have e23 := other (·.roleAuthHeader) roleHeaderOf (fun _ => rfl) (fun _ _ => rfl) (by opt_field)
    have e24 := other (·.enableRoleCert) roleCertOf (fun _ => rfl) (fun _ _ => rfl) (by opt_field)
    have e25 := other (·.translator) translatorOf (fun _ => rfl) (fun _ _ => rfl) (by opt_field)
    have e26 := other (·.resourcePrefix) resourcePrefixOf (fun _ => rfl) (fun _ _ => rfl) (by opt_field)
    cases a
    simp only at e0 e1 e2 e3 e4 e5 e6 e7 e8 e9 e10 e11 e12 e13 e14 e15 e16 e17 e18 e19 e20 e21 e22 e23 e24 e25 e26
    subst e0 e1 e2 e3 e4 e5 e6 e7 e8 e9 e10 e11 e12 e13 e14 e15 e16 e17 e18 e19 e20 e21 e22 e23 e24 e25 e26
    rfl
  constructor
  · intro h
    exact ⟨(settings_ok_iff opts).mp ⟨a, h⟩, fields a h⟩
  · rintro ⟨h1, h2⟩
    obtain ⟨a', h3⟩ := (settings_ok_iff opts).mpr h1
    rw [h2, ← fields a' h3]
    exact h3

/-- **C57**.  If the options are not accepted, the error is the one for an unsupported scheme. -/
theorem C57_refused (opts : List Opt) : settings opts = .err .unsupportedScheme ↔ ¬ URLsOk opts := by
  rw [← settings_ok_iff]
  constructor
  · rintro h ⟨a, h'⟩; rw [h] at h'; cases h'
  · intro h
    cases hs : settings opts with
    | ok a => exact absurd ⟨a, hs⟩ h
    | err e => rw [applyAll_err Opt.apply_err _ _ _ hs]
    | panic => exact absurd hs (applyAll_no_panic Opt.apply_no_panic _ _)

/-- **C57**.  Only the order of options about the same setting matters: two lists that agree in this for every setting mean the same. -/
theorem C57_order (opts opts' : List Opt)
    (h : ∀ k, opts.filter (fun o => decide (about o = k)) = opts'.filter (fun o => decide (about o = k))) : settings opts = settings opts' := by
  have hl : ∀ {α : Type} (f : Opt → Option α) (k : Setting) (d : α), (∀ o, (f o).isSome → decide (about o = k) = true) →
      lastSet f opts d = lastSet f opts' d := by
    intro α f k d hf
    rw [← lastSet_filter f _ hf opts, ← lastSet_filter f _ hf opts', h k]
  have hu : URLsOk opts ↔ URLsOk opts' := by
    unfold URLsOk
    have hm : ∀ url, Opt.athenzURL url ∈ opts ↔ Opt.athenzURL url ∈ opts' := by
      intro url
      have := h .athenzURL
      constructor
      · intro hm
        have : Opt.athenzURL url ∈ opts.filter (fun o => decide (about o = .athenzURL)) := List.mem_filter.mpr ⟨hm, rfl⟩
        rw [h] at this
        exact (List.mem_filter.mp this).1
      · intro hm
        have : Opt.athenzURL url ∈ opts'.filter (fun o => decide (about o = .athenzURL)) := List.mem_filter.mpr ⟨hm, rfl⟩
        rw [← h] at this
        exact (List.mem_filter.mp this).1
    simp only [hm]
  have hs : settingsOf opts = settingsOf opts' := by
    unfold settingsOf
    rw [hl urlOf .athenzURL, hl clientOf .client, hl cacheExpOf .cacheExp, hl rolePrefixOf .roleCertURIPrefix, hl pubkeydOf .pubkeyd,
      hl pubkeyRefreshOf .pubkeyRefreshPeriod, hl pubkeyRetryOf .pubkeyRetryDelay, hl sysAuthOf .pubkeySysAuthDomain,
      hl eTagExpiryOf .pubkeyETagExpiry, hl eTagPurgeOf .pubkeyETagPurgePeriod, hl policydOf .policyd, hl domainsOf .athenzDomains,
      hl policyMarginOf .policyExpiryMargin, hl policyRefreshOf .policyRefreshPeriod, hl policyPurgeOf .policyPurgePeriod,
      hl policyRetryOf .policyRetryDelay, hl policyAttemptsOf .policyRetryAttempts, hl jwkdOf .jwkd, hl jwkRefreshOf .jwkRefreshPeriod,
      hl jwkRetryOf .jwkRetryDelay, hl jwkURLsOf .jwkURLs, hl accessTokenOf .accessToken, hl roleTokenOf .roleToken,
      hl roleHeaderOf .roleAuthHeader, hl roleCertOf .roleCert, hl translatorOf .translator, hl resourcePrefixOf .resourcePrefix]
    all_goals (intro o; cases o <;> first | (intro _; rfl) | (intro h; cases h))
  by_cases hok : URLsOk opts
  · rw [(C57_settings opts _).mpr ⟨hok, rfl⟩, (C57_settings opts' _).mpr ⟨hu.mp hok, rfl⟩, hs]
  · rw [(C57_refused opts).mpr hok, (C57_refused opts').mpr (fun h => hok (hu.mpr h))]

/-- Two options about different settings can change places. -/
theorem C57_swap (l r : List Opt) (o o' : Opt) (h : about o ≠ about o') : settings (l ++ o :: o' :: r) = settings (l ++ o' :: o :: r) := by
  apply C57_order
  intro k
  simp only [List.filter_append, List.filter_cons]
  congr 1
  by_cases h1 : about o = k
  · have h2 : about o' ≠ k := fun h2 => h (h1.trans h2.symm)
    simp [h1, h2]
  · simp [h1]

/-! ## New -/

theorem applyAll_cons {O S : Type} (f : O → S → Res S) (o : O) (os : List O) (s s' : S) :
    applyAll f (o :: os) s = .ok s' ↔ ∃ s1, f o s = .ok s1 ∧ applyAll f os s1 = .ok s' := by
  simp only [applyAll]
  split
  · rename_i s1 h; rw [h]; simp
  · rename_i e h; rw [h]; simp
  · rename_i h; rw [h]; simp

theorem applyAll_nil {O S : Type} (f : O → S → Res S) (s s' : S) : applyAll f [] s = .ok s' ↔ s' = s := by
  simp only [applyAll, Res.ok.injEq]
  exact eq_comm

theorem durOf_whole (F : NewFns) (ds u : Str) (n unit : Nat) (d : Int) (hne : ds ≠ []) (hd : parseDigits 0 ds = some n)
    (hu : durUnit u = some unit) (hb : n * unit < 2 ^ 63) : DurOk F (ds ++ u) ∧ durOf F (ds ++ u) d = ((n * unit : Nat) : Int) := by
  have h := parseDuration_whole F.frac hne hd hu hb
  refine ⟨.inr ⟨_, h⟩, ?_⟩
  unfold durOf
  rw [if_neg (by simp [hne]), h]
  rfl

theorem bindDur {S : Type} (F : NewFns) (t : Str) (old : Int) (w : String) (k : Int → S) (s' : S) :
    ((setDur F t old w).bind fun d => .ok (k d)) = .ok s' ↔ DurOk F t ∧ s' = k (durOf F t old) := by
  cases h : setDur F t old w with
  | ok d =>
    obtain ⟨h1, h2⟩ := (setDur_ok F t old d w).mp h
    simp only [Res.bind, Res.ok.injEq, h1, true_and, h2]
    exact eq_comm
  | err e =>
    simp only [Res.bind, reduceCtorEq, false_iff, not_and]
    intro h1
    have := (setDur_ok F t old _ w).mpr ⟨h1, rfl⟩
    rw [h] at this; cases this
  | panic => exact absurd h (setDur_no_panic F t old w)

theorem pkNew_defaults (F : NewFns) (opts : List PkOpt) : pkNew F opts =
    applyAll (PkOpt.apply F) opts ⟨[], "sys.auth".toList, 24 * hour, minute, some .zero, 7 * 24 * hour, 84 * hour⟩ := by
  have h1 : parseDuration F.frac "24h".toList = some (24 * hour) := parseDuration_whole F.frac (ds := "24".toList) (u := "h".toList) (n := 24) (unit := 3600000000000) (by decide) (by decide) (by decide) (by decide)
  have h2 : parseDuration F.frac "168h".toList = some (7 * 24 * hour) := parseDuration_whole F.frac (ds := "168".toList) (u := "h".toList) (n := 168) (unit := 3600000000000) (by decide) (by decide) (by decide) (by decide)
  have h3 : parseDuration F.frac "84h".toList = some (84 * hour) := parseDuration_whole F.frac (ds := "84".toList) (u := "h".toList) (n := 84) (unit := 3600000000000) (by decide) (by decide) (by decide) (by decide)
  have h4 : parseDuration F.frac "1m".toList = some minute := parseDuration_whole F.frac (ds := "1".toList) (u := "m".toList) (n := 1) (unit := 60000000000) (by decide) (by decide) (by decide) (by decide)
  have n1 : "24h".toList ≠ [] := by decide
  have n2 : "168h".toList ≠ [] := by decide
  have n3 : "84h".toList ≠ [] := by decide
  have n4 : "1m".toList ≠ [] := by decide
  have n5 : "sys.auth".toList ≠ [] := by decide
  unfold pkNew pkDefaults
  simp only [List.cons_append, List.nil_append, applyAll, PkOpt.apply, setDur, Res.bind, if_neg n1, if_neg n2, if_neg n3, if_neg n4, if_neg n5, h1, h2, h3, h4]

theorem pkOpts_ok (F : NewFns) (a : Settings) (hu : athenzURL a.athenzURL = .ok a.athenzURL) (z p : PkSettings) :
    applyAll (PkOpt.apply F) a.pkOpts z = .ok p ↔
    (DurOk F a.pubkeyRefreshPeriod ∧ DurOk F a.pubkeyRetryDelay ∧ DurOk F a.pubkeyETagExpiry ∧ DurOk F a.pubkeyETagPurgePeriod) ∧
    p = ⟨a.athenzURL, if a.pubkeySysAuthDomain = [] then z.sysAuthDomain else a.pubkeySysAuthDomain, durOf F a.pubkeyRefreshPeriod z.refreshPeriod,
      durOf F a.pubkeyRetryDelay z.retryDelay, a.client, durOf F a.pubkeyETagExpiry z.eTagExpiry,
      durOf F a.pubkeyETagPurgePeriod z.eTagPurgePeriod⟩ := by
  unfold Settings.pkOpts
  have hs : ∀ (q s' : PkSettings) d, PkOpt.apply F (.sysAuthDomain d) q = .ok s' ↔ s' = { q with sysAuthDomain := if d = [] then q.sysAuthDomain else d } := by
    intro q s' d
    simp only [PkOpt.apply]
    split <;> simp only [Res.ok.injEq] <;> exact eq_comm
  have he : ∀ (q s' : PkSettings) (c : Option HClient), PkOpt.apply F (.httpClient c) q = .ok s' ↔ s' = { q with client := c } := by
    intro q s' c
    simp only [PkOpt.apply, Res.ok.injEq]
    exact eq_comm
  have ha : ∀ (q s' : PkSettings), PkOpt.apply F (.athenzURL a.athenzURL) q = .ok s' ↔ s' = { q with athenzURL := a.athenzURL } := by
    intro q s'
    simp only [PkOpt.apply, hu, Res.bind, Res.ok.injEq]
    exact eq_comm
  have h1 : ∀ (q s' : PkSettings) t, PkOpt.apply F (.refreshPeriod t) q = .ok s' ↔ DurOk F t ∧ s' = { q with refreshPeriod := durOf F t q.refreshPeriod } :=
    fun q s' t => by rw [PkOpt.apply]; exact bindDur F t _ _ _ s'
  have h2 : ∀ (q s' : PkSettings) t, PkOpt.apply F (.retryDelay t) q = .ok s' ↔ DurOk F t ∧ s' = { q with retryDelay := durOf F t q.retryDelay } :=
    fun q s' t => by rw [PkOpt.apply]; exact bindDur F t _ _ _ s'
  have h3 : ∀ (q s' : PkSettings) t, PkOpt.apply F (.eTagExpiry t) q = .ok s' ↔ DurOk F t ∧ s' = { q with eTagExpiry := durOf F t q.eTagExpiry } :=
    fun q s' t => by rw [PkOpt.apply]; exact bindDur F t _ _ _ s'
  have h4 : ∀ (q s' : PkSettings) t, PkOpt.apply F (.eTagPurgePeriod t) q = .ok s' ↔ DurOk F t ∧ s' = { q with eTagPurgePeriod := durOf F t q.eTagPurgePeriod } :=
    fun q s' t => by rw [PkOpt.apply]; exact bindDur F t _ _ _ s'
  simp only [applyAll_cons, ha, hs, he, h1, h2, h3, h4, and_assoc, exists_and_left, exists_eq_left, applyAll_nil]
  constructor
  · rintro ⟨j1, j2, j3, j4, rfl⟩
    exact ⟨j3, j4, j1, j2, rfl⟩
  · rintro ⟨j1, j2, j3, j4, rfl⟩
    exact ⟨j3, j4, j1, j2, rfl⟩

theorem pdNew_defaults (F : NewFns) (opts : List PdOpt) : pdNew F opts =
    applyAll (PdOpt.apply F) opts ⟨[], [], 3 * hour, 30 * minute, hour, minute, 2, some .goDefault, false⟩ := by
  have h0 : parseDuration F.frac "3h".toList = some (3 * hour) :=
    parseDuration_whole F.frac (ds := "3".toList) (u := "h".toList) (n := 3) (unit := 3600000000000) (by decide) (by decide) (by decide) (by decide)
  have n0 : "3h".toList ≠ [] := by decide
  have h1 : parseDuration F.frac "30m".toList = some (30 * minute) :=
    parseDuration_whole F.frac (ds := "30".toList) (u := "m".toList) (n := 30) (unit := 60000000000) (by decide) (by decide) (by decide) (by decide)
  have n1 : "30m".toList ≠ [] := by decide
  have h2 : parseDuration F.frac "1h".toList = some (hour) :=
    parseDuration_whole F.frac (ds := "1".toList) (u := "h".toList) (n := 1) (unit := 3600000000000) (by decide) (by decide) (by decide) (by decide)
  have n2 : "1h".toList ≠ [] := by decide
  have h3 : parseDuration F.frac "1m".toList = some (minute) :=
    parseDuration_whole F.frac (ds := "1".toList) (u := "m".toList) (n := 1) (unit := 60000000000) (by decide) (by decide) (by decide) (by decide)
  have n3 : "1m".toList ≠ [] := by decide
  unfold pdNew pdDefaults
  simp only [List.cons_append, List.nil_append, applyAll, PdOpt.apply, setDur, Res.bind, if_neg n0, if_neg n1, if_neg n2, if_neg n3, h0, h1, h2, h3]
  rfl

theorem pdOpts_ok (F : NewFns) (a : Settings) (hu : athenzURL a.athenzURL = .ok a.athenzURL) (c : HClient) (hc : a.client = some c) (k : Bool)
    (z p : PdSettings) : applyAll (PdOpt.apply F) (a.pdOpts k) z = .ok p ↔
    (DurOk F a.policyExpiryMargin ∧ DurOk F a.policyRefreshPeriod ∧ DurOk F a.policyPurgePeriod ∧ DurOk F a.policyRetryDelay) ∧
    p = ⟨a.athenzURL, a.athenzDomains.getD z.athenzDomains, durOf F a.policyExpiryMargin z.expiryMargin,
      durOf F a.policyRefreshPeriod z.refreshPeriod, durOf F a.policyPurgePeriod z.purgePeriod, durOf F a.policyRetryDelay z.retryDelay,
      if a.policyRetryAttempts = 0 then z.retryAttempts else a.policyRetryAttempts, a.client, k || z.pkp⟩ := by
  unfold Settings.pdOpts
  have ha : ∀ (q s' : PdSettings), PdOpt.apply F (.athenzURL a.athenzURL) q = .ok s' ↔ s' = { q with athenzURL := a.athenzURL } := by
    intro q s'
    simp only [PdOpt.apply, hu, Res.bind, Res.ok.injEq]
    exact eq_comm
  have hp : ∀ (q s' : PdSettings) (b : Bool), PdOpt.apply F (.pubKeyProvider b) q = .ok s' ↔ s' = { q with pkp := b || q.pkp } := by
    intro q s' b
    cases b <;> simp only [PdOpt.apply, if_true, Bool.false_eq_true, if_false, Res.ok.injEq, Bool.true_or, Bool.false_or] <;> exact eq_comm
  have hd : ∀ (q s' : PdSettings) (ds : Option (List Str)), PdOpt.apply F (.athenzDomains ds) q = .ok s' ↔
      s' = { q with athenzDomains := ds.getD q.athenzDomains } := by
    intro q s' ds
    cases ds <;> simp only [PdOpt.apply, Res.ok.injEq, Option.getD_none, Option.getD_some] <;> exact eq_comm
  have hr : ∀ (q s' : PdSettings) (n : Int), PdOpt.apply F (.retryAttempts n) q = .ok s' ↔
      s' = { q with retryAttempts := if n = 0 then q.retryAttempts else n } := by
    intro q s' n
    simp only [PdOpt.apply]
    split <;> simp only [Res.ok.injEq] <;> exact eq_comm
  have he : ∀ (q s' : PdSettings), PdOpt.apply F (.httpClient a.client) q = .ok s' ↔ s' = { q with client := a.client } := by
    intro q s'
    simp only [hc, PdOpt.apply, Res.ok.injEq]
    exact eq_comm
  have d0 : ∀ (q s' : PdSettings) t, PdOpt.apply F (.expiryMargin t) q = .ok s' ↔ DurOk F t ∧ s' = { q with expiryMargin := durOf F t q.expiryMargin } :=
    fun q s' t => by rw [PdOpt.apply]; exact bindDur F t _ _ _ s'
  have d1 : ∀ (q s' : PdSettings) t, PdOpt.apply F (.refreshPeriod t) q = .ok s' ↔ DurOk F t ∧ s' = { q with refreshPeriod := durOf F t q.refreshPeriod } :=
    fun q s' t => by rw [PdOpt.apply]; exact bindDur F t _ _ _ s'
  have d2 : ∀ (q s' : PdSettings) t, PdOpt.apply F (.purgePeriod t) q = .ok s' ↔ DurOk F t ∧ s' = { q with purgePeriod := durOf F t q.purgePeriod } :=
    fun q s' t => by rw [PdOpt.apply]; exact bindDur F t _ _ _ s'
  have d3 : ∀ (q s' : PdSettings) t, PdOpt.apply F (.retryDelay t) q = .ok s' ↔ DurOk F t ∧ s' = { q with retryDelay := durOf F t q.retryDelay } :=
    fun q s' t => by rw [PdOpt.apply]; exact bindDur F t _ _ _ s'
  simp only [applyAll_cons, ha, hp, hd, hr, he, d0, d1, d2, d3, and_assoc, exists_and_left, exists_eq_left, applyAll_nil]

theorem jwNew_defaults (F : NewFns) (opts : List JwOpt) : jwNew F opts =
    applyAll (JwOpt.apply F) opts ⟨[], [], 24 * hour, minute, some .goDefault⟩ := by
  have h0 : parseDuration F.frac "24h".toList = some (24 * hour) :=
    parseDuration_whole F.frac (ds := "24".toList) (u := "h".toList) (n := 24) (unit := 3600000000000) (by decide) (by decide) (by decide) (by decide)
  have n0 : "24h".toList ≠ [] := by decide
  have h1 : parseDuration F.frac "1m".toList = some (minute) :=
    parseDuration_whole F.frac (ds := "1".toList) (u := "m".toList) (n := 1) (unit := 60000000000) (by decide) (by decide) (by decide) (by decide)
  have n1 : "1m".toList ≠ [] := by decide
  unfold jwNew jwDefaults
  simp only [List.cons_append, List.nil_append, applyAll, JwOpt.apply, setDur, Res.bind, if_neg n0, if_neg n1, h0, h1]

theorem jwOpts_ok (F : NewFns) (a : Settings) (hu : athenzURL a.athenzURL = .ok a.athenzURL) (z p : JwSettings) :
    applyAll (JwOpt.apply F) a.jwOpts z = .ok p ↔
    (a.athenzURL ≠ [] ∧ DurOk F a.jwkRefreshPeriod ∧ DurOk F a.jwkRetryDelay ∧ ∀ u ∈ a.jwkURLs, KeyURL F u) ∧
    p = ⟨"https://".toList ++ a.athenzURL ++ "/oauth2/keys?rfc=true".toList, a.jwkURLs, durOf F a.jwkRefreshPeriod z.refreshPeriod,
      durOf F a.jwkRetryDelay z.retryDelay, a.client⟩ := by
  unfold Settings.jwOpts
  have hj := athenzJwksURL_of a.athenzURL hu
  generalize "https://".toList ++ a.athenzURL ++ "/oauth2/keys?rfc=true".toList = w at hj ⊢
  have ha : ∀ (q s' : JwSettings), JwOpt.apply F (.athenzJwksURL a.athenzURL) q = .ok s' ↔ a.athenzURL ≠ [] ∧ s' = { q with athenzJwksURL := w } := by
    intro q s'
    simp only [JwOpt.apply, hj]
    by_cases h : a.athenzURL = []
    · simp [h, Res.bind]
    · simp only [h, if_false, Res.bind, Res.ok.injEq, ne_eq, not_false_eq_true, true_and]
      exact eq_comm
  have hus : ∀ (q s' : JwSettings) (us : List Str), JwOpt.apply F (.urls us) q = .ok s' ↔ (∀ u ∈ us, KeyURL F u) ∧ s' = { q with urls := us } := by
    intro q s' us
    simp only [JwOpt.apply, ← checkURLs_ok]
    cases h : checkURLs F us with
    | ok u => simp only [Res.bind, Res.ok.injEq, true_and]; exact eq_comm
    | err e => simp [Res.bind]
    | panic => exact absurd h (checkURLs_no_panic F us)
  have he : ∀ (q s' : JwSettings) (c : Option HClient), JwOpt.apply F (.httpClient c) q = .ok s' ↔ s' = { q with client := c } := by
    intro q s' c
    simp only [JwOpt.apply, Res.ok.injEq]
    exact eq_comm
  have d0 : ∀ (q s' : JwSettings) t, JwOpt.apply F (.refreshPeriod t) q = .ok s' ↔ DurOk F t ∧ s' = { q with refreshPeriod := durOf F t q.refreshPeriod } :=
    fun q s' t => by rw [JwOpt.apply]; exact bindDur F t _ _ _ s'
  have d1 : ∀ (q s' : JwSettings) t, JwOpt.apply F (.retryDelay t) q = .ok s' ↔ DurOk F t ∧ s' = { q with retryDelay := durOf F t q.retryDelay } :=
    fun q s' t => by rw [JwOpt.apply]; exact bindDur F t _ _ _ s'
  simp only [applyAll_cons, ha, hus, he, d0, d1, and_assoc, exists_and_left, exists_eq_left, applyAll_nil]

theorem atOpts_ok (F : NewFns) (a : Settings) (k : Bool) (p : AtSettings) : atNew F (a.atOpts k) = .ok p ↔
    (DurOk F a.accessTokenParam.certBackdateDur ∧ DurOk F a.accessTokenParam.certOffsetDur) ∧
    p = ⟨k, a.accessTokenParam.verifyCertThumbprint, a.accessTokenParam.verifyClientID, a.accessTokenParam.authorizedClientIDs,
      secondsOf F a.accessTokenParam.certBackdateDur, secondsOf F a.accessTokenParam.certOffsetDur⟩ := by
  unfold Settings.atOpts atNew
  have h1 : ∀ (q s' : AtSettings) (b : Bool), AtOpt.apply F (.jwkProvider b) q = .ok s' ↔ s' = { q with jwkp := b } := by
    intro q s' b; simp only [AtOpt.apply, Res.ok.injEq]; exact eq_comm
  have h2 : ∀ (q s' : AtSettings) (b : Bool), AtOpt.apply F (.mtlsBound b) q = .ok s' ↔ s' = { q with mtlsBound := b } := by
    intro q s' b; simp only [AtOpt.apply, Res.ok.injEq]; exact eq_comm
  have h3 : ∀ (q s' : AtSettings) (b : Bool), AtOpt.apply F (.verifyClientID b) q = .ok s' ↔ s' = { q with verifyClientID := b } := by
    intro q s' b; simp only [AtOpt.apply, Res.ok.injEq]; exact eq_comm
  have h4 : ∀ (q s' : AtSettings) (m : Str → List Str), AtOpt.apply F (.authorized m) q = .ok s' ↔ s' = { q with authorized := m } := by
    intro q s' b; simp only [AtOpt.apply, Res.ok.injEq]; exact eq_comm
  have h5 : ∀ (q s' : AtSettings) (t : Str), q.goBack = 0 → (AtOpt.apply F (.goBack t) q = .ok s' ↔ DurOk F t ∧ s' = { q with goBack := secondsOf F t }) := by
    intro q s' t hz
    simp only [AtOpt.apply, DurOk, secondsOf]
    by_cases h : t = []
    · simp only [h, if_true, Res.ok.injEq, true_or, true_and, ← hz]; exact eq_comm
    · simp only [h, if_false, false_or]
      cases parseDuration F.frac t with
      | none => simp
      | some d => simp only [Res.ok.injEq, Option.some.injEq, exists_eq', true_and]; exact eq_comm
  have h6 : ∀ (q s' : AtSettings) (t : Str), q.offset = 0 → (AtOpt.apply F (.offset t) q = .ok s' ↔ DurOk F t ∧ s' = { q with offset := secondsOf F t }) := by
    intro q s' t hz
    simp only [AtOpt.apply, DurOk, secondsOf]
    by_cases h : t = []
    · simp only [h, if_true, Res.ok.injEq, true_or, true_and, ← hz]; exact eq_comm
    · simp only [h, if_false, false_or]
      cases parseDuration F.frac t with
      | none => simp
      | some d => simp only [Res.ok.injEq, Option.some.injEq, exists_eq', true_and]; exact eq_comm
  simp only [applyAll_cons, h1, h2, h3, h4, h5, h6, and_assoc, exists_and_left, exists_eq_left, applyAll_nil]

theorem when_ok {α : Type} (b : Bool) (r : Res α) (o : Option α) (P : Prop) (a : α) (h : ∀ x, r = .ok x ↔ P ∧ x = a) :
    Res.when b r = .ok o ↔ (b = true → P) ∧ o = if b then some a else none := by
  unfold Res.when
  cases b with
  | false => simp only [Bool.false_eq_true, if_false, Res.ok.injEq, false_implies, true_and]; exact eq_comm
  | true =>
    simp only [if_true, true_implies]
    cases hr : r with
    | ok x =>
      obtain ⟨h1, h2⟩ := (h x).mp hr
      simp only [Res.ok.injEq, h1, true_and, h2]
      exact eq_comm
    | err e =>
      have : ¬ P := by intro hP; have := (h a).mpr ⟨hP, rfl⟩; rw [hr] at this; cases this
      simp [this]
    | panic =>
      have : ¬ P := by intro hP; have := (h a).mpr ⟨hP, rfl⟩; rw [hr] at this; cases this
      simp [this]

theorem Res.bind_eq_ok {α β : Type} (x : Res α) (f : α → Res β) (b : β) : (x >>= f) = .ok b ↔ ∃ a, x = .ok a ∧ f a = .ok b := by
  show Res.bind x f = _ ↔ _
  cases x <;> simp [Res.bind]

theorem bind_known {α β : Type} (x : Res α) (f : α → Res β) (P : Prop) (v : α) (h : ∀ o, x = .ok o ↔ P ∧ o = v) {b : β} :
    (x >>= f) = .ok b ↔ P ∧ f v = .ok b := by
  rw [Res.bind_eq_ok]
  constructor
  · rintro ⟨o, h1, h2⟩
    obtain ⟨hP, rfl⟩ := (h o).mp h1
    exact ⟨hP, h2⟩
  · rintro ⟨hP, h2⟩
    exact ⟨v, (h v).mpr ⟨hP, rfl⟩, h2⟩

theorem some_isSome {α : Type} (b : Bool) (x : α) : (if b then some x else none).isSome = b := by cases b <;> rfl

theorem if_not_flag {α : Type} (b : Bool) (x : α) : (if (!b) = true then some x else none) = if b = true then none else some x := by
  cases b <;> rfl

/-- The URL stored by the options is stored again by the options of the daemons. -/
theorem settings_url (opts : List Opt) (a : Settings) (ha : settings opts = .ok a) : athenzURL a.athenzURL = .ok a.athenzURL := by
  obtain ⟨hok, hset⟩ := (C57_settings opts a).mp ha
  have hlast : ∀ (os : List Opt) d, (∃ u, athenzURL d = .ok u) → (∀ url, Opt.athenzURL url ∈ os → ∃ u, athenzURL url = .ok u) →
      ∃ u, athenzURL (lastSet urlOf os d) = .ok u := by
    intro os
    induction os with
    | nil => intro d hd _; exact hd
    | cons o os ih =>
      intro d hd h
      rw [lastSet_cons]
      refine ih _ ?_ (fun url hm => h url (List.mem_cons_of_mem _ hm))
      cases o
      case athenzURL url => exact h url List.mem_cons_self
      all_goals exact hd
  obtain ⟨u, h⟩ := hlast opts "athenz.io/zts/v1".toList ⟨_, default_url_ok⟩ (fun url hm => (athenzURL_ok_iff url).mpr (hok url hm))
  have he : a.athenzURL = u := by rw [hset, athenzURL_ok _ u h]; rfl
  rw [he]
  exact C50_again _ u h

/-- **C57**.  `New` succeeds exactly if every Athenz URL given is acceptable and the settings that follow from the options are, and it returns
what the settings say. -/
theorem C57_new (F : NewFns) (opts : List Opt) (b : Built) : newAuthority F opts = .ok b ↔
    URLsOk opts ∧ Acceptable F (settingsOf opts) ∧ b = builtOf F (settingsOf opts) := by
  have main : ∀ a, settings opts = .ok a → (newAuthority F opts = .ok b ↔ Acceptable F a ∧ b = builtOf F a) := by
    intro a ha
    obtain ⟨hok, hset⟩ := (C57_settings opts a).mp ha
    have hu := settings_url opts a ha
    have hcl : ∃ c, a.client = some c := by rw [hset]; exact ⟨_, rfl⟩
    obtain ⟨c, hc⟩ := hcl
    have hpk := fun o => when_ok (!a.disablePubkeyd) (pkNew F a.pkOpts) o _ _ (fun p => by rw [pkNew_defaults]; exact pkOpts_ok F a hu _ p)
    have hpd := fun k o => when_ok (!a.disablePolicyd) (pdNew F (a.pdOpts k)) o _ _ (fun p => by rw [pdNew_defaults]; exact pdOpts_ok F a hu c hc k _ p)
    have hjw := fun o => when_ok (!a.disableJwkd) (jwNew F a.jwOpts) o _ _ (fun p => by rw [jwNew_defaults]; exact jwOpts_ok F a hu _ p)
    have hrt := fun (k : Bool) o => when_ok a.enableRoleToken (.ok k) o True k (fun p => by simp only [Res.ok.injEq, true_and]; exact eq_comm)
    have hat := fun k o => when_ok a.accessTokenParam.enable (atNew F (a.atOpts k)) o _ _ (fun p => atOpts_ok F a k p)
    unfold newAuthority
    rw [bind_known (settings opts) _ True a (fun x => by rw [ha]; simp only [Res.ok.injEq, true_and]; exact eq_comm), bind_known _ _ _ _ hpk,
      bind_known _ _ _ _ (hpd _), bind_known _ _ _ _ hjw, bind_known _ _ _ _ (hrt _), bind_known _ _ _ _ (hat _), some_isSome, some_isSome]
    have hno : ∀ (x : Built), (if a.enableRoleCert = false ∧ a.accessTokenParam.enable = false ∧ a.enableRoleToken = false
        then Res.err (.other "error no authorizers") else Res.ok x) = .ok b ↔
        (a.enableRoleCert = true ∨ a.accessTokenParam.enable = true ∨ a.enableRoleToken = true) ∧ b = x := by
      intro x
      cases a.enableRoleCert <;> cases a.accessTokenParam.enable <;> cases a.enableRoleToken <;>
        simp [eq_comm (a := x)]
    rw [hno, if_not_flag, if_not_flag, if_not_flag, Bool.or_false]
    constructor
    · rintro ⟨-, h1, h2, h3, -, h5, h6, h7⟩
      exact ⟨⟨fun h => h1 (by rw [h]; rfl), fun h => h2 (by rw [h]; rfl), fun h => h3 (by rw [h]; rfl), h5, h6⟩, h7⟩
    · rintro ⟨h, h7⟩
      exact ⟨trivial, fun e => h.pubkeyd (by simpa using e), fun e => h.policyd (by simpa using e), fun e => h.jwkd (by simpa using e),
        fun _ => trivial, h.access, h.authorizer, h7⟩
  constructor
  · intro h
    have : ∃ a, settings opts = .ok a := by
      unfold newAuthority at h
      obtain ⟨a, h1, _⟩ := (Res.bind_eq_ok _ _ _).mp h
      exact ⟨a, h1⟩
    obtain ⟨a, ha⟩ := this
    obtain ⟨h1, h2⟩ := (C57_settings opts a).mp ha
    rw [main a ha, h2] at h
    exact ⟨h1, h⟩
  · rintro ⟨h1, h2⟩
    exact (main _ ((C57_settings opts _).mpr ⟨h1, rfl⟩)).mpr h2

theorem Res.bind_no_panic {α β : Type} {x : Res α} {f : α → Res β} (hx : x ≠ .panic) (hf : ∀ a, f a ≠ .panic) : (x >>= f) ≠ .panic := by
  show Res.bind x f ≠ _
  cases x with
  | ok a => exact hf a
  | err e => simp [Res.bind]
  | panic => exact absurd rfl hx

theorem when_no_panic {α : Type} {b : Bool} {r : Res α} (h : r ≠ .panic) : Res.when b r ≠ .panic := by
  unfold Res.when
  cases b with
  | false => simp
  | true =>
    cases r with
    | ok a => simp
    | err e => simp
    | panic => exact absurd rfl h

/-- **C57**.  `New` itself does not panic: an option that is not acceptable makes it return an error. -/
theorem C57_no_panic (F : NewFns) (opts : List Opt) : newAuthority F opts ≠ .panic := by
  have dur : ∀ {S : Type} (t : Str) (old : Int) (w : String) (k : Int → S), ((setDur F t old w).bind fun d => .ok (k d)) ≠ .panic := by
    intro S t old w k
    exact Res.bind_no_panic (setDur_no_panic F t old w) (by simp)
  have jurl : ∀ url, athenzJwksURL url ≠ .panic := by
    intro url
    unfold athenzJwksURL
    simp only
    split
    · exact nofun
    · split <;> exact nofun
  unfold newAuthority
  refine Res.bind_no_panic (applyAll_no_panic Opt.apply_no_panic _ _) fun a => ?_
  refine Res.bind_no_panic (when_no_panic (applyAll_no_panic ?_ _ _)) fun pk => ?_
  · intro o s
    cases o <;> simp only [PkOpt.apply]
    case athenzURL url => exact Res.bind_no_panic (athenzURL_no_panic url) (by simp)
    all_goals first | exact dur _ _ _ _ | (repeat' split) <;> simp
  refine Res.bind_no_panic (when_no_panic (applyAll_no_panic ?_ _ _)) fun pd => ?_
  · intro o s
    cases o <;> simp only [PdOpt.apply]
    case athenzURL url => exact Res.bind_no_panic (athenzURL_no_panic url) (by simp)
    all_goals first | exact dur _ _ _ _ | (repeat' split) <;> simp
  refine Res.bind_no_panic (when_no_panic (applyAll_no_panic ?_ _ _)) fun jw => ?_
  · intro o s
    cases o <;> simp only [JwOpt.apply]
    case athenzJwksURL url => exact Res.bind_no_panic (jurl url) (by simp)
    case urls us => exact Res.bind_no_panic (checkURLs_no_panic F us) (by simp)
    all_goals first | exact dur _ _ _ _ | (repeat' split) <;> simp
  refine Res.bind_no_panic (when_no_panic (by simp)) fun rt => ?_
  refine Res.bind_no_panic (when_no_panic (applyAll_no_panic ?_ _ _)) fun at_ => ?_
  · intro o s
    cases o <;> simp only [AtOpt.apply]
    all_goals (repeat' split) <;> simp
  split <;> simp

namespace Ex

/-- Library functions for the examples. -/
def newFns : NewFns := ⟨fun _ _ _ => 0, fun d => d.tdiv 1000000000, fun u => if u.take 8 = "https://".toList then some "https".toList else none⟩

/-- The cache lifetime twice, the policy refresh period in between, another key server. -/
def newOpts : List Opt :=
  [.cacheExp 5, .policyRefreshPeriod "15m".toList, .cacheExp 7, .jwkURLs ["https://keys".toList], .athenzURL "https://zts.example".toList,
    .disableRoleToken]

end Ex

/-- `New` accepts these options; the last cache lifetime counts, what is not given keeps its default. -/
example : ∃ b p, newAuthority Ex.newFns Ex.newOpts = .ok b ∧ b.set.cacheExp = 7 ∧ b.policyd = some p ∧ p.refreshPeriod = 15 * minute ∧
    p.purgePeriod = hour ∧ b.role = none := by
  have hd : ∀ (ds u : Str) (n unit : Nat), ds ≠ [] → parseDigits 0 ds = some n → durUnit u = some unit → n * unit < 2 ^ 63 → DurOk Ex.newFns (ds ++ u) :=
    fun ds u n unit h1 h2 h3 h4 => (durOf_whole Ex.newFns ds u n unit 0 h1 h2 h3 h4).1
  have h1 : DurOk Ex.newFns "1h".toList := hd "1".toList "h".toList 1 3600000000000 (by decide) (by decide) (by decide) (by decide)
  have h15 := durOf_whole Ex.newFns "15".toList "m".toList 15 60000000000 (30 * minute) (by decide) (by decide) (by decide) (by decide)
  have he : DurOk Ex.newFns [] := .inl rfl
  refine ⟨_, _, (C57_new _ _ _).mpr ⟨?_, ⟨fun _ => ⟨he, he, he, he⟩, fun _ => ⟨he, h15.1, he, he⟩, fun _ => ⟨?_, he, he, ?_⟩, fun _ => ⟨h1, h1⟩, .inl rfl⟩,
    rfl⟩, rfl, rfl, h15.2, rfl, rfl⟩
  · intro url hm
    simp only [Ex.newOpts, List.mem_cons, reduceCtorEq, List.not_mem_nil, or_false, false_or, Opt.athenzURL.injEq] at hm
    rw [hm]
    exact (athenzURL_ok_iff _).mp ⟨"zts.example".toList, of_decide_eq_true (by decide +kernel)⟩
  · decide +kernel
  · intro u hu
    have : u = "https://keys".toList := List.mem_singleton.mp hu
    rw [this]
    exact .inr (by decide +kernel)

/-- `New` refuses a duration that is none, an Athenz URL with another scheme also if a later option replaces it, and a configuration without
authorizers. -/
example : (∃ e, newAuthority Ex.newFns [.policyRefreshPeriod "soon".toList] = .err e) ∧
    (∃ e, newAuthority Ex.newFns [.athenzURL "ftp://x".toList, .athenzURL "https://x".toList] = .err e) ∧
    (∃ e, newAuthority Ex.newFns [.disableRoleToken, .disableRoleCert, .accessTokenParam ⟨false, true, [], [], false, fun _ => []⟩] = .err e) := by
  have key : ∀ opts, (¬ URLsOk opts ∨ ¬ Acceptable Ex.newFns (settingsOf opts)) → ∃ e, newAuthority Ex.newFns opts = .err e := by
    intro opts h
    cases hn : newAuthority Ex.newFns opts with
    | ok b =>
      obtain ⟨h1, h2, _⟩ := (C57_new _ _ b).mp hn
      rcases h with h | h
      · exact absurd h1 h
      · exact absurd h2 h
    | err e => exact ⟨e, rfl⟩
    | panic => exact absurd hn (C57_no_panic _ _)
  refine ⟨key _ (.inr fun h => ?_), key _ (.inl fun h => ?_), key _ (.inr fun h => ?_)⟩
  · obtain ⟨_, h, _⟩ := h.policyd rfl
    rcases h with h | ⟨d, h⟩
    · exact absurd h (by decide +kernel)
    · have : parseDuration Ex.newFns.frac "soon".toList = none := by decide +kernel
      rw [show (settingsOf [.policyRefreshPeriod "soon".toList]).policyRefreshPeriod = "soon".toList from rfl, this] at h
      cases h
  · obtain ⟨u, hu⟩ := (athenzURL_ok_iff _).mpr (h "ftp://x".toList (by simp))
    have : Ex.isOk (athenzURL "ftp://x".toList) = false := by decide +kernel
    rw [hu] at this
    cases this
  · rcases h.authorizer with h | h | h <;> cases h

end Athenz
