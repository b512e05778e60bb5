import Verif.Props.Check
import Verif.Proofs.MergeAtomic

/-! # C01, C02, C06–C11: from policy documents to decisions -/

namespace Athenz

instance (U : CaseFns) (a : RawAssertion) : Decidable (Spec.IsDeny U a) :=
  inferInstanceAs (Decidable (_ = _))

/-! ## The setting -/

/-- `s` is the state of a policy update over the documents `docs` that ran under some schedule and succeeded. -/
def Updated (U : CaseFns) (docs : List (Option PolicyDoc)) (T0 : Int) (s : UpdState) : Prop :=
  ∃ sched, updRun U (updInit T0 docs) sched = some s ∧ s.succeeded

/-- What the partial theorems assume about the documents. -/
structure Regular (U : CaseFns) (docs : List (Option PolicyDoc)) (T0 T : Int) : Prop where
  /-- the documents are valid while the update runs, and no int64 sum overflows -/
  frame : Frame docs T0 T
  /-- documents of different domains speak about different roles -/
  disjoint : RolesDisjoint docs
  /-- every policy that mentions a triple its document denies denies it, too -/
  denySafe : ∀ d, some d ∈ docs → DenySafe U d
  /-- no commas in roles and actions -/
  commaFree : CommaFree (allAssertions docs)

theorem updated_rep {U : CaseFns} {docs : List (Option PolicyDoc)} {T0 : Int} {s : UpdState} (h : Updated U docs T0 s)
    (hR : Regular U docs T0 s.now) (t : Int) (ht : ∀ d, some d ∈ docs → t ≤ d.expires) (k : Str) :
    RepKey U (allAssertions docs) k (viewOf s.rp t k) := by
  obtain ⟨sched, hrun, hok⟩ := h
  have hinv := (updInit_inv U docs T0 s.now).run hR.frame hR.disjoint hrun (Int.le_refl _)
  exact hinv.rep hR.disjoint hok hR.denySafe hR.commaFree t ht k

theorem updated_sound {U : CaseFns} {docs : List (Option PolicyDoc)} {T0 : Int} {s : UpdState} (h : Updated U docs T0 s)
    (t : Int) (k : Str) : SoundKey U (allAssertions docs) k (viewOf s.rp t k) := by
  obtain ⟨sched, hrun, _⟩ := h
  exact ((updInit_sound U T0 docs).run hrun).rp.get t k

theorem Ex.doc_regular : Regular asciiCase [some Ex.doc] 10 15 :=
  ⟨Ex.doc_frame, Ex.single_disjoint _, by intro d hd; simp at hd; subst hd; exact Ex.doc_denySafe, Ex.doc_commaFree⟩

/-! ## C01 deny overrides -/

/-- **C01**, the full statement: with the documents in force, a request that one of them denies is refused. -/
def C01_statement : Prop :=
  ∀ (U : CaseFns) (docs : List (Option PolicyDoc)) (T0 : Int) (s : UpdState) (t : Int) (q : CheckReq) (sched : List CheckAct)
    (r : Res (List Str)), Updated U docs T0 s → Frame docs T0 s.now → RolesDisjoint docs → (∀ d, some d ∈ docs → t ≤ d.expires) →
    ViewStable sched → CheckReturns U q (viewOf s.rp t) sched r →
    (∃ role ∈ q.roles, Spec.Denied U (allAssertions docs) q.domain role q.action q.resource) → ∃ e, r = .err e

theorem Ex.denyR_applies : Spec.Applies asciiCase Ex.denyR "d".toList "r".toList "Read".toList "xyz".toList := by
  have hc : Ex.denyR.conv asciiCase ≠ none := by decide +kernel
  obtain ⟨x, hx⟩ := Option.ne_none_iff_exists'.mp hc
  have hm : ∀ y, Ex.denyR.conv asciiCase = some y → y.matches asciiCase "d".toList "Read".toList "xyz".toList = true := by
    intro y hy
    have : (Ex.denyR.conv asciiCase).map (fun y => y.matches asciiCase "d".toList "Read".toList "xyz".toList) = some true := by
      decide +kernel
    rw [hy] at this; simpa using this
  exact (conv_applies hx _ _ _ _).mpr ⟨by decide, hm x hx⟩

/-- **C01** is false for the code: two policies of one document with the same triple and opposite effects are merged by two
goroutines, both find the triple missing, the deny is stored first and the allow over it. -/
theorem C01_refuted : ¬ C01_statement := by
  intro h
  obtain ⟨s, hs, hp⟩ := Ex.exists_of_map (o := updRun asciiCase (updInit 10 [some Ex.raceDoc]) Ex.raceUpd)
    (p := fun s => decide (s.jobs = [.done none]) && decide (s.now = 10) &&
      decide (Ex.checkRet asciiCase Ex.reqR (viewOf s.rp 20) Ex.schedR = some (.ok ["r".toList]))) (by decide +kernel)
  simp only [Bool.and_eq_true, decide_eq_true_eq] at hp
  have hfr : Frame [some Ex.raceDoc] 10 s.now := by
    rw [hp.1.2]
    refine ⟨by decide, by decide, ?_⟩
    intro d hd; simp at hd; subst hd; decide
  obtain ⟨e, he⟩ := h asciiCase [some Ex.raceDoc] 10 s 20 Ex.reqR Ex.schedR _ ⟨_, hs, Ex.succeeded_of hp.1.1⟩ hfr
    (Ex.single_disjoint _) (by intro d hd; simp at hd; subst hd; decide)
    (by intro a ha; simp [Ex.schedR] at ha; rcases ha with rfl | rfl | rfl | rfl <;> trivial)
    (Ex.returns_of_ret hp.2)
    ⟨"r".toList, by simp [Ex.reqR], Ex.denyR, mem_allAssertions.mpr ⟨Ex.raceDoc, by simp, by simp [Ex.raceDoc]⟩,
      Ex.denyR_applies, by decide⟩
  simp at he

/-- **C01**, what holds. Missing: documents in which a triple is denied in one policy and only allowed in another (the race of
`C01_refuted`), or with commas in roles or actions (`C10_comma_refuted`). For regular documents every denied request is refused,
under every schedule of the check, cancelled or not, at every time up to the expiry of the documents. -/
theorem C01_deny_overrides_partial (U : CaseFns) (docs : List (Option PolicyDoc)) (T0 : Int) (s : UpdState) (t : Int) (q : CheckReq)
    (sched : List CheckAct) (r : Res (List Str)) (hU : Updated U docs T0 s) (hR : Regular U docs T0 s.now)
    (ht : ∀ d, some d ∈ docs → t ≤ d.expires) (hs : ViewStable sched) (h : CheckReturns U q (viewOf s.rp t) sched r)
    (hd : ∃ role ∈ q.roles, Spec.Denied U (allAssertions docs) q.domain role q.action q.resource) :
    ∃ e, r = .err e := by
  obtain ⟨role, hrole, hden⟩ := hd
  have hv := (verdict_rep (q := q) (updated_rep hU hR t ht (roleKey q.domain role))).1.mpr hden
  have hsp := check_result hs h
  cases r with
  | ok rs => exact absurd ((decides_iff ..).mpr hv) (hsp.2.1 role hrole _)
  | err e => exact ⟨e, rfl⟩
  | panic => exact hsp.elim

/-- The documents, the update and the check of the example meet the hypotheses. -/
example : ∃ s, Updated asciiCase [some Ex.doc] 10 s ∧ Regular asciiCase [some Ex.doc] 10 s.now ∧
    CheckReturns asciiCase Ex.reqRS (viewOf s.rp 20) Ex.schedRS (.err .denyByPolicy) := by
  obtain ⟨s, hs, hok, hn, _, hr⟩ := Ex.upd_run
  exact ⟨s, ⟨_, hs, hok⟩, by rw [hn]; exact Ex.doc_regular, hr⟩

/-! ## C02 exact decision -/

/-- **C02**, the full statement. -/
def C02_statement : Prop :=
  ∀ (U : CaseFns) (docs : List (Option PolicyDoc)) (T0 : Int) (s : UpdState) (t : Int) (q : CheckReq) (sched : List CheckAct)
    (r : Res (List Str)), Updated U docs T0 s → Frame docs T0 s.now → RolesDisjoint docs → (∀ d, some d ∈ docs → t ≤ d.expires) →
    Undisturbed sched → CheckReturns U q (viewOf s.rp t) sched r →
    ((∃ rs, r = .ok rs) ↔
      (∃ role ∈ q.roles, Spec.Allowed U (allAssertions docs) q.domain role q.action q.resource) ∧
      ¬ ∃ role ∈ q.roles, Spec.Denied U (allAssertions docs) q.domain role q.action q.resource)

/-- **C02** is false for the code, for the same reason as C01. -/
theorem C02_refuted : ¬ C02_statement := by
  intro h
  obtain ⟨s, hs, hp⟩ := Ex.exists_of_map (o := updRun asciiCase (updInit 10 [some Ex.raceDoc]) Ex.raceUpd)
    (p := fun s => decide (s.jobs = [.done none]) && decide (s.now = 10) &&
      decide (Ex.checkRet asciiCase Ex.reqR (viewOf s.rp 20) Ex.schedR = some (.ok ["r".toList]))) (by decide +kernel)
  simp only [Bool.and_eq_true, decide_eq_true_eq] at hp
  have hfr : Frame [some Ex.raceDoc] 10 s.now := by
    rw [hp.1.2]
    refine ⟨by decide, by decide, ?_⟩
    intro d hd; simp at hd; subst hd; decide
  have := (h asciiCase [some Ex.raceDoc] 10 s 20 Ex.reqR Ex.schedR _ ⟨_, hs, Ex.succeeded_of hp.1.1⟩ hfr
    (Ex.single_disjoint _) (by intro d hd; simp at hd; subst hd; decide)
    (by intro a ha; simp [Ex.schedR] at ha; rcases ha with rfl | rfl | rfl | rfl <;> trivial)
    (Ex.returns_of_ret hp.2)).mp ⟨_, rfl⟩
  exact this.2 ⟨"r".toList, by simp [Ex.reqR], Ex.denyR, mem_allAssertions.mpr ⟨Ex.raceDoc, by simp, by simp [Ex.raceDoc]⟩,
    Ex.denyR_applies, by decide⟩

/-- If the cached lists of the caller's roles represent the assertions `A`, then a check decides as `A` says. -/
theorem decision_of_rep {U : CaseFns} {q : CheckReq} {A : List RawAssertion} {view : PolicyView} {sched : List CheckAct}
    {r : Res (List Str)} (hrep : ∀ role ∈ q.roles, RepKey U A (roleKey q.domain role) (view (roleKey q.domain role)))
    (hs : Undisturbed sched) (h : CheckReturns U q view sched r) :
    ((∃ rs, r = .ok rs) ↔
      (∃ role ∈ q.roles, Spec.Allowed U A q.domain role q.action q.resource) ∧
      ¬ ∃ role ∈ q.roles, Spec.Denied U A q.domain role q.action q.resource) ∧
    (r = .err .denyByPolicy ↔ ∃ role ∈ q.roles, Spec.Denied U A q.domain role q.action q.resource) ∧
    (r = .err .noMatch ↔ ∀ role ∈ q.roles, ¬ Spec.Allowed U A q.domain role q.action q.resource ∧
      ¬ Spec.Denied U A q.domain role q.action q.resource) ∧
    (∀ rs, r = .ok rs → ∀ role, role ∈ rs ↔
      role ∈ q.roles ∧ Spec.Allowed U A q.domain role q.action q.resource) := by
  have hv := fun role (hr : role ∈ q.roles) => verdict_rep (q := q) (hrep role hr)
  have hsp := C03_result U q view sched hs r h
  have hdec : ∀ role e, Spec.Decides U q view role e ↔ roleVerdict U q view role = some e :=
    fun role e => decides_iff ..
  cases r with
  | panic => exact hsp.elim
  | ok rs =>
    obtain ⟨hne, hnd, f, hf, hp⟩ := hsp
    have hnden : ¬ ∃ role ∈ q.roles, Spec.Denied U A q.domain role q.action q.resource := by
      rintro ⟨role, hrole, hd⟩
      exact hnd role hrole _ ((hdec ..).mpr ((hv role hrole).1.mpr hd))
    have hmem : ∀ role, role ∈ rs ↔ role ∈ q.roles ∧ Spec.Allowed U A q.domain role q.action q.resource := by
      intro role
      rw [hp.mem_iff, List.mem_filter, hf, hdec]
      constructor
      · rintro ⟨h1, h2⟩; exact ⟨h1, ((hv role h1).2.1.mp h2).1⟩
      · rintro ⟨h1, h2⟩; exact ⟨h1, (hv role h1).2.1.mpr ⟨h2, fun hd => hnden ⟨role, h1, hd⟩⟩⟩
    have hall : ∃ role ∈ q.roles, Spec.Allowed U A q.domain role q.action q.resource := by
      cases rs with
      | nil => exact absurd rfl hne
      | cons x xs => exact ⟨x, (hmem x).mp (by simp)⟩
    refine ⟨⟨fun _ => ⟨hall, hnden⟩, fun _ => ⟨rs, rfl⟩⟩, ⟨by simp, fun h' => absurd h' hnden⟩, ⟨by simp, ?_⟩, ?_⟩
    · intro h'
      obtain ⟨role, h1, h2⟩ := hall
      exact absurd h2 (h' role h1).1
    · intro rs' hrs role
      simp only [Res.ok.injEq] at hrs
      subst hrs
      exact hmem role
  | err e =>
    rcases hsp with ⟨role, hrole, hd⟩ | ⟨_, hd⟩ | ⟨rfl, hd⟩
    · have hvd := (hdec ..).mp hd
      have he := (verdict_deny_sound ⟨(hrep role hrole).denyFirst, (hrep role hrole).sound⟩ hvd)
      obtain ⟨rfl, hden⟩ := he
      refine ⟨⟨by simp, fun h' => absurd ⟨role, hrole, hden⟩ h'.2⟩, ⟨fun _ => ⟨role, hrole, hden⟩, fun _ => rfl⟩,
        ⟨by simp, fun h' => absurd hden (h' role hrole).2⟩, by simp⟩
    · exact hd.elim
    · have hnone : ∀ role ∈ q.roles, ¬ Spec.Allowed U A q.domain role q.action q.resource ∧
          ¬ Spec.Denied U A q.domain role q.action q.resource := by
        intro role hrole
        apply (hv role hrole).2.2.mp
        cases hc : roleVerdict U q view role with
        | none => rfl
        | some e' => exact absurd ((hdec ..).mpr hc) (hd role hrole e')
      refine ⟨⟨by simp, fun h' => ?_⟩, ⟨by simp, fun h' => ?_⟩, ⟨fun _ => hnone, fun _ => rfl⟩, by simp⟩
      · obtain ⟨⟨role, h1, h2⟩, _⟩ := h'
        exact absurd h2 (hnone role h1).1
      · obtain ⟨role, h1, h2⟩ := h'
        exact absurd h2 (hnone role h1).2

/-- **C02**, what holds for regular documents: the exact decision, the error of every refusal, and the authorized roles.
Missing: see `C01_deny_overrides_partial`. -/
theorem C02_decision_partial (U : CaseFns) (docs : List (Option PolicyDoc)) (T0 : Int) (s : UpdState) (t : Int) (q : CheckReq)
    (sched : List CheckAct) (r : Res (List Str)) (hU : Updated U docs T0 s) (hR : Regular U docs T0 s.now)
    (ht : ∀ d, some d ∈ docs → t ≤ d.expires) (hs : Undisturbed sched) (h : CheckReturns U q (viewOf s.rp t) sched r) :
    ((∃ rs, r = .ok rs) ↔
      (∃ role ∈ q.roles, Spec.Allowed U (allAssertions docs) q.domain role q.action q.resource) ∧
      ¬ ∃ role ∈ q.roles, Spec.Denied U (allAssertions docs) q.domain role q.action q.resource) ∧
    (r = .err .denyByPolicy ↔ ∃ role ∈ q.roles, Spec.Denied U (allAssertions docs) q.domain role q.action q.resource) ∧
    (r = .err .noMatch ↔ ∀ role ∈ q.roles, ¬ Spec.Allowed U (allAssertions docs) q.domain role q.action q.resource ∧
      ¬ Spec.Denied U (allAssertions docs) q.domain role q.action q.resource) ∧
    (∀ rs, r = .ok rs → ∀ role, role ∈ rs ↔
      role ∈ q.roles ∧ Spec.Allowed U (allAssertions docs) q.domain role q.action q.resource) :=
  decision_of_rep (fun role _ => updated_rep hU hR t ht (roleKey q.domain role)) hs h

/-- The grant of the example. -/
example : ∃ s, Updated asciiCase [some Ex.doc] 10 s ∧ Regular asciiCase [some Ex.doc] 10 s.now ∧
    CheckReturns asciiCase Ex.reqR (viewOf s.rp 20) Ex.schedR (.ok ["r".toList]) := by
  obtain ⟨s, hs, hok, hn, hr, _⟩ := Ex.upd_run
  exact ⟨s, ⟨_, hs, hok⟩, by rw [hn]; exact Ex.doc_regular, hr⟩

/-- **C02**, the half that holds for all documents (races, commas, shared roles, expiry during the update or the check) and all
schedules of update and check: nobody is granted anything without an allow assertion in the documents that applies. -/
theorem C02_grant_sound (U : CaseFns) (docs : List (Option PolicyDoc)) (T0 : Int) (s : UpdState) (hU : Updated U docs T0 s)
    (q : CheckReq) (t0 : Int) (sched : List CheckAct) (hs : ∀ v, CheckAct.mutate v ∈ sched → ∃ t, v = viewOf s.rp t)
    (rs : List Str) (h : CheckReturns U q (viewOf s.rp t0) sched (.ok rs)) :
    rs ≠ [] ∧ ∀ role ∈ rs, role ∈ q.roles ∧ Spec.Allowed U (allAssertions docs) q.domain role q.action q.resource := by
  obtain ⟨hne, hall, _⟩ := C04_changing_cache U q (fun v => ∃ t, v = viewOf s.rp t) _ ⟨t0, rfl⟩ sched hs rs h
  refine ⟨hne, fun role hrole => ?_⟩
  obtain ⟨h1, v, ⟨t, rfl⟩, hd⟩ := hall role hrole
  exact ⟨h1, verdict_allow_sound (updated_sound hU t _) ((decides_iff ..).mp hd)⟩

/-! ## C06, C07, C09: assertions -/

/-- **C06**. -/
theorem C06_glob (g : Str) :
    ∃ re, Regexp.compile (patternFromGlob g) = some re ∧ ∀ s, re.matchString s = true ↔ Spec.Glob g s := by
  obtain ⟨re, h1, _, h2⟩ := glob_correct g
  exact ⟨re, h1, h2⟩

/-- `a.b*?` matches `a.bxxy` but not `aXby`. -/
example : Spec.Glob "a.b*?".toList "a.bxxy".toList ∧ ¬ Spec.Glob "a.b*?".toList "aXby".toList := by
  obtain ⟨re, h1, h2⟩ := C06_glob "a.b*?".toList
  have e : ∀ re', Regexp.compile (patternFromGlob "a.b*?".toList) = some re' →
      re'.matchString "a.bxxy".toList = true ∧ re'.matchString "aXby".toList = false := by
    intro re' h
    have : (Regexp.compile (patternFromGlob "a.b*?".toList)).map
        (fun r => (r.matchString "a.bxxy".toList, r.matchString "aXby".toList)) = some (true, false) := by decide +kernel
    rw [h] at this; simpa using this
  obtain ⟨e1, e2⟩ := e re h1
  exact ⟨(h2 _).mp e1, fun h => by rw [(h2 _).mpr h] at e2; simp at e2⟩

/-- **C09**. `NewAssertion` fails exactly if the resource has no ':', otherwise splits it at the first ':' and recognises deny. -/
theorem C09_newAssertion (U : CaseFns) (action resource effect : Str) :
    (newAssertion U action resource effect = .err .invalidPolicyResource ↔ ':' ∉ resource) ∧
    (∀ x, newAssertion U action resource effect = .ok x →
      ∃ dom res, resource = dom ++ ':' :: res ∧ ':' ∉ dom ∧ x.resourceDomain = dom ∧ x.resource = res ∧ x.action = action ∧
        (x.effect = some .denyByPolicy ↔ effect.map U.fold = "deny".toList.map U.fold) ∧
        (x.effect = none ↔ effect.map U.fold ≠ "deny".toList.map U.fold)) ∧
    (':' ∈ resource → ∃ x, newAssertion U action resource effect = .ok x) := by
  have hnone : ':' ∉ resource → newAssertion U action resource effect = .err .invalidPolicyResource := by
    intro h
    unfold newAssertion
    rw [Str.cut_singleton_none.mpr h]
  have hsome : ':' ∈ resource → ∃ x, newAssertion U action resource effect = .ok x := by
    intro h
    cases hc : Str.cut [':'] resource with
    | none => exact absurd h (Str.cut_singleton_none.mp hc)
    | some p =>
      obtain ⟨ra, h1, _⟩ := glob_correct (U.toLower action)
      obtain ⟨rr, h2, _⟩ := glob_correct (U.toLower p.2)
      unfold newAssertion
      simp only [hc, h1, h2]
      exact ⟨_, rfl⟩
  refine ⟨⟨?_, hnone⟩, ?_, hsome⟩
  · intro h hc
    obtain ⟨x, hx⟩ := hsome hc
    rw [h] at hx; simp at hx
  · intro x hx
    have he := newAssertion_effect hx
    unfold newAssertion at hx
    split at hx
    · simp at hx
    · rename_i dom res hcut
      obtain ⟨hd1, hd2⟩ := Str.cut_singleton_iff.mp hcut
      split at hx
      · simp at hx
      · split at hx
        · simp at hx
        · simp only [Res.ok.injEq] at hx
          refine ⟨dom, res, hd1, hd2, by rw [← hx], by rw [← hx], by rw [← hx], ?_, ?_⟩
          · rw [he]
            unfold CaseFns.equalFold
            by_cases h' : effect.map U.fold = "deny".toList.map U.fold
            · rw [h']; simp
            · have : ("deny".toList.map U.fold == effect.map U.fold) = false := by
                rw [beq_eq_false_iff_ne]; exact fun h => h' h.symm
              simp only [this, Bool.false_eq_true, if_false]
              simpa using h'
          · rw [he]
            unfold CaseFns.equalFold
            by_cases h' : effect.map U.fold = "deny".toList.map U.fold
            · rw [h']; simp
            · have : ("deny".toList.map U.fold == effect.map U.fold) = false := by
                rw [beq_eq_false_iff_ne]; exact fun h => h' h.symm
              simp only [this, Bool.false_eq_true, if_false, true_iff]
              exact h'

example : ∃ x, newAssertion asciiCase "read".toList "d:a:b".toList "DeNy".toList = .ok x ∧ x.resourceDomain = "d".toList ∧
    x.resource = "a:b".toList ∧ x.effect = some .denyByPolicy := by
  obtain ⟨x, hx⟩ := (C09_newAssertion asciiCase "read".toList "d:a:b".toList "DeNy".toList).2.2 (by decide)
  obtain ⟨dom, res, h1, h2, h3, h4, _, h5, _⟩ := (C09_newAssertion asciiCase _ _ _).2.1 x hx
  obtain ⟨e1, e2⟩ := append_sep_inj (a' := "d".toList) (b' := "a:b".toList) (c := ':') (h1.symm.trans rfl) h2 (by decide)
  exact ⟨x, hx, by rw [h3, e1], by rw [h4, e2], h5.mpr (by decide)⟩

/-- The step function depends on the request's action and resource only through the match results. -/
theorem checkRun_congr {U : CaseFns} {q q' : CheckReq} (hd : q'.domain = q.domain) (hr : q'.roles = q.roles)
    (hm : ∀ a : Assertion, a.matches U q'.domain q'.action q'.resource = a.matches U q.domain q.action q.resource)
    (s : CheckState) (sched : List CheckAct) : checkRun U q' s sched = checkRun U q s sched := by
  induction sched generalizing s with
  | nil => rfl
  | cons a as ih =>
    have : checkStep U q' s a = checkStep U q s a := by
      cases a with
      | worker i => simp only [checkStep, CheckState.send, hr]; rw [hd]; simp only [hd] at hm; simp only [hm]
      | _ => rfl
    simp only [checkRun, this, ih]

/-- **C07**. The letter case of the requested action and resource has no influence: every schedule gives the same result. -/
theorem C07_request_case (U : CaseFns) (domain action action' resource resource' : Str) (roles : List Str) (view : PolicyView)
    (ha : action'.map U.lower = action.map U.lower) (hr : resource'.map U.lower = resource.map U.lower)
    (sched : List CheckAct) (r : Res (List Str)) :
    CheckReturns U ⟨domain, roles, action', resource'⟩ view sched r ↔ CheckReturns U ⟨domain, roles, action, resource⟩ view sched r := by
  unfold CheckReturns
  have : (CheckReq.mk domain roles action' resource').init view = (CheckReq.mk domain roles action resource).init view := rfl
  rw [this]
  have hrun := checkRun_congr (U := U) (q := ⟨domain, roles, action, resource⟩) (q' := ⟨domain, roles, action', resource'⟩) rfl rfl
    (fun a => by simp only [Assertion.matches, CaseFns.toLower, ha, hr])
  simp only [hrun]

example : "ReAd".toList.map asciiCase.lower = "read".toList.map asciiCase.lower := by decide

/-- **C07**. The letter case of action, resource and effect of an assertion has no influence on what it matches and does. -/
theorem C07_assertion_case (U : CaseFns) (a a' : RawAssertion) (x x' : Assertion)
    (ha : a'.action.map U.lower = a.action.map U.lower) (hrl : a'.resource.map U.lower = a.resource.map U.lower)
    (hrf : a'.resource.map U.fold = a.resource.map U.fold) (he : a'.effect.map U.fold = a.effect.map U.fold)
    (hcolon : ∀ c, (U.lower c = U.lower ':' → c = ':') ∧ (U.fold c = U.fold ':' → c = ':'))
    (hx : newAssertion U a.action a.resource a.effect = .ok x) (hx' : newAssertion U a'.action a'.resource a'.effect = .ok x') :
    x'.effect = x.effect ∧ ∀ domain action resource, x'.matches U domain action resource = x.matches U domain action resource := by
  refine ⟨?_, ?_⟩
  · rw [newAssertion_effect hx, newAssertion_effect hx']
    simp only [CaseFns.equalFold, he]
    rfl
  · intro domain action resource
    -- the resource splits at the same position
    have hsplit : ∀ {res res' : Str}, res'.map U.lower = res.map U.lower → res'.map U.fold = res.map U.fold →
        ∀ {rd rr : Str}, res = rd ++ ':' :: rr → ':' ∉ rd →
        ∃ rd' rr', res' = rd' ++ ':' :: rr' ∧ ':' ∉ rd' ∧ rd'.map U.fold = rd.map U.fold ∧ rr'.map U.lower = rr.map U.lower := by
      intro res res' hl hf rd rr hre hnd
      subst hre
      simp only [List.map_append, List.map_cons] at hl hf
      obtain ⟨l1, l2, rfl, h1, h2⟩ := List.map_eq_append_iff.mp hl
      obtain ⟨c, l3, rfl, h3, h4⟩ := List.map_eq_cons_iff.mp h2
      have hc := (hcolon c).1 h3
      subst hc
      have hlen : l1.length = rd.length := by simpa using congrArg List.length h1
      simp only [List.map_append, List.map_cons] at hf
      have hf1 := (List.append_inj hf (by simpa using hlen)).1
      refine ⟨l1, l3, rfl, ?_, hf1, h4⟩
      intro hmem
      have : U.fold ':' ∈ rd.map U.fold := by rw [← hf1]; exact List.mem_map_of_mem hmem
      obtain ⟨c, hc, hcf⟩ := List.mem_map.mp this
      rw [(hcolon c).2 hcf] at hc
      exact hnd hc
    apply Bool.eq_iff_iff.mpr
    rw [newAssertion_matches hx', newAssertion_matches hx, ha]
    constructor
    · rintro ⟨rd, rr, h1, h2, h3, h4, h5⟩
      obtain ⟨rd', rr', e1, e2, e3, e4⟩ := hsplit hrl.symm hrf.symm h1 h2
      exact ⟨rd', rr', e1, e2, by rw [e3, h3], h4, by rw [e4]; exact h5⟩
    · rintro ⟨rd, rr, h1, h2, h3, h4, h5⟩
      obtain ⟨rd', rr', e1, e2, e3, e4⟩ := hsplit hrl hrf h1 h2
      exact ⟨rd', rr', e1, e2, by rw [e3, h3], h4, by rw [e4]; exact h5⟩

example : (∀ c, (asciiCase.lower c = asciiCase.lower ':' → c = ':') ∧ (asciiCase.fold c = asciiCase.fold ':' → c = ':')) ∧
    "D:X".toList.map asciiCase.lower = "d:x".toList.map asciiCase.lower := by
  have h : ∀ c : Char, c.toLower = ':' → c = ':' := by
    intro c hc
    unfold Char.toLower at hc
    split at hc
    · rename_i hu
      exfalso
      have hv := congrArg (fun c : Char => c.val) hc
      simp at hv hu
      have h1 := UInt32.le_iff_toNat_le.mp hu.1
      have h2 := UInt32.le_iff_toNat_le.mp hu.2
      have h3 := congrArg UInt32.toNat hv
      rw [UInt32.toNat_add] at h3
      simp at h1 h2 h3
      omega
    · exact hc
  exact ⟨fun c => ⟨fun hc => h c (by simpa [asciiCase] using hc), fun hc => h c (by simpa [asciiCase] using hc)⟩, by decide⟩

/-- **C07**/**C08**. Role and domain are exact: only the cache entries at the exact strings `<domain>:role.<role>` of the caller's
roles influence the result. -/
theorem C07_exact_role (U : CaseFns) (q : CheckReq) (view view' : PolicyView)
    (h : ∀ r ∈ q.roles, view' (q.domain ++ ":role.".toList ++ r) = view (q.domain ++ ":role.".toList ++ r))
    (hE : EffectsOk q view) (s1 s2 : List CheckAct) (h1 : Undisturbed s1) (h2 : Undisturbed s2) (r1 r2 : Res (List Str))
    (hr1 : CheckReturns U q view s1 r1) (hr2 : CheckReturns U q view' s2 r2) : Spec.SameVerdict r1 r2 := by
  have hdec : ∀ r ∈ q.roles, ∀ e, Spec.Decides U q view' r e ↔ Spec.Decides U q view r e := by
    intro r hr e; unfold Spec.Decides; rw [h r hr]
  refine same_of_spec hE (C03_result U q view s1 h1 r1 hr1) ?_
  have := C03_result U q view' s2 h2 r2 hr2
  cases r2 with
  | panic => exact this
  | err e =>
    rcases this with ⟨r, hr, hd⟩ | ⟨_, hd⟩ | ⟨he, hd⟩
    · exact .inl ⟨r, hr, (hdec r hr _).mp hd⟩
    · exact hd.elim
    · exact .inr (.inr ⟨he, fun r hr e' hd' => hd r hr e' ((hdec r hr e').mpr hd')⟩)
  | ok rs =>
    obtain ⟨hne, hnd, f, hf, hp⟩ := this
    refine ⟨hne, fun r hr e hd => hnd r hr e ((hdec r hr _).mpr hd),
      fun r => decide (roleVerdict U q view r = some none), fun r => by simp [decides_iff], hp.trans (List.Perm.of_eq ?_)⟩
    apply List.filter_congr
    intro r hr
    have h1 := hf r
    rw [hdec r hr, decides_iff] at h1
    cases hfr : f r with
    | true => simp [h1.mp hfr]
    | false =>
      have : ¬ roleVerdict U q view r = some none := fun h' => by rw [h1.mpr h'] at hfr; simp at hfr
      simp [this]

/-! ## C08 unrelated assertions -/

/-- Specification: the assertion names one of the caller's roles and the caller's domain. -/
def Spec.Related (U : CaseFns) (q : CheckReq) (a : RawAssertion) : Prop :=
  (∃ r ∈ q.roles, a.role = q.domain ++ ":role.".toList ++ r) ∧
  ∃ rd rr, a.resource = rd ++ ':' :: rr ∧ ':' ∉ rd ∧ rd.map U.fold = q.domain.map U.fold

/-- Two caches that represent documents with the same related assertions decide alike. -/
theorem same_decision_of_rep {U : CaseFns} {q : CheckReq} {docs docs' : List (Option PolicyDoc)} {T0 T0' : Int} {s s' : UpdState}
    (hU : Updated U docs T0 s) (hU' : Updated U docs' T0' s') {t t' : Int}
    (hrep : ∀ role ∈ q.roles, RepKey U (allAssertions docs) (roleKey q.domain role) (viewOf s.rp t (roleKey q.domain role)))
    (hrep' : ∀ role ∈ q.roles, RepKey U (allAssertions docs') (roleKey q.domain role) (viewOf s'.rp t' (roleKey q.domain role)))
    (hrel : ∀ a, Spec.Related U q a → (a ∈ allAssertions docs ↔ a ∈ allAssertions docs'))
    {sched sched' : List CheckAct} (hs : Undisturbed sched) (hs' : Undisturbed sched') {r r' : Res (List Str)}
    (h : CheckReturns U q (viewOf s.rp t) sched r) (h' : CheckReturns U q (viewOf s'.rp t') sched' r') :
    ((∃ rs, r = .ok rs) ↔ ∃ rs, r' = .ok rs) ∧ (∀ e, r = .err e ↔ r' = .err e) := by
  have hden : ∀ role ∈ q.roles, Spec.Denied U (allAssertions docs) q.domain role q.action q.resource ↔
      Spec.Denied U (allAssertions docs') q.domain role q.action q.resource := by
    intro role hrole
    constructor
    · rintro ⟨a, ha, hap, hd⟩
      obtain ⟨rd, rr, e1, e2, e3, _⟩ := hap.2
      exact ⟨a, (hrel a ⟨⟨role, hrole, hap.1⟩, rd, rr, e1, e2, e3⟩).mp ha, hap, hd⟩
    · rintro ⟨a, ha, hap, hd⟩
      obtain ⟨rd, rr, e1, e2, e3, _⟩ := hap.2
      exact ⟨a, (hrel a ⟨⟨role, hrole, hap.1⟩, rd, rr, e1, e2, e3⟩).mpr ha, hap, hd⟩
  have hall : ∀ role ∈ q.roles, Spec.Allowed U (allAssertions docs) q.domain role q.action q.resource ↔
      Spec.Allowed U (allAssertions docs') q.domain role q.action q.resource := by
    intro role hrole
    constructor
    · rintro ⟨a, ha, hap, hd⟩
      obtain ⟨rd, rr, e1, e2, e3, _⟩ := hap.2
      exact ⟨a, (hrel a ⟨⟨role, hrole, hap.1⟩, rd, rr, e1, e2, e3⟩).mp ha, hap, hd⟩
    · rintro ⟨a, ha, hap, hd⟩
      obtain ⟨rd, rr, e1, e2, e3, _⟩ := hap.2
      exact ⟨a, (hrel a ⟨⟨role, hrole, hap.1⟩, rd, rr, e1, e2, e3⟩).mpr ha, hap, hd⟩
  obtain ⟨a1, a2, a3, _⟩ := decision_of_rep hrep hs h
  obtain ⟨b1, b2, b3, _⟩ := decision_of_rep hrep' hs' h'
  have hd : (∃ role ∈ q.roles, Spec.Denied U (allAssertions docs) q.domain role q.action q.resource) ↔
      ∃ role ∈ q.roles, Spec.Denied U (allAssertions docs') q.domain role q.action q.resource :=
    ⟨fun ⟨x, hx, hy⟩ => ⟨x, hx, (hden x hx).mp hy⟩, fun ⟨x, hx, hy⟩ => ⟨x, hx, (hden x hx).mpr hy⟩⟩
  have ha : (∃ role ∈ q.roles, Spec.Allowed U (allAssertions docs) q.domain role q.action q.resource) ↔
      ∃ role ∈ q.roles, Spec.Allowed U (allAssertions docs') q.domain role q.action q.resource :=
    ⟨fun ⟨x, hx, hy⟩ => ⟨x, hx, (hall x hx).mp hy⟩, fun ⟨x, hx, hy⟩ => ⟨x, hx, (hall x hx).mpr hy⟩⟩
  have hok : (∃ rs, r = .ok rs) ↔ ∃ rs, r' = .ok rs := by rw [a1, b1, hd, ha]
  have hdeny : r = .err .denyByPolicy ↔ r' = .err .denyByPolicy := by rw [a2, b2, hd]
  have hno : r = .err .noMatch ↔ r' = .err .noMatch := by
    rw [a3, b3]
    constructor
    · intro hh role hr; exact ⟨fun x => (hh role hr).1 ((hall role hr).mpr x), fun x => (hh role hr).2 ((hden role hr).mpr x)⟩
    · intro hh role hr; exact ⟨fun x => (hh role hr).1 ((hall role hr).mp x), fun x => (hh role hr).2 ((hden role hr).mp x)⟩
  refine ⟨hok, ?_⟩
  -- the only possible errors are these two
  have herr : ∀ (docs : List (Option PolicyDoc)) (T0 : Int) (s : UpdState) (t : Int) (sched : List CheckAct) (r : Res (List Str)),
      Updated U docs T0 s → Undisturbed sched → CheckReturns U q (viewOf s.rp t) sched r →
      ∀ e, r = .err e → e = .denyByPolicy ∨ e = .noMatch := by
    intro docs T0 s t sched r hU hs h e he
    subst he
    rcases C03_result U q _ sched hs _ h with ⟨role, _, hd⟩ | ⟨_, hd⟩ | ⟨he, _⟩
    · exact .inl (verdict_deny_sound (updated_sound hU t _) ((decides_iff ..).mp hd)).1
    · exact hd.elim
    · exact .inr he
  intro e
  constructor
  · intro he
    rcases herr docs T0 s t sched r hU hs h e he with rfl | rfl
    · exact hdeny.mp he
    · exact hno.mp he
  · intro he
    rcases herr docs' T0' s' t' sched' r' hU' hs' h' e he with rfl | rfl
    · exact hdeny.mpr he
    · exact hno.mpr he

/-- **C08**, for regular documents (see C01): if two sets of documents contain the same related assertions, then the decisions are
the same. Missing: irregular documents, where C01's race makes even the same document decide differently. -/
theorem C08_unrelated_partial (U : CaseFns) (q : CheckReq) (docs docs' : List (Option PolicyDoc)) (T0 T0' : Int) (s s' : UpdState)
    (hU : Updated U docs T0 s) (hR : Regular U docs T0 s.now) (hU' : Updated U docs' T0' s') (hR' : Regular U docs' T0' s'.now)
    (t t' : Int) (ht : ∀ d, some d ∈ docs → t ≤ d.expires) (ht' : ∀ d, some d ∈ docs' → t' ≤ d.expires)
    (hrel : ∀ a, Spec.Related U q a → (a ∈ allAssertions docs ↔ a ∈ allAssertions docs'))
    (sched sched' : List CheckAct) (hs : Undisturbed sched) (hs' : Undisturbed sched') (r r' : Res (List Str))
    (h : CheckReturns U q (viewOf s.rp t) sched r) (h' : CheckReturns U q (viewOf s'.rp t') sched' r') :
    ((∃ rs, r = .ok rs) ↔ ∃ rs, r' = .ok rs) ∧ (∀ e, r = .err e ↔ r' = .err e) :=
  same_decision_of_rep hU hU' (fun _ _ => updated_rep hU hR t ht _) (fun _ _ => updated_rep hU' hR' t' ht' _) hrel hs hs' h h'

/-- For the request of role `r` alone, the assertion about role `s` is unrelated and the one about `r` is related. -/
example : ¬ Spec.Related asciiCase Ex.reqR Ex.denyS ∧ Spec.Related asciiCase Ex.reqR Ex.allowR := by
  refine ⟨?_, ⟨"r".toList, by simp [Ex.reqR], by decide⟩, "d".toList, "x*".toList, by decide, by decide, by decide⟩
  rintro ⟨⟨r, hr, h⟩, _⟩
  simp [Ex.reqR] at hr
  subst hr
  exact absurd h (by decide)

/-! ## C10 merging -/

/-- **C10**, the full statement: whatever the interleaving, when the merge is finished there is a deny in the map for every triple
some policy denies. -/
def C10_statement : Prop :=
  ∀ (U : CaseFns) (d : PolicyDoc) (sched : List Nat) (s : MergeState), mergeRun U d.mergeInit sched = some s → s.finished = true →
    ∀ a ∈ d.policies.flatten, Spec.IsDeny U a →
      ∃ b ∈ s.map.map (·.2), b.role = a.role ∧ b.action = a.action ∧ b.resource = a.resource ∧ Spec.IsDeny U b

/-- **C10** is false for the code: the check-then-act race. -/
theorem C10_refuted : ¬ C10_statement := by
  intro h
  have h1 : ∃ s, mergeRun asciiCase Ex.raceDoc.mergeInit [0, 1, 1, 0] = some s ∧
      (s.finished && decide (s.map.map (·.2) = [Ex.allowR])) = true := Ex.exists_of_map (by decide +kernel)
  obtain ⟨s, hs, hp⟩ := h1
  simp only [Bool.and_eq_true, decide_eq_true_eq] at hp
  obtain ⟨b, hb, _, _, _, hd⟩ := h asciiCase Ex.raceDoc _ s hs hp.1 Ex.denyR (by simp [Ex.raceDoc]) (by decide)
  rw [hp.2] at hb
  simp at hb
  subst hb
  exact absurd hd (by decide)

/-- A document with one policy whose two denies have the same `km` because of a comma. -/
def Ex.commaDoc : PolicyDoc :=
  ⟨[[⟨"d:role.r".toList, "a,b".toList, "d:x".toList, "deny".toList⟩, ⟨"d:role.r".toList, "a".toList, "b,d:x".toList, "deny".toList⟩]],
   1000⟩

/-- **C10** is false even without concurrency when an action contains a comma: the map key is ambiguous and one deny replaces
another. -/
theorem C10_comma_refuted :
    ∃ s, mergeRun asciiCase Ex.commaDoc.mergeInit [0, 0, 0, 0] = some s ∧ s.finished = true ∧
      ∃ a ∈ Ex.commaDoc.policies.flatten, Spec.IsDeny asciiCase a ∧
        ¬ ∃ b ∈ s.map.map (·.2), b.role = a.role ∧ b.action = a.action ∧ b.resource = a.resource := by
  have h1 : ∃ s, mergeRun asciiCase Ex.commaDoc.mergeInit [0, 0, 0, 0] = some s ∧
      (s.finished && decide (s.map.map (·.2) =
        [⟨"d:role.r".toList, "a".toList, "b,d:x".toList, "deny".toList⟩])) = true := Ex.exists_of_map (by decide +kernel)
  obtain ⟨s, hs, hp⟩ := h1
  simp only [Bool.and_eq_true, decide_eq_true_eq] at hp
  refine ⟨s, hs, hp.1, ⟨"d:role.r".toList, "a,b".toList, "d:x".toList, "deny".toList⟩, by simp [Ex.commaDoc], by decide, ?_⟩
  rintro ⟨b, hb, _, h2, _⟩
  rw [hp.2] at hb
  simp at hb
  subst hb
  exact absurd h2 (by decide)

/-- The merge of a document under any interleaving without cancellation. -/
theorem mergeRun_merged {U : CaseFns} {d : PolicyDoc} {sched : List Nat} {s : MergeState}
    (h : mergeRun U d.mergeInit sched = some s) (hf : s.finished = true) : Merged U d (s.map.map (·.2)) := by
  obtain ⟨cons, hi⟩ := mergeRun_inv (mergeInit_inv U d) h
  refine hi.merged hf ?_
  -- without cancellation nobody fails
  have : ∀ (is : List Nat) (s s' : MergeState), s.failed = false → mergeRun U s is = some s' → s'.failed = false := by
    intro is
    induction is with
    | nil => intro s s' h0 h1; simp only [mergeRun, Option.some.injEq] at h1; subst h1; exact h0
    | cons i is ih =>
      intro s s' h0 h1
      simp only [mergeRun] at h1
      split at h1
      · simp at h1
      · rename_i s1 hs1
        refine ih s1 s' ?_ h1
        have hset : ∀ (t x : MThread), s.threads[i]? = some t → x.failed = t.failed →
            (s.threads.set i x).any (·.failed) = false := by
          intro t x ht hx
          rw [List.any_eq_false]
          intro y hy
          rcases mem_set_cases hy with hy | rfl
          · simp only [MergeState.failed, List.any_eq_false] at h0
            exact h0 y hy
          · rw [hx]
            simp only [MergeState.failed, List.any_eq_false] at h0
            exact h0 t (List.mem_of_getElem? ht)
        unfold mergeStep at hs1
        split at hs1
        · simp at hs1
        · rename_i t ht
          split at hs1
          · simp at hs1
          · simp only [Bool.false_eq_true, if_false, Option.some.injEq] at hs1; subst hs1
            exact hset t _ ht rfl
          · simp only at hs1
            split at hs1 <;>
            · simp only [Option.some.injEq] at hs1; subst hs1
              exact hset t _ ht rfl
  refine this sched _ s ?_ h
  simp [MergeState.failed, PolicyDoc.mergeInit]

/-- **C10**, what holds: no deny is lost if every policy that mentions a denied triple denies it, too, and no role or action contains
a comma. -/
theorem C10_no_deny_lost_partial (U : CaseFns) (d : PolicyDoc) (hR : DenySafe U d) (hC : CommaFree d.policies.flatten)
    (sched : List Nat) (s : MergeState) (h : mergeRun U d.mergeInit sched = some s) (hf : s.finished = true) :
    ∀ a ∈ d.policies.flatten, Spec.IsDeny U a →
      ∃ b ∈ s.map.map (·.2), b.role = a.role ∧ b.action = a.action ∧ b.resource = a.resource ∧ Spec.IsDeny U b := by
  intro a ha hd
  have hm := mergeRun_merged h hf
  obtain ⟨b, hb, hk, hbd⟩ := hm.deny a ha (hR.key hC ha ((isDeny_iff U a).mpr hd))
  obtain ⟨h1, h2, h3⟩ := key_inj hk (hC b (hm.sub b hb)) (hC a ha)
  exact ⟨b, hb, h1, h2, h3, (isDeny_iff U b).mp hbd⟩

example : DenySafe asciiCase Ex.doc ∧ CommaFree Ex.doc.policies.flatten ∧
    ∃ s, mergeRun asciiCase Ex.doc.mergeInit [0, 1, 1, 0] = some s ∧ s.finished = true := by
  refine ⟨Ex.doc_denySafe, ?_, Ex.exists_of_map (by decide +kernel)⟩
  intro a ha
  exact Ex.doc_commaFree a (mem_allAssertions.mpr ⟨Ex.doc, by simp, ha⟩)

/-- **C10**, what would hold with a lock around lines 337-343: if every goroutine's load and store happen without another goroutine
in between, then no deny is lost, for every document without commas in roles and actions. -/
theorem C10_atomic_partial (U : CaseFns) (d : PolicyDoc) (hC : CommaFree d.policies.flatten) (turns : List Nat) (s : MergeState)
    (h : mergeRun U d.mergeInit (turns.flatMap fun i => [i, i]) = some s) (hf : s.finished = true) :
    ∀ a ∈ d.policies.flatten, Spec.IsDeny U a →
      ∃ b ∈ s.map.map (·.2), b.role = a.role ∧ b.action = a.action ∧ b.resource = a.resource ∧ Spec.IsDeny U b := by
  intro a ha hd
  have hm := mergeRun_merged h hf
  obtain ⟨b, hb, hk, hbd⟩ := ((atomInit U d).run h).deny hf ha ((isDeny_iff U a).mpr hd)
  obtain ⟨h1, h2, h3⟩ := key_inj hk (hC b (hm.sub b hb)) (hC a ha)
  exact ⟨b, hb, h1, h2, h3, (isDeny_iff U b).mp hbd⟩

/-- The racing document merged in turns: the deny survives although the allow is merged last. -/
example : ∃ s, mergeRun asciiCase Ex.raceDoc.mergeInit ([1, 0].flatMap fun i => [i, i]) = some s ∧
    (s.finished && decide (s.map.map (·.2) = [Ex.denyR])) = true := Ex.exists_of_map (by decide +kernel)

/-- **C10**, for all documents and interleavings: the map contains nothing that is not in the document, at most one assertion per
key, and one for every key. -/
theorem C10_merge_sound (U : CaseFns) (d : PolicyDoc) (sched : List Nat) (s : MergeState)
    (h : mergeRun U d.mergeInit sched = some s) (hf : s.finished = true) :
    (∀ b ∈ s.map.map (·.2), b ∈ d.policies.flatten) ∧ ((s.map.map (·.2)).map Spec.joined).Nodup ∧
    ∀ a ∈ d.policies.flatten, ∃ b ∈ s.map.map (·.2), Spec.joined b = Spec.joined a := by
  have hm := mergeRun_merged h hf
  rw [show Spec.joined = RawAssertion.key from funext joined_eq]
  exact ⟨hm.sub, hm.nodup, hm.cover⟩

/-! ## C11 order -/

/-- **C11**. Two executions of an update over the same regular documents (any merge interleavings, any orders in which the entries
are visited, any interleaving of the domains) end with the same multiset of assertions for every role, denies first, and with the
same verdict on every role and request, at all times up to the expiry. -/
theorem C11_order_irrelevant_partial (U : CaseFns) (docs : List (Option PolicyDoc)) (T0 T0' : Int) (s s' : UpdState)
    (hU : Updated U docs T0 s) (hR : Regular U docs T0 s.now) (hU' : Updated U docs T0' s') (hR' : Regular U docs T0' s'.now)
    (t t' : Int) (ht : ∀ d, some d ∈ docs → t ≤ d.expires) (ht' : ∀ d, some d ∈ docs → t' ≤ d.expires) (k : Str) :
    (((viewOf s.rp t k).isSome ↔ (viewOf s'.rp t' k).isSome) ∧
      ((viewOf s.rp t k).getD []).Perm ((viewOf s'.rp t' k).getD [])) ∧
    (∀ l, viewOf s.rp t k = some l → ∃ ds as, l = ds ++ as ∧ (∀ x ∈ ds, x.effect ≠ none) ∧ ∀ x ∈ as, x.effect = none) ∧
    ∀ (q : CheckReq) (r : Str) (e : Option Err), Spec.Decides U q (viewOf s.rp t) r e ↔ Spec.Decides U q (viewOf s'.rp t') r e := by
  have hcontent : ∀ {T0 : Int} {s : UpdState}, Updated U docs T0 s → Regular U docs T0 s.now → ∀ t,
      (∀ d, some d ∈ docs → t ≤ d.expires) → ∀ a0 ∈ allAssertions docs, ∀ d, some d ∈ docs → a0 ∈ d.policies.flatten →
      ∃ filled l, Merged U d filled ∧ viewOf s.rp t a0.role = some l ∧ content U filled a0.role = some l := by
    intro T0 s hU hR t ht a0 ha0 d hd had
    have hrep := updated_rep hU hR t ht a0.role
    obtain ⟨sched, hrun, hok⟩ := hU
    have hinv := (updInit_inv U docs T0 s.now).run hR.frame hR.disjoint hrun (Int.le_refl _)
    obtain ⟨i, hi⟩ := List.mem_iff_getElem?.mp hd
    have hlt : i < s.jobs.length := by
      rw [hinv.len]
      by_cases hlt : i < docs.length
      · exact hlt
      · rw [List.getElem?_eq_none (by omega)] at hi; simp at hi
    have hj := List.getElem?_eq_getElem hlt
    have hdone := hok _ (List.getElem_mem hlt)
    rw [hdone] at hj
    obtain ⟨d', filled, h1, h2, h3, h4⟩ := hinv.jobs i _ _ hj hi
    simp only [Option.some.injEq] at h1
    subst h1
    obtain ⟨l, hl, _⟩ := hrep.complete a0 ha0 rfl
    refine ⟨filled, l, h2, hl, ?_⟩
    rcases h4 a0 had with ⟨hr, _⟩ | ⟨l', e, hr, hc, _, _⟩
    · simp [viewOf, Gache.get, hr] at hl
    · simp only [viewOf, Gache.get, hr] at hl
      split at hl
      · simp only [Option.some.injEq] at hl; subst hl; exact hc
      · simp at hl
  refine ⟨?_, ?_, ?_⟩
  · by_cases hk : ∃ a ∈ allAssertions docs, a.role = k
    · obtain ⟨a0, ha0, rfl⟩ := hk
      obtain ⟨d, hd, had⟩ := mem_allAssertions.mp ha0
      obtain ⟨f1, l1, hm1, hv1, hc1⟩ := hcontent hU hR t ht a0 ha0 d hd had
      obtain ⟨f2, l2, hm2, hv2, hc2⟩ := hcontent hU' hR' t' ht' a0 ha0 d hd had
      have p1 := content_perm U f1 a0.role
      have p2 := content_perm U f2 a0.role
      rw [hc1] at p1; rw [hc2] at p2
      simp only [Option.getD_some] at p1 p2
      have hCd : CommaFree d.policies.flatten := fun a ha => hR.commaFree a (mem_allAssertions.mpr ⟨d, hd, ha⟩)
      have := hm1.same hm2 (hR.denySafe d hd) hCd a0.role
      rw [hv1, hv2]
      exact ⟨by simp, p1.trans (this.trans p2.symm)⟩
    · have hno : ∀ {T0 : Int} {s : UpdState}, Updated U docs T0 s → Regular U docs T0 s.now → ∀ t, viewOf s.rp t k = none := by
        intro T0 s hU hR t
        obtain ⟨sched, hrun, _⟩ := hU
        have hinv := (updInit_inv U docs T0 s.now).run hR.frame hR.disjoint hrun (Int.le_refl _)
        have := hinv.outside k (fun a ha h => hk ⟨a, ha, h⟩)
        simp [viewOf, Gache.get, this]
      rw [hno hU hR t, hno hU' hR' t']
      simp
  · intro l hl
    obtain ⟨ds, as, h1, h2, h3⟩ := (updated_rep hU hR t ht k).denyFirst l hl
    exact ⟨ds, as, h1, fun x hx => by rw [h2 x hx]; simp, h3⟩
  · intro q r e
    rw [decides_iff, decides_iff]
    have v1 := verdict_rep (q := q) (updated_rep hU hR t ht (roleKey q.domain r))
    have v2 := verdict_rep (q := q) (updated_rep hU' hR' t' ht' (roleKey q.domain r))
    have : roleVerdict U q (viewOf s.rp t) r = roleVerdict U q (viewOf s'.rp t') r := by
      by_cases hd : Spec.Denied U (allAssertions docs) q.domain r q.action q.resource
      · rw [v1.1.mpr hd, v2.1.mpr hd]
      · by_cases ha : Spec.Allowed U (allAssertions docs) q.domain r q.action q.resource
        · rw [v1.2.1.mpr ⟨ha, hd⟩, v2.2.1.mpr ⟨ha, hd⟩]
        · rw [v1.2.2.mpr ⟨ha, hd⟩, v2.2.2.mpr ⟨ha, hd⟩]
    rw [this]

/-- Another execution over the same document as `Ex.upd`, visiting the entries in the other order. -/
example : ∃ s, Updated asciiCase [some Ex.doc] 10 s ∧ s.now = 10 := by
  obtain ⟨s, hs, hp⟩ := Ex.exists_of_map (o := updRun asciiCase (updInit 10 [some Ex.doc])
      [.job 0 [], .job 0 [], .merge 0 1, .merge 0 1, .merge 0 0, .merge 0 0, .job 0 [Ex.allowR, Ex.denyS], .job 0 [], .job 0 [], .job 0 [],
       .job 0 [], .job 0 []])
    (p := fun s => decide (s.jobs = [.done none]) && decide (s.now = 10)) (by decide +kernel)
  simp only [Bool.and_eq_true, decide_eq_true_eq] at hp
  exact ⟨s, ⟨_, hs, Ex.succeeded_of hp.1⟩, hp.2⟩

end Athenz
