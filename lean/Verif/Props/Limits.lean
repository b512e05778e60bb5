import Verif.Props.Policyd
import Verif.Proofs.Fill

/-! # C08, C11, C12: where the full statements fail, and what holds for every document -/

namespace Athenz

/-! ## C08 -/

/-- **C08**, the full statement for the decision: documents with the same related assertions decide alike. -/
def C08_statement : Prop :=
  ∀ (U : CaseFns) (q : CheckReq) (docs docs' : List (Option PolicyDoc)) (T0 T0' : Int) (s s' : UpdState) (t t' : Int)
    (sched sched' : List CheckAct) (r r' : Res (List Str)),
    Updated U docs T0 s → Updated U docs' T0' s' → Frame docs T0 s.now → Frame docs' T0' s'.now →
    RolesDisjoint docs → RolesDisjoint docs' → (∀ d, some d ∈ docs → DenySafe U d ∧ t ≤ d.expires) →
    (∀ d, some d ∈ docs' → DenySafe U d ∧ t' ≤ d.expires) →
    (∀ a, Spec.Related U q a → (a ∈ allAssertions docs ↔ a ∈ allAssertions docs')) →
    Undisturbed sched → Undisturbed sched' →
    CheckReturns U q (viewOf s.rp t) sched r → CheckReturns U q (viewOf s'.rp t') sched' r' →
    ((∃ rs, r = .ok rs) ↔ ∃ rs, r' = .ok rs)

namespace Ex

/-- Role `r` may read the resource `x,e:y`. -/
def commaAllow : RawAssertion := ⟨"d:role.r".toList, "read".toList, "d:x,e:y".toList, "allow".toList⟩
/-- An assertion about a resource of another domain, with the same `km`. -/
def commaOther : RawAssertion := ⟨"d:role.r".toList, "read,d:x".toList, "e:y".toList, "deny".toList⟩
def commaReq : CheckReq := ⟨"d".toList, ["r".toList], "read".toList, "x,e:y".toList⟩

def commaUpd : List UpdAct :=
  [.job 0 [], .job 0 [], .merge 0 0, .merge 0 0, .job 0 [commaAllow], .job 0 [], .job 0 [], .job 0 []]
def commaUpd' : List UpdAct :=
  [.job 0 [], .job 0 [], .merge 0 0, .merge 0 0, .merge 0 0, .merge 0 0, .job 0 [commaOther], .job 0 [], .job 0 [], .job 0 []]

def schedNo : List CheckAct := [.worker 0, .worker 0, .worker 0, .close, .recv]

theorem commaOther_unrelated : ¬ Spec.Related asciiCase commaReq commaOther := by
  rintro ⟨_, rd, rr, h1, h2, h3⟩
  obtain ⟨h4, _⟩ := append_sep_inj (c := ':') (a := "e".toList) (b := "y".toList) (by rw [← h1]; decide) (by decide) h2
  rw [← h4] at h3
  exact absurd h3 (by decide)

theorem single_frame {p : List RawAssertion} {T0 T : Int} (h0 : 0 ≤ T0) (h1 : T0 ≤ T) (h2 : T < 1000) :
    Frame [some ⟨[p], 1000⟩] T0 T := by
  refine ⟨h0, h1, ?_⟩
  intro d hd; simp at hd; subst hd; simp only; omega

end Ex

/-- **C08** is false for the code: the key of the assertion map joins role, action and resource with commas, so that an assertion
about another domain can take the place of the caller's. -/
theorem C08_refuted : ¬ C08_statement := by
  intro h
  obtain ⟨s, hs, hp⟩ := Ex.exists_of_map (o := updRun asciiCase (updInit 10 [some ⟨[[Ex.commaAllow]], 1000⟩]) Ex.commaUpd)
    (p := fun s => decide (s.jobs = [.done none]) && decide (s.now = 10) &&
      decide (Ex.checkRet asciiCase Ex.commaReq (viewOf s.rp 20) Ex.schedR = some (.ok ["r".toList]))) (by decide +kernel)
  obtain ⟨s', hs', hp'⟩ := Ex.exists_of_map
    (o := updRun asciiCase (updInit 10 [some ⟨[[Ex.commaAllow, Ex.commaOther]], 1000⟩]) Ex.commaUpd')
    (p := fun s => decide (s.jobs = [.done none]) && decide (s.now = 10) &&
      decide (Ex.checkRet asciiCase Ex.commaReq (viewOf s.rp 20) Ex.schedNo = some (.err .noMatch))) (by decide +kernel)
  simp only [Bool.and_eq_true, decide_eq_true_eq] at hp hp'
  have hund : Undisturbed Ex.schedR := by
    intro a ha; simp [Ex.schedR] at ha; rcases ha with rfl | rfl | rfl | rfl <;> trivial
  have hund' : Undisturbed Ex.schedNo := by
    intro a ha; simp [Ex.schedNo] at ha; rcases ha with rfl | rfl | rfl <;> trivial
  have := h asciiCase Ex.commaReq _ _ 10 10 s s' 20 20 _ _ _ _ ⟨_, hs, Ex.succeeded_of hp.1.1⟩ ⟨_, hs', Ex.succeeded_of hp'.1.1⟩
    (Ex.single_frame (by decide) (by omega) (by omega)) (Ex.single_frame (by decide) (by omega) (by omega))
    (Ex.single_disjoint _) (Ex.single_disjoint _)
    (by intro d hd; simp at hd; subst hd; exact ⟨Ex.single_policy_denySafe _ _ _, by decide⟩)
    (by intro d hd; simp at hd; subst hd; exact ⟨Ex.single_policy_denySafe _ _ _, by decide⟩)
    (by
      intro a hrel
      constructor
      · intro ha
        obtain ⟨d, hd, had⟩ := mem_allAssertions.mp ha
        simp at hd; subst hd
        exact mem_allAssertions.mpr ⟨_, by simp; rfl, by simp at had ⊢; exact .inl had⟩
      · intro ha
        obtain ⟨d, hd, had⟩ := mem_allAssertions.mp ha
        simp at hd; subst hd
        simp at had
        rcases had with had | rfl
        · exact mem_allAssertions.mpr ⟨_, by simp; rfl, by simp; exact had⟩
        · exact absurd hrel Ex.commaOther_unrelated)
    hund hund' (Ex.returns_of_ret hp.2) (Ex.returns_of_ret hp'.2)
  obtain ⟨rs, hrs⟩ := this.mp ⟨_, rfl⟩
  simp at hrs

/-! ## C11 -/

/-- **C11**, the full statement: two fill phases from the same merged map that take the same time end with the same multiset of
assertions for every role. -/
def C11_statement : Prop :=
  ∀ (U : CaseFns) (d : PolicyDoc) (m : MergeState) (T0 : Int) (sched sched' : List UpdAct) (s s' : UpdState), m.finished = true →
    updRun U (fillFrom d m T0) sched = some s → s.succeeded → updRun U (fillFrom d m T0) sched' = some s' → s'.succeeded →
    s.now = s'.now → ∀ k, ((viewOf s.rp s.now k).getD []).Perm ((viewOf s'.rp s'.now k).getD [])

namespace Ex

/-- What the merge of `hookDoc` leaves. -/
def slowMerge : MergeState := ⟨[(allowR.key, allowR), (denyXY.key, denyXY)], []⟩
/-- The clock passes the expiry while the cache is being filled. -/
def slowFill (order : List RawAssertion) : List UpdAct :=
  [.job 0 order, .job 0 [], .job 0 [], .tick 20, .job 0 [], .job 0 [], .job 0 []]

end Ex

/-- **C11** is false for the code: if the documents expire while the cache is being filled, then what was filled first is dropped,
and the order decides whether the deny or the allow is left. -/
theorem C11_refuted : ¬ C11_statement ∧
    ∃ s, updRun asciiCase (fillFrom (Ex.hookDoc 1000) Ex.slowMerge 990) (Ex.slowFill [Ex.denyXY, Ex.allowR]) = some s ∧ s.succeeded ∧
      CheckReturns asciiCase Ex.reqR (viewOf s.rp s.now) Ex.schedR (.ok ["r".toList]) := by
  obtain ⟨s, hs, hp⟩ := Ex.exists_of_map
    (o := updRun asciiCase (fillFrom (Ex.hookDoc 1000) Ex.slowMerge 990) (Ex.slowFill [Ex.denyXY, Ex.allowR]))
    (p := fun s => decide (s.jobs = [.done none]) && decide (s.now = 1010) &&
      decide (((viewOf s.rp 1010 "d:role.r".toList).getD []).map (·.effect) = [none]) &&
      decide (Ex.checkRet asciiCase Ex.reqR (viewOf s.rp 1010) Ex.schedR = some (.ok ["r".toList]))) (by decide +kernel)
  obtain ⟨s', hs', hp'⟩ := Ex.exists_of_map
    (o := updRun asciiCase (fillFrom (Ex.hookDoc 1000) Ex.slowMerge 990) (Ex.slowFill [Ex.allowR, Ex.denyXY]))
    (p := fun s => decide (s.jobs = [.done none]) && decide (s.now = 1010) &&
      decide (((viewOf s.rp 1010 "d:role.r".toList).getD []).map (·.effect) = [some .denyByPolicy])) (by decide +kernel)
  simp only [Bool.and_eq_true, decide_eq_true_eq] at hp hp'
  refine ⟨?_, s, hs, Ex.succeeded_of hp.1.1.1, by rw [hp.1.1.2]; exact Ex.returns_of_ret hp.2⟩
  intro h
  have := (h asciiCase (Ex.hookDoc 1000) Ex.slowMerge 990 _ _ s s' (by decide) hs (Ex.succeeded_of hp.1.1.1) hs'
    (Ex.succeeded_of hp'.1.1) (by rw [hp.1.1.2, hp'.1.2]) "d:role.r".toList).map (·.effect)
  rw [hp.1.1.2, hp'.1.2, hp.1.2, hp'.2] at this
  exact absurd this (by decide)

/-- **C11**, for every document (with any races and commas) and every merged map. Two fill phases visiting the entries in any two
orders end with the same multiset for every role, denies first, and with the same verdict on every role and request, provided that
during each of them the document stays valid, or had expired before (then nothing ever expires).
Missing: the document expires during the fill phase (`C11_refuted`). -/
theorem C11_fill_partial (U : CaseFns) (d : PolicyDoc) (m : MergeState) (hm : m.finished = true) (T0 T0' : Int)
    (sched sched' : List UpdAct) (s s' : UpdState) (hs : updRun U (fillFrom d m T0) sched = some s) (hok : s.succeeded)
    (hs' : updRun U (fillFrom d m T0') sched' = some s') (hok' : s'.succeeded) (t t' : Int)
    (hv : d.expires ≤ T0 ∨ (0 ≤ T0 ∧ s.now < d.expires ∧ d.expires + s.now < 2 ^ 63 ∧ t ≤ d.expires))
    (hv' : d.expires ≤ T0' ∨ (0 ≤ T0' ∧ s'.now < d.expires ∧ d.expires + s'.now < 2 ^ 63 ∧ t' ≤ d.expires)) :
    (∀ k, ((viewOf s.rp t k).isSome ↔ (viewOf s'.rp t' k).isSome) ∧
      ((viewOf s.rp t k).getD []).Perm ((viewOf s'.rp t' k).getD [])) ∧
    (∀ k, ((viewOf s.rp t k).getD []).Perm (((m.map.map (·.2)).filter fun a => a.role == k).filterMap (RawAssertion.conv U))) ∧
    (∀ k l, viewOf s.rp t k = some l → ∃ ds as, l = ds ++ as ∧ (∀ x ∈ ds, x.effect ≠ none) ∧ ∀ x ∈ as, x.effect = none) ∧
    ∀ (q : CheckReq) (r : Str) (e : Option Err), Spec.Decides U q (viewOf s.rp t) r e ↔ Spec.Decides U q (viewOf s'.rp t') r e := by
  have key : ∀ {T0 : Int} {sched : List UpdAct} {s : UpdState} {t : Int}, updRun U (fillFrom d m T0) sched = some s → s.succeeded →
      (d.expires ≤ T0 ∨ (0 ≤ T0 ∧ s.now < d.expires ∧ d.expires + s.now < 2 ^ 63 ∧ t ≤ d.expires)) →
      ∃ f, f.Perm (m.map.map (·.2)) ∧ (∀ a ∈ f, ∃ x, a.conv U = some x) ∧ ∀ k, viewOf s.rp t k = content U f k := by
    intro T0 sched s t hs hok hv
    rcases hv with hv | ⟨h1, h2, h3, h4⟩
    · obtain ⟨f, hf, hc, hcont⟩ := fill_content hm hs hok (keepsUntil_expired hv (max s.now t)) (by omega)
      exact ⟨f, hf, hc, hcont.get (by omega)⟩
    · obtain ⟨f, hf, hc, hcont⟩ := fill_content hm hs hok (keepsUntil_valid h1 h2 h3) (by omega)
      exact ⟨f, hf, hc, hcont.get h4⟩
  obtain ⟨f, hf, hc, hcont⟩ := key hs hok hv
  obtain ⟨f', hf', hc', hcont'⟩ := key hs' hok' hv'
  refine ⟨?_, ?_, ?_, ?_⟩
  · intro k
    rw [hcont k, hcont' k]
    exact content_of_perm (hf.trans hf'.symm) hc k
  · intro k
    rw [hcont k]
    exact (content_perm U f k).trans ((hf.filter _).filterMap _)
  · intro k l hl
    rw [hcont k] at hl
    obtain ⟨ds, as, h1, h2, h3⟩ := content_denyFirst U f k l hl
    exact ⟨ds, as, h1, fun x hx => by rw [h2 x hx]; simp, h3⟩
  · intro q r e
    rw [decides_iff, decides_iff]
    have r1 : RepKey U (m.map.map (·.2)) (roleKey q.domain r) (viewOf s.rp t (roleKey q.domain r)) := by
      rw [hcont]; exact content_rep hf hc _
    have r2 : RepKey U (m.map.map (·.2)) (roleKey q.domain r) (viewOf s'.rp t' (roleKey q.domain r)) := by
      rw [hcont']; exact content_rep hf' hc' _
    rw [verdict_rep_eq r1 r2]

/-- The merged map of `C11_refuted`, its document having expired before, visited in both orders: nothing is lost. -/
example : ∃ s s', updRun asciiCase (fillFrom (Ex.hookDoc 1000) Ex.slowMerge 1000) (Ex.slowFill [Ex.denyXY, Ex.allowR]) = some s ∧
    s.succeeded ∧ updRun asciiCase (fillFrom (Ex.hookDoc 1000) Ex.slowMerge 1005) (Ex.slowFill [Ex.allowR, Ex.denyXY]) = some s' ∧
    s'.succeeded ∧ Ex.slowMerge.finished = true ∧ ((viewOf s.rp 5000 "d:role.r".toList).getD []).length = 2 := by
  obtain ⟨s, hs, hp⟩ := Ex.exists_of_map
    (o := updRun asciiCase (fillFrom (Ex.hookDoc 1000) Ex.slowMerge 1000) (Ex.slowFill [Ex.denyXY, Ex.allowR]))
    (p := fun s => decide (s.jobs = [.done none]) && decide (((viewOf s.rp 5000 "d:role.r".toList).getD []).length = 2))
    (by decide +kernel)
  obtain ⟨s', hs', hp'⟩ := Ex.exists_of_map
    (o := updRun asciiCase (fillFrom (Ex.hookDoc 1000) Ex.slowMerge 1005) (Ex.slowFill [Ex.allowR, Ex.denyXY]))
    (p := fun s => decide (s.jobs = [.done none])) (by decide +kernel)
  simp only [Bool.and_eq_true, decide_eq_true_eq] at hp hp'
  exact ⟨s, s', hs, Ex.succeeded_of hp.1, hs', Ex.succeeded_of hp', by decide, hp.2⟩

/-- **C11**, deny first, in every history of the daemon: whatever documents, races, slow fills, background refreshes and expiries,
every list a check can find in any cache object has all denies before all allows, and every deny has the deny error. -/
theorem C11_deny_first (U : CaseFns) (n0 : Int) (domains : List Str) (sched : List PdAct) (s : PdState)
    (hr : pdRun U (pdInit n0 domains) sched = some s) (o : Nat) (g : Gache (List Assertion)) (ho : s.objs[o]? = some g) (t : Int)
    (k : Str) (l : List Assertion) (hl : viewOf g t k = some l) :
    ∃ ds as, l = ds ++ as ∧ (∀ x ∈ ds, x.effect = some .denyByPolicy) ∧ ∀ x ∈ as, x.effect = none := by
  have hps := (pdInit_sound U n0 domains).run hr
  have hlt : o < s.srcs.length := by rw [hps.len]; exact (List.getElem?_eq_some_iff.mp ho).1
  exact ((hps.objs o g _ ho (List.getElem?_eq_getElem hlt)).get t k).denyFirst l hl

/-- A history in which the second object holds a deny. -/
example : ∃ s g l, pdRun asciiCase (pdInit 10 ["d".toList]) Ex.pdPre = some s ∧ s.objs[1]? = some g ∧
    viewOf g 20 "d:role.s".toList = some l ∧ l.map (·.effect) = [some .denyByPolicy] := by
  obtain ⟨s, hs, hp⟩ := Ex.exists_of_map (o := pdRun asciiCase (pdInit 10 ["d".toList]) Ex.pdPre)
    (p := fun s => ((s.objs[1]?).bind fun g => (viewOf g 20 "d:role.s".toList).map fun l =>
      decide (l.map (·.effect) = [some .denyByPolicy])) == some true) (by decide +kernel)
  simp only [beq_iff_eq, Option.bind_eq_some_iff, Option.map_eq_some_iff, decide_eq_true_eq] at hp
  obtain ⟨g, hg, l, hl, he⟩ := hp
  exact ⟨s, g, l, hs, hg, hl, he⟩

/-! ## C12 -/

/-- **C12**, the full statement for changes: whatever happens, background refreshes included, only an `Update` that returns nil
changes what checks can see. -/
def C12_statement : Prop :=
  ∀ (U : CaseFns) (n0 : Int) (domains : List Str) (sched : List PdAct) (s : PdState) (a : PdAct) (s' : PdState),
    pdRun U (pdInit n0 domains) sched = some s → pdStep U s a = some s' →
    (∃ i t, a = .finish i ∧ s'.tasks[i]? = some t ∧ t.ret = some true ∧ s'.live = t.obj) ∨
    ∀ t, s'.now ≤ t → viewOf s'.liveObj t = viewOf s.liveObj t

/-- **C12**, the full statement for decisions: a check does not grant what the documents in force deny. -/
def C12_decision_statement : Prop :=
  ∀ (U : CaseFns) (n0 : Int) (domains : List Str) (pre post : List PdAct) (k : Nat) (s1 s2 s3 : PdState) (c : Chk) (rs : List Str),
    0 ≤ n0 → (∀ a ∈ pre ++ post, a.notHook) → pdRun U (pdInit n0 domains) pre = some s1 → pdStep U s1 (.load k) = some s2 →
    pdRun U s2 post = some s3 → s3.checks[k]? = some c → c.cs.coll = .ret (.ok rs) →
    (∀ d, some d ∈ s1.liveDocs → s3.now < d.expires ∧ d.expires + s3.now < 2 ^ 63) → RolesDisjoint s1.liveDocs →
    ¬ ∃ role ∈ c.q.roles, Spec.Denied U (allAssertions s1.liveDocs) c.q.domain role c.q.action c.q.resource

/-- **C12** is false for the code: the background refresh changes the published cache, one role at a time, without any `Update`. -/
theorem C12_refuted : ¬ C12_statement := by
  intro h
  obtain ⟨s, hs, hp⟩ := Ex.exists_of_map
    (o := pdRun asciiCase (pdInit 10 ["d".toList]) (Ex.hookSched.take (Ex.hookSched.length - 8)))
    (p := fun s => decide ((viewOf s.liveObj 2000 "d:role.r".toList).isSome = false) &&
      ((pdStep asciiCase s (.task 1 (.job 0 []))).map fun s' => decide (s'.now = 2000) &&
        decide ((viewOf s'.liveObj 2000 "d:role.r".toList).isSome = true)) == some true) (by decide +kernel)
  simp only [Bool.and_eq_true, decide_eq_true_eq, beq_iff_eq, Option.map_eq_some_iff] at hp
  obtain ⟨h1, s', hs', hn, h2⟩ := hp
  rcases h asciiCase 10 ["d".toList] _ s _ s' hs hs' with ⟨i, t, hf, _⟩ | hv
  · simp at hf
  · rw [hv 2000 (by omega), h1] at h2
    simp at h2

/-- **C12**, decisions: false because of the race of C10. -/
theorem C12_decision_refuted : ¬ C12_decision_statement := by
  intro h
  let upd := [PdAct.update [some Ex.raceDoc]] ++ Ex.raceUpd.map (PdAct.task 0) ++ [.finish 0, .check Ex.reqR]
  obtain ⟨s1, hs1, hp⟩ := Ex.exists_of_map (o := pdRun asciiCase (pdInit 10 ["d".toList]) upd)
    (p := fun s1 => decide (s1.liveDocs = [some Ex.raceDoc]) &&
      ((pdStep asciiCase s1 (.load 0)).bind fun s2 => (pdRun asciiCase s2 (Ex.schedR.map (.chk 0))).map
          fun s3 => decide (Ex.ck0 s3 = some (.ret (.ok ["r".toList]), Ex.reqR)) && decide (s3.now = 10)) == some true)
    (by decide +kernel)
  simp only [Bool.and_eq_true, decide_eq_true_eq, beq_iff_eq, Option.bind_eq_some_iff, Option.map_eq_some_iff] at hp
  obtain ⟨h1, s2, hs2, s3, hs3, hk, hn⟩ := hp
  obtain ⟨c, hc, hcoll, hq⟩ := Ex.ck0_some hk
  refine h asciiCase 10 ["d".toList] upd _ 0 s1 s2 s3 c _ (by decide) ?_ hs1 hs2 hs3 hc hcoll ?_ ?_ ?_
  · intro a ha
    simp [upd, Ex.raceUpd, Ex.schedR] at ha
    rcases ha with rfl | rfl | rfl | rfl | rfl | rfl | rfl | rfl | rfl | rfl | rfl | rfl <;> trivial
  · rw [h1]
    intro d hd
    simp at hd; subst hd
    rw [hn]; decide
  · rw [h1]; exact Ex.single_disjoint _
  · rw [h1, hq]
    exact ⟨"r".toList, by simp [Ex.reqR], Ex.denyR, mem_allAssertions.mpr ⟨Ex.raceDoc, by simp, by simp [Ex.raceDoc]⟩,
      Ex.denyR_applies, by decide⟩

end Athenz
