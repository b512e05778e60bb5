import Verif.Props.Fetch

/-! # C14 expired policies, and C19 (policy part) answers that crash the process -/

namespace Athenz

/-! ## C14 -/

/-- **C14**, the full statement for one domain and one update: if an update uses what `FetchWithRetry` returned, no check that starts
after the document's expiry is granted. -/
def C14_statement : Prop :=
  ∀ (U : CaseFns) (cfg : FetchCfg) (now : Int) (keys : KeyProvider) (h : List FAct) (fs : FState) (j : Nat) (call : FetchCall)
    (sp : SignedPolicy) (err : Option Err) (d : PolicyDoc),
    fRun cfg (fInit now keys) h = some fs → fs.calls[j]? = some call → call.retry = true → call.pc = .ret (some sp) err → Spec.PolicySays sp d →
    ∀ (domain : Str) (sched : List PdAct) (s : PdState), (∀ a ∈ sched, a.docs = []) →
      pdRun U (pdInit fs.now [domain]) (.update [some d] :: sched) = some s →
      ∀ (k : Nat) (c : Chk) (o : Nat) (t0 : Int) (g : Gache (List Assertion)) (rs : List Str), s.checks[k]? = some c →
        c.loaded = some (o, t0, g) → c.cs.coll = .ret (.ok rs) → t0 ≤ d.expires

namespace Ex

/-- A download at time 10 of a policy valid until 1000; at 5010 the server fails. -/
def outage : List FAct := firstFetch ++ [.tick 5000, .call true, .send 1, .answer 1 (.answer 503 [] []), .send 1,
  .answer 1 (.answer 503 [] []), .send 1, .answer 1 (.answer 503 [] []), .giveUp 1]

def outageSched : List PdAct :=
  [.task 0 (.job 0 []), .task 0 (.job 0 []), .task 0 (.merge 0 0), .task 0 (.merge 0 0), .task 0 (.job 0 [allowR]), .task 0 (.job 0 []), .task 0 (.job 0 []),
   .task 0 (.job 0 []), .finish 0, .tick 1000000000000, .check reqR, .load 0] ++
  schedR.map (.chk 0)

def loadTime (s : PdState) : Option Int := (s.checks[0]?).bind fun c => c.loaded.map fun p => p.2.1

end Ex

/-- **C14** is false: `FetchWithRetry` falls back to a policy that has expired (policy/fetcher.go:168-175), the non-positive lifetime
`Expires.Sub(now)` (policy/daemon.go:379) makes its cache entry immortal, and it authorizes for ever. -/
theorem C14_refuted : ¬ C14_statement := by
  intro hst
  obtain ⟨fs, hf, hp⟩ := Ex.exists_of_map (o := fRun Ex.fcfg (fInit 10 Ex.keys) Ex.outage)
    (p := fun s => decide (s.calls[1]? = some (FetchCall.mk true (.ret (some (Ex.signed 1000 [Ex.allowR])) (some .fetchPolicy)))) && decide (s.now = 5010))
    (by decide +kernel)
  simp only [Bool.and_eq_true, decide_eq_true_eq] at hp
  obtain ⟨s, hs, hq⟩ := Ex.exists_of_map
    (o := pdRun asciiCase (pdInit 5010 ["d".toList]) (.update [some ⟨[[Ex.allowR]], 1000⟩] :: Ex.outageSched))
    (p := fun s => decide (Ex.ck0 s = some (.ret (.ok ["r".toList]), Ex.reqR)) && decide (Ex.loadTime s = some 1000000005010)) (by decide +kernel)
  simp only [Bool.and_eq_true, decide_eq_true_eq] at hq
  obtain ⟨c, hc, hcoll, _⟩ := Ex.ck0_some hq.1
  have hl := hq.2
  simp only [Ex.loadTime, hc, Option.bind_some, Option.map_eq_some_iff] at hl
  obtain ⟨⟨o, t0, g⟩, hl, ht⟩ := hl
  simp only at ht
  subst ht
  have := hst asciiCase Ex.fcfg 10 Ex.keys Ex.outage fs 1 _ _ _ ⟨[[Ex.allowR]], 1000⟩ hf hp.1 rfl rfl (docOf_iff.mp (by decide +kernel)) "d".toList
    Ex.outageSched s (by decide +kernel) (by rw [hp.2]; exact hs) 0 c o _ g _ hc hl hcoll
  simp at this

/-- What an entry of a finished update can outlive. -/
theorem updated_lifetime {U : CaseFns} {docs : List (Option PolicyDoc)} {T0 : Int} {u : UpdState} (hU : Updated U docs T0 u)
    (hF : Frame docs T0 u.now) (hD : RolesDisjoint docs) {t : Int} {k : Str} {l : List Assertion} (hv : viewOf u.rp t k = some l) :
    ∃ d, some d ∈ docs ∧ (∃ a ∈ d.policies.flatten, a.role = k) ∧ t ≤ d.expires + (u.now - T0) := by
  obtain ⟨sched, hrun, hok⟩ := hU
  have hinv := (updInit_inv U docs T0 u.now).run hF hD hrun (Int.le_refl _)
  by_cases hk : ∃ a ∈ allAssertions docs, a.role = k
  · obtain ⟨a0, ha0, rfl⟩ := hk
    obtain ⟨d, hd, had⟩ := mem_allAssertions.mp ha0
    obtain ⟨i, hi⟩ := List.mem_iff_getElem?.mp hd
    have hlt : i < u.jobs.length := by rw [hinv.len]; exact (List.getElem?_eq_some_iff.mp hi).1
    have hj := List.getElem?_eq_getElem hlt
    rw [hok _ (List.getElem_mem hlt)] at hj
    obtain ⟨d', filled, h1, h2, h3, h4⟩ := hinv.jobs i _ _ hj hi
    simp only [Option.some.injEq] at h1
    subst h1
    refine ⟨d, hd, ⟨a0, had, rfl⟩, ?_⟩
    have hval := hF.valid d hd
    have hp := hF.pos
    have hle := hF.le
    rcases h4 a0 had with ⟨hr, _⟩ | ⟨l', e, hr, _, he, he'⟩
    · simp [viewOf, Gache.get, hr] at hv
    · simp only [viewOf, Gache.get, hr] at hv
      split at hv
      · rename_i hx
        simp only [Gache.valid, Bool.or_eq_true, decide_eq_true_eq] at hx
        omega
      · simp at hv
  · have := hinv.outside k (fun a ha h => hk ⟨a, ha, h⟩)
    simp [viewOf, Gache.get, this] at hv

/-- Every assertion about a role stands in the one document that speaks about the role. -/
theorem disjoint_same {docs : List (Option PolicyDoc)} (hD : RolesDisjoint docs) {d : PolicyDoc} (hd : some d ∈ docs)
    {a b : RawAssertion} (ha : a ∈ d.policies.flatten) (hb : b ∈ allAssertions docs) (hr : b.role = a.role) : b ∈ d.policies.flatten := by
  obtain ⟨d', hd', hb'⟩ := mem_allAssertions.mp hb
  obtain ⟨i, hi⟩ := List.mem_iff_getElem?.mp hd
  obtain ⟨j, hj⟩ := List.mem_iff_getElem?.mp hd'
  by_cases hij : i = j
  · subst hij; rw [hi] at hj; simp only [Option.some.injEq] at hj; subst hj; exact hb'
  · exact absurd hr.symm (hD i j d d' hij hi hj a ha b hb')

/-- **C14**, for a finished update over documents that were valid while it ran, and that speak about different roles: a role granted
by a check that looked at the cache at times not before `t0` has an applying allow assertion in a document of which `t0` is not later
than the expiry, up to the time the update took.  Missing: the duration of the update, documents that expire before the update is
finished (`C14_refuted`) and background refreshes (`C13_stale_refuted`). -/
theorem C14_update_partial (U : CaseFns) (docs : List (Option PolicyDoc)) (T0 : Int) (u : UpdState) (hU : Updated U docs T0 u)
    (hF : Frame docs T0 u.now) (hD : RolesDisjoint docs) (q : CheckReq) (t0 : Int) (sched : List CheckAct)
    (hs : ∀ v, CheckAct.mutate v ∈ sched → ∃ t, t0 ≤ t ∧ v = viewOf u.rp t) (rs : List Str)
    (h : CheckReturns U q (viewOf u.rp t0) sched (.ok rs)) :
    ∀ role ∈ rs, ∃ d, some d ∈ docs ∧ Spec.Allowed U d.policies.flatten q.domain role q.action q.resource ∧
      t0 ≤ d.expires + (u.now - T0) := by
  obtain ⟨_, hall, _⟩ := C04_changing_cache U q (fun v => ∃ t, t0 ≤ t ∧ v = viewOf u.rp t) _ ⟨t0, Int.le_refl _, rfl⟩ sched hs rs h
  intro role hrole
  obtain ⟨_, v, ⟨t, ht, rfl⟩, hd⟩ := hall role hrole
  have hdec := (decides_iff ..).mp hd
  obtain ⟨a, ha, hap, hnd⟩ := verdict_allow_sound (updated_sound hU t _) hdec
  simp only [roleVerdict, Option.bind_eq_some_iff] at hdec
  obtain ⟨l, hl, _⟩ := hdec
  obtain ⟨d, hdm, ⟨b, hb, hbr⟩, hexp⟩ := updated_lifetime hU hF hD hl
  refine ⟨d, hdm, ⟨a, disjoint_same hD hdm hb ha ?_, hap, hnd⟩, by omega⟩
  rw [hbr, hap.1]
  rfl

/-- **C14**, in the daemon: in every history without background refresh, a check that loaded the pointer in `s1` and is granted
is granted by documents of the published version, fetched by an update that ran from `T0` to `u.now` (`Updated`), and if
these were valid during the update and speak about different roles, one of them allows the role and had not expired at the load by more
than the duration of the update. -/
theorem C14_daemon_partial (U : CaseFns) (n0 : Int) (domains : List Str) (pre post : List PdAct) (k : Nat)
    (hnh : ∀ a ∈ pre ++ post, a.notHook) (s1 s2 s3 : PdState) (h1 : pdRun U (pdInit n0 domains) pre = some s1)
    (h2 : pdStep U s1 (.load k) = some s2) (h3 : pdRun U s2 post = some s3) (c : Chk) (hc : s3.checks[k]? = some c)
    (rs : List Str) (hret : c.cs.coll = .ret (.ok rs)) :
    ∃ T0 u, n0 ≤ T0 ∧ u.now ≤ s1.now ∧ Updated U s1.liveDocs T0 u ∧
      (Frame s1.liveDocs T0 u.now → RolesDisjoint s1.liveDocs → ∀ role ∈ rs, ∃ d, some d ∈ s1.liveDocs ∧
        Spec.Allowed U d.policies.flatten c.q.domain role c.q.action c.q.resource ∧ s1.now ≤ d.expires + (u.now - T0)) := by
  obtain ⟨sched, hcr, hm⟩ := C12_check_one_version U n0 domains pre post k hnh s1 s2 s3 h1 h2 h3 c hc _ hret
  rcases C12_live_is_version U n0 domains pre (fun a ha => hnh a (by simp [ha])) s1 h1 with ⟨_, e2, _⟩ | ⟨T0, u, hT0, hun, hU, _, hsame⟩
  · -- nothing published: nothing granted
    exfalso
    have hst : ∀ v, CheckAct.mutate v ∈ sched → v = viewOf Gache.empty s1.now := by
      intro v hv
      obtain ⟨t, _, _, rfl⟩ := hm v hv
      rw [e2]; rfl
    rw [e2] at hcr
    obtain ⟨hne, hall, _⟩ := C04_changing_cache U c.q (fun v => v = viewOf Gache.empty s1.now) _ rfl sched hst rs hcr
    cases rs with
    | nil => exact hne rfl
    | cons r rs =>
      obtain ⟨_, v, rfl, hd⟩ := hall r (by simp)
      have := (decides_iff ..).mp hd
      simp [roleVerdict, viewOf, Gache.get, Gache.empty] at this
  · refine ⟨T0, u, hT0, hun, hU, fun hF hD => ?_⟩
    rw [hsame s1.now (Int.le_refl _)] at hcr
    refine C14_update_partial U _ T0 u hU hF hD c.q s1.now sched ?_ rs hcr
    intro v hv
    obtain ⟨t, ht, _, rfl⟩ := hm v hv
    exact ⟨t, ht, hsame t ht⟩

/-- The grant of the example, shortly before the expiry. -/
example : ∃ s, Updated asciiCase [some Ex.doc] 10 s ∧ Frame [some Ex.doc] 10 s.now ∧ RolesDisjoint [some Ex.doc] ∧
    CheckReturns asciiCase Ex.reqR (viewOf s.rp 20) Ex.schedR (.ok ["r".toList]) := by
  obtain ⟨s, hs, hok, hn, hr, _⟩ := Ex.upd_run
  exact ⟨s, ⟨_, hs, hok⟩, by rw [hn]; exact Ex.doc_frame, Ex.single_disjoint _, hr⟩

/-- The histories of `C12_check_decision_partial` meet the hypotheses of `C14_daemon_partial`. -/
example : ∃ s1 s2 s3 c, pdRun asciiCase (pdInit 10 ["d".toList]) Ex.pdPre = some s1 ∧ pdStep asciiCase s1 (.load 0) = some s2 ∧
    pdRun asciiCase s2 (Ex.schedR.map (.chk 0)) = some s3 ∧ s3.checks[0]? = some c ∧ c.cs.coll = .ret (.ok ["r".toList]) := by
  obtain ⟨s3, hs, hp⟩ := Ex.exists_of_map (o := pdRun asciiCase (pdInit 10 ["d".toList]) (Ex.pdPre ++ PdAct.load 0 :: Ex.schedR.map (.chk 0)))
    (p := fun s => decide (Ex.ck0 s = some (.ret (.ok ["r".toList]), Ex.reqR))) (by decide +kernel)
  simp only [decide_eq_true_eq] at hp
  obtain ⟨c, hc, hcoll, _⟩ := Ex.ck0_some hp
  rw [pdRun_append] at hs
  simp only [Option.bind_eq_some_iff, pdRun] at hs
  obtain ⟨s1, h1, h2⟩ := hs
  split at h2
  · simp at h2
  · rename_i s2 hs2
    exact ⟨s1, s2, s3, c, h1, hs2, h2, hc, hcoll⟩

/-! ## C19, policy part -/

/-- **C19**, the full statement for the policy fetcher: no answer of the server kills the process. -/
def C19_fetch_statement : Prop :=
  ∀ (cfg : FetchCfg) (now : Int) (keys : KeyProvider) (h : List FAct) (s : FState), fRun cfg (fInit now keys) h = some s → s.crashed = false

/-- **C19** is false: a 304 answer to the very first request dereferences a nil pointer (policy/fetcher.go:113). -/
theorem C19_fetch_refuted : ¬ C19_fetch_statement := by
  intro hst
  obtain ⟨s, hs, hp⟩ := Ex.exists_of_map (o := fRun Ex.fcfg (fInit 10 Ex.keys) [.call true, .send 0, .answer 0 (.answer 304 [] [])])
    (p := fun s => s.crashed) (by decide +kernel)
  rw [hst _ _ _ _ s hs] at hp
  simp at hp

/-- **C19** is false: so does a body that is the JSON text `null` (policy/fetcher.go:125, policy/signed_policy.go:38). -/
theorem C19_null_refuted : ∃ h s, fRun Ex.fcfg (fInit 10 Ex.keys) h = some s ∧ s.crashed = true ∧
    ∀ j t b, FAct.answer j (.answer 304 t b) ∉ h := by
  obtain ⟨s, hs, hp⟩ := Ex.exists_of_map
    (o := fRun Ex.fcfg (fInit 10 Ex.keys) [.call true, .send 0, .answer 0 (.answer 200 [] "null".toList)]) (p := fun s => s.crashed) (by decide +kernel)
  exact ⟨_, s, hs, hp, by simp⟩

/-- **C19** is false: a document that passes the verification kills the process when it has no policy data, or when a policy or an
assertion in it is `null` (policy/daemon.go:328-336). -/
theorem C19_document_refuted : ∃ C keys now sp, Spec.Verified C keys now sp ∧ docOf sp = .panic := by
  refine ⟨Ex.codec, Ex.keys, 10,
    { data := some { policyData := none, zmsSignature := "zms-sig".toList, zmsKeyId := "0".toList, expires := some 1000 },
      signature := "zts-sig".toList, keyId := "1".toList }, ?_, rfl⟩
  rw [← verifyPolicy_ok]
  decide +kernel

/-- **C19**, exactly which answers kill the process in the fetcher: a 304 to a request before which nothing was ever downloaded, and
the text `null` as body of a 200.  Missing: that there are none. -/
theorem C19_fetch_partial (cfg : FetchCfg) (s s' : FState) (hn : s.crashed = false) (a : FAct) (hs : fStep cfg s a = some s') :
    s'.crashed = true ↔ ∃ j c i tp t b, s.calls[j]? = some c ∧ c.pc = .sent i tp ∧
      ((a = .answer j (.answer 304 t b) ∧ tp = none) ∨ (a = .answer j (.answer 200 t b) ∧ cfg.codec.decode b = some none)) := by
  unfold fStep at hs
  simp only [hn, Bool.false_eq_true, if_false] at hs
  cases a with
  | answer j r =>
    simp only at hs
    split at hs
    · rename_i retry i tp hc
      rcases fetchAnswer_cases cfg tp s.keys s.now r with ⟨e, hf, hn304, hnv⟩ | ⟨hf, hpan⟩ | ⟨t, e, b, rfl, rfl, hf⟩ |
        ⟨t, b, sp, d, e, rfl, hdec, hver, hd, he, hf⟩ <;> rw [hf] at hs <;> simp only at hs
      · have : s'.crashed = false := by
          split at hs <;> (simp only [Option.some.injEq] at hs; subst hs; rfl)
        simp only [this, Bool.false_eq_true, false_iff]
        rintro ⟨j', c, i', tp', t, b, hc', hp', (⟨ha, _⟩ | ⟨ha, hd⟩)⟩
        · simp only [FAct.answer.injEq] at ha; exact hn304 t b ha.2
        · simp only [FAct.answer.injEq] at ha
          obtain ⟨rfl, rfl⟩ := ha
          simp [fetchAnswer, hd, verifyPolicy] at hf
      · simp only [Option.some.injEq] at hs; subst hs
        simp only [true_iff]
        rcases hpan with ⟨rfl, t, b, rfl⟩ | ⟨t, b, rfl, hd⟩
        · exact ⟨j, _, i, none, t, b, hc, rfl, .inl ⟨rfl, rfl⟩⟩
        · exact ⟨j, _, i, tp, t, b, hc, rfl, .inr ⟨rfl, hd⟩⟩
      · simp only [Option.some.injEq] at hs; subst hs
        simp only [Bool.false_eq_true, false_iff]
        rintro ⟨j', c, i', tp', t', b', hc', hp', (⟨ha, rfl⟩ | ⟨ha, hd⟩)⟩
        · simp only [FAct.answer.injEq] at ha
          obtain ⟨rfl, _⟩ := ha
          rw [hc] at hc'
          simp only [Option.some.injEq] at hc'
          rw [← hc'] at hp'; simp at hp'
        · simp at ha
      · simp only [Option.some.injEq] at hs; subst hs
        simp only [Bool.false_eq_true, false_iff]
        rintro ⟨j', c, i', tp', t', b', hc', hp', (⟨ha, rfl⟩ | ⟨ha, hd'⟩)⟩
        · simp at ha
        · simp only [FAct.answer.injEq, HttpResult.answer.injEq] at ha
          rw [← ha.2.2.2, hdec] at hd'; simp at hd'
    · simp at hs
  | _ =>
    have : s'.crashed = false := by
      simp only at hs
      repeat' split at hs
      all_goals first
        | (simp at hs; done)
        | (simp only [Option.some.injEq] at hs; subst hs; rfl)
    simp only [this, Bool.false_eq_true, false_iff]
    rintro ⟨j', c, i', tp', t', b', hc', hp', (⟨ha, _⟩ | ⟨ha, _⟩)⟩ <;> simp at ha

theorem mapM_isSome {α β : Type} {f : α → Option β} {l : List α} : (l.mapM f).isSome ↔ ∀ x ∈ l, (f x).isSome := by
  induction l with
  | nil => simp
  | cons a as ih =>
    simp only [List.mapM_cons, List.mem_cons, forall_eq_or_imp]
    cases h1 : f a with
    | none => simp
    | some b =>
      cases h2 : as.mapM f with
      | none => simp [h2] at ih ⊢; exact ih
      | some bs => simp [h2] at ih ⊢; exact ih

/-- **C19**, exactly which verified documents kill the process: those without policy data, with a `null` policy or with a `null`
assertion. -/
theorem C19_document_partial (C : Codec) (keys : KeyProvider) (now : Int) (sp : SignedPolicy) (hv : Spec.Verified C keys now sp) :
    docOf sp = .panic ↔ ∃ d, sp.data = some d ∧ (d.policyData = none ∨ ∃ pd, d.policyData = some pd ∧
      (none ∈ pd.policies ∨ ∃ p, some p ∈ pd.policies ∧ none ∈ p.assertions)) := by
  obtain ⟨d, e, hd, he, _⟩ := hv
  simp only [docOf, hd, he, Option.some.injEq, exists_eq_left']
  cases hpd : d.policyData with
  | none => simp
  | some pd =>
    simp only [reduceCtorEq, false_or, Option.some.injEq, exists_eq_left']
    have key := mapM_isSome (f := fun (p : Option RawPolicy) => p.bind fun p => p.assertions.mapM id) (l := pd.policies)
    have key2 : ∀ p : RawPolicy, (p.assertions.mapM id).isSome ↔ none ∉ p.assertions := by
      intro p
      rw [mapM_isSome]
      constructor
      · intro h hn; simpa using h none hn
      · intro h x hx
        cases x with
        | none => exact absurd hx h
        | some a => rfl
    have bad : (∃ x ∈ pd.policies, ¬ (x.bind fun p => p.assertions.mapM id).isSome) ↔
        (none ∈ pd.policies ∨ ∃ p, some p ∈ pd.policies ∧ none ∈ p.assertions) := by
      constructor
      · rintro ⟨x, hx, hn⟩
        cases x with
        | none => exact .inl hx
        | some p =>
          rw [Option.bind_some, key2, Classical.not_not] at hn
          exact .inr ⟨p, hx, hn⟩
      · rintro (h | ⟨p, hp, hn⟩)
        · exact ⟨none, h, by simp⟩
        · exact ⟨some p, hp, by rw [Option.bind_some, key2, Classical.not_not]; exact hn⟩
    rw [← bad]
    split
    · rename_i ps hps
      rw [hps] at key
      simp only [Option.isSome_some, true_iff] at key
      simp only [reduceCtorEq, false_iff]
      rintro ⟨x, hx, hn⟩
      exact hn (key x hx)
    · rename_i hps
      rw [hps] at key
      simp only [Option.isSome_none, Bool.false_eq_true, false_iff, Classical.not_forall] at key
      obtain ⟨x, hx, hn⟩ := key
      simp only [true_iff]
      exact ⟨x, hx, hn⟩

example : Spec.Verified Ex.codec Ex.keys 10 (Ex.signed 1000 [Ex.allowR]) ∧ docOf (Ex.signed 1000 [Ex.allowR]) = .ok ⟨[[Ex.allowR]], 1000⟩ := by
  rw [← verifyPolicy_ok]
  decide +kernel

end Athenz
