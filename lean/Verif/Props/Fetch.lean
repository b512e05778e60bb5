import Verif.Proofs.Fetcher
import Verif.Props.Policyd

/-! # C15–C19: downloading and verifying policies (policy part of C19) -/

namespace Athenz

/-! ## A concrete setting -/

namespace Ex

def signed (expires : Int) (ass : List RawAssertion) : SignedPolicy :=
  { data := some { policyData := some ⟨"d".toList, [some ⟨ass.map some⟩]⟩, zmsSignature := "zms-sig".toList, zmsKeyId := "0".toList,
                   expires := some expires },
    signature := "zts-sig".toList, keyId := "1".toList }

/-- A codec that knows three texts. -/
def codec : Codec :=
  { marshalSigned := fun _ => some "SPD".toList
    marshalPolicy := fun _ => some "PD".toList
    decode := fun b => if b = "null".toList then some none
      else if b = "A".toList then some (some (signed 1000 [allowR])) else if b = "B".toList then some (some (signed 2000 [])) else none }

/-- Key 1 of ZTS and key 0 of ZMS, each accepting one signature. -/
def keys : KeyProvider := fun env id =>
  match env with
  | .zts => if id = "1".toList then some (fun t s => t == "SPD".toList && s == "zts-sig".toList) else none
  | .zms => if id = "0".toList then some (fun t s => t == "PD".toList && s == "zms-sig".toList) else none

def fcfg : FetchCfg := { codec := codec, expiryMargin := 100, retryAttempts := 2 }

/-- One download of the text `A` with ETag `t1`. -/
def firstFetch : List FAct := [.call false, .send 0, .answer 0 (.answer 200 "t1".toList "A".toList)]

def fpc (s : FState) (j : Nat) : Option FetchPc := (s.calls[j]?).map (·.pc)

end Ex

/-! ## C16 verification is complete -/

/-- **C16**. `Verify` accepts a document if and only if it is `Spec.Verified`; it refuses the others with an error. -/
theorem C16_verify (C : Codec) (keys : KeyProvider) (now : Int) (sp : SignedPolicy) :
    (verifyPolicy C keys now (some sp) = .ok () ↔ Spec.Verified C keys now sp) ∧
    (¬ Spec.Verified C keys now sp → ∃ e, verifyPolicy C keys now (some sp) = .err e) := by
  refine ⟨verifyPolicy_ok, fun hn => ?_⟩
  cases h : verifyPolicy C keys now (some sp) with
  | ok u => exact absurd (verifyPolicy_ok.mp h) hn
  | err e => exact ⟨e, rfl⟩
  | panic => exact absurd h verifyPolicy_no_panic

/-- One document verifies one nanosecond before its expiry and not at it. -/
example : Spec.Verified Ex.codec Ex.keys 999 (Ex.signed 1000 [Ex.allowR]) ∧ ¬ Spec.Verified Ex.codec Ex.keys 1000 (Ex.signed 1000 [Ex.allowR]) := by
  rw [← verifyPolicy_ok, ← verifyPolicy_ok]
  decide +kernel

/-! ## C15 only verified policies are used -/

/-- **C15**. A policy that a `Fetch` or `FetchWithRetry` call returns, with or without error, after any history, arrived at some moment
of that history in a `200 OK` answer and passed the complete verification with the clock and the keys of that moment. -/
theorem C15_only_verified (cfg : FetchCfg) (now : Int) (keys : KeyProvider) (h : List FAct) (s : FState)
    (hr : fRun cfg (fInit now keys) h = some s) (j : Nat) (c : FetchCall) (hc : s.calls[j]? = some c) (sp : SignedPolicy)
    (err : Option Err) (hret : c.pc = .ret (some sp) err) :
    ∃ pre j' eTag body post s', h = pre ++ .answer j' (.answer 200 eTag body) :: post ∧
      fRun cfg (fInit now keys) pre = some s' ∧ cfg.codec.decode body = some (some sp) ∧
      Spec.Verified cfg.codec s'.keys s'.now sp := by
  have := (fInv_run hr).calls j c hc
  unfold CallOk at this
  rw [hret] at this
  obtain ⟨t, pre, a, post, s', rfl, hp, j', b, rfl, _, hd, hv⟩ := this.1 sp rfl
  exact ⟨pre, j', t, b, post, s', rfl, hp, hd, hv⟩

/-- After a download, failing keys and failing answers, `FetchWithRetry` still returns the policy, with an error. -/
example : ∃ s c, fRun Ex.fcfg (fInit 10 Ex.keys) (Ex.firstFetch ++ [.setKeys (fun _ _ => none), .call true, .send 1,
      .answer 1 (.answer 200 [] "B".toList), .send 1, .answer 1 (.fail .ctx), .send 1, .answer 1 (.answer 500 [] []), .giveUp 1]) = some s ∧
    s.calls[1]? = some c ∧ c.pc = .ret (some (Ex.signed 1000 [Ex.allowR])) (some .fetchPolicy) := by
  obtain ⟨s, hs, hp⟩ := Ex.exists_of_map (o := fRun Ex.fcfg (fInit 10 Ex.keys) (Ex.firstFetch ++ [.setKeys (fun _ _ => none), .call true, .send 1,
      .answer 1 (.answer 200 [] "B".toList), .send 1, .answer 1 (.fail .ctx), .send 1, .answer 1 (.answer 500 [] []), .giveUp 1]))
    (p := fun s => decide (Ex.fpc s 1 = some (.ret (some (Ex.signed 1000 [Ex.allowR])) (some .fetchPolicy)))) (by decide +kernel)
  simp only [decide_eq_true_eq, Ex.fpc, Option.map_eq_some_iff] at hp
  obtain ⟨c, hc, hpc⟩ := hp
  exact ⟨s, c, hs, hc, hpc⟩

/-! ## C17 conditional requests -/

theorem wrap64_neg {m : Int} (hm : IsInt64 m) (hm' : m ≠ -(2 ^ 63)) : wrap64 (-m) = -m := by
  unfold wrap64; unfold IsInt64 at hm; omega

/-- **C17**. A request carries `If-None-Match: t` exactly if the policy last downloaded and verified came with the non-empty ETag `t`
and its expiry minus the margin is still ahead. -/
theorem C17_if_none_match (cfg : FetchCfg) (hm : IsInt64 cfg.expiryMargin) (hm' : cfg.expiryMargin ≠ -(2 ^ 63)) (now : Int)
    (keys : KeyProvider) (h : List FAct) (s s' : FState) (hr : fRun cfg (fInit now keys) h = some s) (j : Nat)
    (hs : fStep cfg s (.send j) = some s') :
    ∃ inm, s'.reqs = s.reqs ++ [(j, inm)] ∧
      ∀ t, inm = some t ↔ ∃ sp d e, Spec.LastDownload cfg (fInit now keys) h (some (t, sp)) ∧ t ≠ [] ∧
        sp.data = some d ∧ d.expires = some e ∧ s.now < e - cfg.expiryMargin := by
  have hI := fInv_run hr
  unfold fStep at hs
  split at hs
  · simp at hs
  simp only at hs
  split at hs
  · rename_i retry i le hc
    split at hs
    · simp at hs
    · simp only [Option.some.injEq] at hs; subst hs
      refine ⟨_, rfl, ?_⟩
      intro t
      have hlast := hI.last
      cases hcache : s.cache with
      | none =>
        rw [hcache] at hlast
        simp only [ifNoneMatch, reduceCtorEq, false_iff]
        rintro ⟨sp, d, e, hl, _⟩
        have := hlast.unique hl
        simp at this
      | some tp =>
        rw [hcache] at hlast
        obtain ⟨d, e, hd, he, hx⟩ := hI.tag tp hcache
        rw [wrap64_neg hm hm'] at hx
        simp only [ifNoneMatch]
        constructor
        · intro hi
          split at hi
          · rename_i hcond
            simp only [Option.some.injEq] at hi; subst hi
            exact ⟨tp.sp, d, e, hlast, hcond.1, hd, he, by omega⟩
          · simp at hi
        · rintro ⟨sp, d', e', hl, hne, hd', he', hlt⟩
          have := hlast.unique hl
          simp only [Option.map_some, Option.some.injEq, Prod.mk.injEq] at this
          obtain ⟨rfl, rfl⟩ := this
          rw [hd] at hd'
          simp only [Option.some.injEq] at hd'; subst hd'
          rw [he] at he'
          simp only [Option.some.injEq] at he'; subst he'
          rw [if_pos ⟨hne, by omega⟩]
  · simp at hs

theorem send_state {cfg : FetchCfg} {s s' : FState} {j : Nat} (hs : fStep cfg s (.send j) = some s') :
    ∃ retry i, s'.calls[j]? = some ⟨retry, .sent i s.cache⟩ ∧ s'.reqs = s.reqs ++ [(j, ifNoneMatch s.cache s.now)] := by
  unfold fStep at hs
  split at hs
  · simp at hs
  simp only at hs
  split at hs
  · rename_i retry i le hc
    split at hs
    · simp at hs
    · simp only [Option.some.injEq] at hs; subst hs
      exact ⟨retry, i, by simp only; rw [List.getElem?_set_self (List.getElem?_eq_some_iff.mp hc).1], rfl⟩
  · simp at hs

/-- **C17**. A `304 Not Modified` answer to a request yields the policy that was last downloaded and verified when the request was sent,
and changes nothing else.  If the request was conditional, that policy had more than the margin left before its expiry when the request
was sent. -/
theorem C17_not_modified (cfg : FetchCfg) (hm : IsInt64 cfg.expiryMargin) (hm' : cfg.expiryMargin ≠ -(2 ^ 63)) (now : Int)
    (keys : KeyProvider) (h mid : List FAct) (j : Nat) (eTag body : Str) (s1 s2 s3 s4 : FState)
    (h1 : fRun cfg (fInit now keys) h = some s1) (h2 : fStep cfg s1 (.send j) = some s2) (h3 : fRun cfg s2 mid = some s3)
    (hmid : ∀ r, FAct.answer j r ∉ mid) (h4 : fStep cfg s3 (.answer j (.answer 304 eTag body)) = some s4) :
    (∀ t sp, Spec.LastDownload cfg (fInit now keys) h (some (t, sp)) →
      (∃ c, s4.calls[j]? = some c ∧ c.pc = .ret (some sp) none) ∧ s4.cache = s3.cache ∧ s4.crashed = false) ∧
    (∀ inm, (j, some inm) ∈ s2.reqs.drop s1.reqs.length →
      ∃ t sp d e, Spec.LastDownload cfg (fInit now keys) h (some (t, sp)) ∧ sp.data = some d ∧ d.expires = some e ∧
        cfg.expiryMargin < e - s1.now) := by
  have hI := fInv_run h1
  obtain ⟨retry, i, hc2, hreq⟩ := send_state h2
  have hc3 := sent_run h3 hc2 rfl hmid
  constructor
  · intro t sp hl
    have hlast := hI.last
    have := hlast.unique hl
    obtain ⟨tp, htp, he⟩ := Option.map_eq_some_iff.mp this
    simp only [Prod.mk.injEq] at he
    obtain ⟨rfl, rfl⟩ := he
    rw [htp] at hc3
    unfold fStep at h4
    split at h4
    · simp at h4
    · rename_i hcr
      simp only [hc3, fetchAnswer, if_true] at h4
      simp only [Option.some.injEq] at h4; subst h4
      refine ⟨⟨_, by simp only; rw [List.getElem?_set_self (List.getElem?_eq_some_iff.mp hc3).1], rfl⟩, rfl, by simpa using hcr⟩
  · intro inm hin
    rw [hreq] at hin
    simp only [List.drop_left, List.mem_singleton, Prod.mk.injEq, true_and] at hin
    obtain ⟨inm', hr', hiff⟩ := C17_if_none_match cfg hm hm' now keys h s1 s2 h1 j h2
    have : inm' = ifNoneMatch s1.cache s1.now := by
      rw [hreq] at hr'
      simpa using hr'.symm
    rw [← this] at hin
    obtain ⟨sp, d, e, hl, hne, hd, he, hlt⟩ := (hiff inm).mp hin.symm
    exact ⟨inm, sp, d, e, hl, hd, he, by omega⟩

/-- The second of two fetches is conditional and answered 304; one after the margin began is unconditional. -/
example : (∃ s, fRun Ex.fcfg (fInit 10 Ex.keys) (Ex.firstFetch ++ [.tick 500, .call false, .send 1, .tick 7,
      .answer 1 (.answer 304 [] []), .tick 384, .call false, .send 2]) = some s ∧
    (Ex.fpc s 1 = some (.ret (some (Ex.signed 1000 [Ex.allowR])) none) ∧ s.reqs = [(0, none), (1, some "t1".toList), (2, none)])) := by
  obtain ⟨s, hs, hp⟩ := Ex.exists_of_map (o := fRun Ex.fcfg (fInit 10 Ex.keys) (Ex.firstFetch ++ [.tick 500, .call false, .send 1, .tick 7,
      .answer 1 (.answer 304 [] []), .tick 384, .call false, .send 2]))
    (p := fun s => decide (Ex.fpc s 1 = some (.ret (some (Ex.signed 1000 [Ex.allowR])) none)) &&
      decide (s.reqs = [(0, none), (1, some "t1".toList), (2, none)])) (by decide +kernel)
  simp only [Bool.and_eq_true, decide_eq_true_eq] at hp
  exact ⟨s, hs, hp⟩

/-! ## C18 retries -/

/-- **C18**. In every state a `FetchWithRetry` call made at most `1 + retryAttempts` requests, and a `Fetch` call at most one. -/
theorem C18_bounded (cfg : FetchCfg) (now : Int) (keys : KeyProvider) (h : List FAct) (s : FState)
    (hr : fRun cfg (fInit now keys) h = some s) (j : Nat) (c : FetchCall) (hc : s.calls[j]? = some c) :
    ((s.reqs.filter fun p => p.1 == j).length : Int) ≤ if c.retry then max 0 (1 + cfg.retryAttempts) else 1 := by
  have := (fInv_run hr).calls j c hc
  unfold CallOk FState.sentBy at this
  cases hret : c.retry <;> rw [hret] at this <;> simp only [reduceIte, Bool.false_eq_true]
  all_goals
    split at this
    · obtain ⟨h1, h2, h3, h4⟩ := this
      try specialize h4 rfl
      omega
    · obtain ⟨h1, h2, h3, h4, _⟩ := this
      try specialize h2 rfl
      try specialize h4 rfl
      omega
    · obtain ⟨_, _, h3, h4, _⟩ := this
      try specialize h3 rfl
      try specialize h4 rfl
      omega

/-- **C18**. The first answer that is a success (a verified download, or a 304 while a policy is cached) ends the call: it returns that
policy without error, whatever happens later, and sends no further request. -/
theorem C18_first_success (cfg : FetchCfg) (s s' : FState) (a : FAct) (sp : SignedPolicy) (hs : fStep cfg s a = some s')
    (hsucc : a.succeeds cfg s sp) (post : List FAct) (s'' : FState) (hr : fRun cfg s' post = some s'') :
    ∃ j r c, a = .answer j r ∧ s''.calls[j]? = some c ∧ c.pc = .ret (some sp) none ∧ s''.sentBy j = s.sentBy j := by
  have key : ∃ j r c, a = .answer j r ∧ s'.calls[j]? = some c ∧ c.pc = .ret (some sp) none ∧ s'.sentBy j = s.sentBy j := by
    rcases hsucc with ⟨t, j, b, rfl, ⟨c, i, tp, hc, hpc⟩, hdec, hver⟩ | ⟨j, e, b, c, i, t, rfl, hc, hpc, rfl⟩
    · obtain ⟨retry, pc⟩ := c
      simp only at hpc; subst hpc
      unfold fStep at hs
      split at hs
      · simp at hs
      simp only [hc] at hs
      rcases fetchAnswer_cases cfg tp s.keys s.now (.answer 200 t b) with ⟨e, hf, hn, hnv⟩ | ⟨hf, hpan⟩ | ⟨t', e, b', hx, rfl, hf⟩ |
        ⟨t', b', sp', d, e, hx, hdec', hver', hd, he, hf⟩
      · exact absurd hver (hnv t b sp rfl hdec)
      · rcases hpan with ⟨_, t', b', hx⟩ | ⟨t', b', hx, hd⟩
        · simp at hx
        · simp only [HttpResult.answer.injEq] at hx
          rw [← hx.2.2, hdec] at hd; simp at hd
      · simp at hx
      · simp only [HttpResult.answer.injEq, true_and] at hx
        obtain ⟨rfl, rfl⟩ := hx
        rw [hdec] at hdec'
        simp only [Option.some.injEq] at hdec'; subst hdec'
        rw [hf] at hs
        simp only [Option.some.injEq] at hs; subst hs
        exact ⟨j, _, _, rfl, by simp only; rw [List.getElem?_set_self (List.getElem?_eq_some_iff.mp hc).1], rfl, rfl⟩
    · obtain ⟨retry, pc⟩ := c
      simp only at hpc; subst hpc
      unfold fStep at hs
      split at hs
      · simp at hs
      simp only [hc, fetchAnswer, if_true] at hs
      simp only [Option.some.injEq] at hs; subst hs
      exact ⟨j, _, _, rfl, by simp only; rw [List.getElem?_set_self (List.getElem?_eq_some_iff.mp hc).1], rfl, rfl⟩
  obtain ⟨j, r, c, ha, hc, hpc, hn⟩ := key
  obtain ⟨h1, h2⟩ := ret_run hr hc hpc
  exact ⟨j, r, c, ha, h1, hpc, h2.trans hn⟩

theorem ret_origin {cfg : FetchCfg} {s0 s : FState} {h : List FAct} (hr : fRun cfg s0 h = some s)
    (h0 : ∀ (j : Nat) (c : FetchCall), s0.calls[j]? = some c → ∀ sp err, c.pc ≠ .ret sp err) {j : Nat} {c : FetchCall}
    (hc : s.calls[j]? = some c) {sp : Option SignedPolicy} {err : Option Err} (hpc : c.pc = .ret sp err) :
    ∃ pre a post s1 s2, h = pre ++ a :: post ∧ fRun cfg s0 pre = some s1 ∧ fStep cfg s1 a = some s2 ∧ s2.calls[j]? = some c ∧
      ∀ c1, s1.calls[j]? = some c1 → ∀ sp err, c1.pc ≠ .ret sp err := by
  induction h generalizing s0 with
  | nil =>
    simp only [fRun, Option.some.injEq] at hr; subst hr
    exact absurd hpc (h0 j c hc sp err)
  | cons a as ih =>
    have hr' := hr
    simp only [fRun] at hr
    split at hr
    · simp at hr
    · rename_i s1 hs1
      by_cases hnr : ∃ c1 sp err, s1.calls[j]? = some c1 ∧ c1.pc = .ret sp err
      · obtain ⟨c1, sp1, err1, hc1, hp1⟩ := hnr
        obtain ⟨h2, _⟩ := ret_run hr hc1 hp1
        rw [hc] at h2
        simp only [Option.some.injEq] at h2; subst h2
        exact ⟨[], a, as, s0, s1, rfl, rfl, hs1, hc1, fun c1 hc1 => h0 j c1 hc1⟩
      · -- forget the other calls
        have hsplit : ∀ (t : FState) (bs : List FAct), fRun cfg t bs = some s →
            (∀ c1, t.calls[j]? = some c1 → ∀ sp err, c1.pc ≠ .ret sp err) →
            ∃ pre a post s1 s2, bs = pre ++ a :: post ∧ fRun cfg t pre = some s1 ∧ fStep cfg s1 a = some s2 ∧ s2.calls[j]? = some c ∧
              ∀ c1, s1.calls[j]? = some c1 → ∀ sp err, c1.pc ≠ .ret sp err := by
          intro t bs
          induction bs generalizing t with
          | nil =>
            intro hb hn
            simp only [fRun, Option.some.injEq] at hb; subst hb
            exact absurd hpc (hn c hc sp err)
          | cons b bs ihb =>
            intro hb hn
            simp only [fRun] at hb
            split at hb
            · simp at hb
            · rename_i t1 ht1
              by_cases hnr : ∃ c1 sp err, t1.calls[j]? = some c1 ∧ c1.pc = .ret sp err
              · obtain ⟨c1, sp1, err1, hc1, hp1⟩ := hnr
                obtain ⟨h2, _⟩ := ret_run hb hc1 hp1
                rw [hc] at h2
                simp only [Option.some.injEq] at h2; subst h2
                exact ⟨[], b, bs, t, t1, rfl, rfl, ht1, hc1, hn⟩
              · obtain ⟨pre, a', post, u1, u2, rfl, g1, g2, g3, g4⟩ := ihb t1 hb (fun c1 hc1 sp err hp => hnr ⟨c1, sp, err, hc1, hp⟩)
                exact ⟨b :: pre, a', post, u1, u2, rfl, by simp [fRun, ht1, g1], g2, g3, g4⟩
        exact hsplit s0 (a :: as) hr' (fun c1 hc1 => h0 j c1 hc1)

theorem ret_by {cfg : FetchCfg} {s s' : FState} {a : FAct} (hs : fStep cfg s a = some s') {j : Nat} {c : FetchCall}
    (hc : s'.calls[j]? = some c) {sp : Option SignedPolicy} {err : Option Err} (hpc : c.pc = .ret sp err)
    (hn : ∀ c1, s.calls[j]? = some c1 → ∀ sp err, c1.pc ≠ .ret sp err) :
    (∃ p, sp = some p ∧ err = none ∧ a.succeeds cfg s p ∧ ∃ r, a = .answer j r) ∨
    (∃ e r, sp = none ∧ err = some e ∧ c.retry = false ∧ a = .answer j r) ∨
    (∃ e, a = .giveUp j ∧ sp = s.cache.map (·.sp) ∧ err = some e ∧ c.retry = true) := by
  have old : s.calls[j]? = some c → False := fun h => hn c h sp err hpc
  unfold fStep at hs
  split at hs
  · simp at hs
  cases a with
  | tick d => simp only [Option.some.injEq] at hs; subst hs; exact (old hc).elim
  | setKeys k => simp only [Option.some.injEq] at hs; subst hs; exact (old hc).elim
  | call retry =>
    simp only [Option.some.injEq] at hs; subst hs
    rcases getElem?_append_cases hc with hc | ⟨rfl, rfl⟩
    · exact (old hc).elim
    · simp at hpc
  | send j' =>
    simp only at hs
    split at hs
    · split at hs
      · simp at hs
      · simp only [Option.some.injEq] at hs; subst hs
        rcases getElem?_set_cases' hc with ⟨rfl, rfl⟩ | ⟨_, hc⟩
        · simp at hpc
        · exact (old hc).elim
    · simp at hs
  | answer j' r =>
    simp only at hs
    split at hs
    · rename_i retry i tp hc'
      rcases fetchAnswer_cases cfg tp s.keys s.now r with ⟨e, hf, hn', hnv⟩ | ⟨hf, hpan⟩ | ⟨t, e, b, rfl, rfl, hf⟩ |
        ⟨t, b, sp', d, e, rfl, hdec, hver, hd, he, hf⟩ <;> rw [hf] at hs <;> simp only at hs
      · split at hs
        · simp only [Option.some.injEq] at hs; subst hs
          rcases getElem?_set_cases' hc with ⟨rfl, rfl⟩ | ⟨_, hc⟩
          · simp at hpc
          · exact (old hc).elim
        · rename_i hrt
          simp only [Option.some.injEq] at hs; subst hs
          rcases getElem?_set_cases' hc with ⟨rfl, rfl⟩ | ⟨_, hc⟩
          · simp only [FetchPc.ret.injEq] at hpc
            exact .inr (.inl ⟨e, r, hpc.1.symm, hpc.2.symm, by simpa using hrt, rfl⟩)
          · exact (old hc).elim
      · simp only [Option.some.injEq] at hs; subst hs; exact (old hc).elim
      · simp only [Option.some.injEq] at hs; subst hs
        rcases getElem?_set_cases' hc with ⟨rfl, rfl⟩ | ⟨_, hc⟩
        · simp only [FetchPc.ret.injEq] at hpc
          exact .inl ⟨t.sp, hpc.1.symm, hpc.2.symm, .inr ⟨j', e, b, _, i, t, rfl, hc', rfl, rfl⟩, _, rfl⟩
        · exact (old hc).elim
      · simp only [Option.some.injEq] at hs; subst hs
        rcases getElem?_set_cases' hc with ⟨rfl, rfl⟩ | ⟨_, hc⟩
        · simp only [FetchPc.ret.injEq] at hpc
          exact .inl ⟨sp', hpc.1.symm, hpc.2.symm, .inl ⟨t, j', b, rfl, ⟨_, i, tp, hc', rfl⟩, hdec, hver⟩, _, rfl⟩
        · exact (old hc).elim
    · simp at hs
  | giveUp j' =>
    simp only at hs
    split at hs
    · split at hs
      · simp at hs
      · simp only [Option.some.injEq] at hs; subst hs
        rcases getElem?_set_cases' hc with ⟨rfl, rfl⟩ | ⟨_, hc⟩
        · simp only [FetchPc.ret.injEq] at hpc
          exact .inr (.inr ⟨_, rfl, hpc.1.symm, hpc.2.symm, rfl⟩)
        · exact (old hc).elim
    · simp at hs

theorem fInit_no_ret (now : Int) (keys : KeyProvider) :
    ∀ (j : Nat) (c : FetchCall), (fInit now keys).calls[j]? = some c → ∀ sp err, c.pc ≠ .ret sp err := by
  intro j c hc; simp [fInit] at hc

/-- **C18**. A call that returned a policy without error did so because of a successful answer to its own request. -/
theorem C18_success_sound (cfg : FetchCfg) (now : Int) (keys : KeyProvider) (h : List FAct) (s : FState)
    (hr : fRun cfg (fInit now keys) h = some s) (j : Nat) (c : FetchCall) (hc : s.calls[j]? = some c) (sp : Option SignedPolicy)
    (hret : c.pc = .ret sp none) :
    ∃ p pre r post s1, sp = some p ∧ h = pre ++ .answer j r :: post ∧ fRun cfg (fInit now keys) pre = some s1 ∧
      (FAct.answer j r).succeeds cfg s1 p := by
  obtain ⟨pre, a, post, s1, s2, rfl, h1, h2, h3, h4⟩ := ret_origin hr (fInit_no_ret now keys) hc hret
  rcases ret_by h2 h3 hret h4 with ⟨p, h5, _, h6, r, rfl⟩ | ⟨e, r, _, h5, _⟩ | ⟨e, _, _, h5, _⟩
  · exact ⟨p, pre, r, post, s1, h5, rfl, h1, h6⟩
  · simp at h5
  · simp at h5

/-- **C18**. A `FetchWithRetry` call that returned an error made exactly `1 + retryAttempts` requests (none if that is negative), none
of which was answered successfully, and it returned the last policy downloaded and verified at that moment, if there is one. -/
theorem C18_fallback (cfg : FetchCfg) (now : Int) (keys : KeyProvider) (h : List FAct) (s : FState)
    (hr : fRun cfg (fInit now keys) h = some s) (j : Nat) (c : FetchCall) (hc : s.calls[j]? = some c) (hretry : c.retry = true)
    (sp : Option SignedPolicy) (e : Err) (hret : c.pc = .ret sp (some e)) :
    ((s.reqs.filter fun p => p.1 == j).length : Int) = max 0 (1 + cfg.retryAttempts) ∧
    (∀ pre r post s1, h = pre ++ .answer j r :: post → fRun cfg (fInit now keys) pre = some s1 →
      ∀ p, ¬ (FAct.answer j r).succeeds cfg s1 p) ∧
    ∃ pre post last, h = pre ++ .giveUp j :: post ∧ Spec.LastDownload cfg (fInit now keys) pre last ∧ sp = last.map (·.2) := by
  have hI := fInv_run hr
  refine ⟨?_, ?_, ?_⟩
  · have := hI.calls j c hc
    unfold CallOk FState.sentBy at this
    rw [hret] at this
    have := this.2.2.2.2.1 (by simp) hretry
    omega
  · rintro pre r post s1 rfl h1 p hsucc
    have hrun : ∃ s2, fStep cfg s1 (.answer j r) = some s2 ∧ fRun cfg s2 post = some s := by
      rw [fRun_append, h1] at hr
      simp only [Option.bind_some, fRun] at hr
      split at hr
      · simp at hr
      · rename_i s2 hs2; exact ⟨s2, hs2, hr⟩
    obtain ⟨s2, hs2, hpost⟩ := hrun
    obtain ⟨j', r', c', ha, hc', hp', _⟩ := C18_first_success cfg s1 s2 _ p hs2 hsucc post s hpost
    simp only [FAct.answer.injEq] at ha
    rw [← ha.1, hc] at hc'
    simp only [Option.some.injEq] at hc'
    rw [← hc', hret] at hp'
    simp at hp'
  · obtain ⟨pre, a, post, s1, s2, rfl, h1, h2, h3, h4⟩ := ret_origin hr (fInit_no_ret now keys) hc hret
    rcases ret_by h2 h3 hret h4 with ⟨p, _, h5, _⟩ | ⟨_, _, _, _, h5, _⟩ | ⟨_, rfl, h5, _, _⟩
    · simp at h5
    · rw [hretry] at h5; simp at h5
    · refine ⟨pre, post, _, rfl, (fInv_run h1).last, ?_⟩
      rw [h5, Option.map_map]; rfl

/-- **C18**. Events that are no verified downloads leave the cached policy as it is. -/
theorem C18_failure_keeps_cache (cfg : FetchCfg) (s s' : FState) (a : FAct) (hs : fStep cfg s a = some s')
    (hn : ∀ t sp, ¬ Spec.Download cfg s a t sp) : s'.cache = s.cache := by
  unfold fStep at hs
  split at hs
  · simp at hs
  cases a with
  | answer j r =>
    simp only at hs
    split at hs
    · rename_i retry i tp hc
      rcases fetchAnswer_cases cfg tp s.keys s.now r with ⟨e, hf, _, _⟩ | ⟨hf, _⟩ | ⟨t, e, b, rfl, rfl, hf⟩ |
        ⟨t, b, sp, d, e, rfl, hdec, hver, hd, he, hf⟩ <;> rw [hf] at hs <;> simp only at hs
      · split at hs <;> (simp only [Option.some.injEq] at hs; subst hs; rfl)
      · simp only [Option.some.injEq] at hs; subst hs; rfl
      · simp only [Option.some.injEq] at hs; subst hs; rfl
      · exact absurd ⟨j, b, rfl, ⟨_, i, tp, hc, rfl⟩, hdec, hver⟩ (hn t sp)
    · simp at hs
  | _ =>
    simp only at hs
    repeat' split at hs
    all_goals first
      | (simp at hs; done)
      | (simp only [Option.some.injEq] at hs; subst hs; rfl)

/-- All three attempts fail, without a cached policy. -/
example : ∃ s, fRun Ex.fcfg (fInit 10 Ex.keys) [.call true, .send 0, .answer 0 (.answer 500 [] []), .tick 5, .send 0, .answer 0 (.fail .ctx),
      .send 0, .answer 0 (.answer 200 [] "X".toList), .giveUp 0] = some s ∧
    (Ex.fpc s 0 = some (.ret none (some (.other "policy decode fail"))) ∧ s.sentBy 0 = 3) := by
  obtain ⟨s, hs, hp⟩ := Ex.exists_of_map (o := fRun Ex.fcfg (fInit 10 Ex.keys) [.call true, .send 0, .answer 0 (.answer 500 [] []), .tick 5,
      .send 0, .answer 0 (.fail .ctx), .send 0, .answer 0 (.answer 200 [] "X".toList), .giveUp 0])
    (p := fun s => decide (Ex.fpc s 0 = some (.ret none (some (.other "policy decode fail")))) && decide (s.sentBy 0 = 3)) (by decide +kernel)
  simp only [Bool.and_eq_true, decide_eq_true_eq] at hp
  exact ⟨s, hs, hp⟩

/-- The second attempt succeeds. -/
example : ∃ s s', fRun Ex.fcfg (fInit 10 Ex.keys) [.call true, .send 0, .answer 0 (.answer 500 [] []), .send 0] = some s ∧
    fStep Ex.fcfg s (.answer 0 (.answer 200 [] "A".toList)) = some s' ∧
    (FAct.answer 0 (.answer 200 [] "A".toList)).succeeds Ex.fcfg s (Ex.signed 1000 [Ex.allowR]) := by
  obtain ⟨s, hs, hp⟩ := Ex.exists_of_map (o := fRun Ex.fcfg (fInit 10 Ex.keys) [.call true, .send 0, .answer 0 (.answer 500 [] []), .send 0])
    (p := fun s => decide (Ex.fpc s 0 = some (.sent 0 none)) && decide (s.now = 10) &&
      (decide (verifyPolicy Ex.codec s.keys s.now (some (Ex.signed 1000 [Ex.allowR])) = .ok ())) &&
      (fStep Ex.fcfg s (.answer 0 (.answer 200 [] "A".toList))).isSome) (by decide +kernel)
  simp only [Bool.and_eq_true, decide_eq_true_eq, Ex.fpc, Option.map_eq_some_iff] at hp
  obtain ⟨⟨⟨⟨c, hc, hpc⟩, _⟩, hv⟩, h4⟩ := hp
  obtain ⟨s', hs'⟩ := Option.isSome_iff_exists.mp h4
  exact ⟨s, s', hs, hs', .inl ⟨[], 0, "A".toList, rfl, ⟨c, 0, none, hc, hpc⟩, by decide +kernel, verifyPolicy_ok.mp hv⟩⟩

end Athenz
