import Verif.Spec.Fetch
import Verif.Proofs.Policyd

/-! Invariants of the fetcher. -/

namespace Athenz

theorem mapM_id_some {α : Type} {l : List (Option α)} {r : List α} : l.mapM id = some r ↔ l = r.map some := by
  induction l generalizing r with
  | nil => cases r <;> simp
  | cons x l ih =>
    cases x with
    | none => cases r <;> simp
    | some a =>
      simp only [List.mapM_cons, id, Option.bind_eq_bind, Option.bind_some, Option.pure_def, Option.bind_eq_some_iff, Option.some.injEq]
      constructor
      · rintro ⟨r', h, rfl⟩
        simp [ih.mp h]
      · intro h
        cases r with
        | nil => simp at h
        | cons b r =>
          simp only [List.map_cons, List.cons.injEq, Option.some.injEq] at h
          exact ⟨r, ih.mpr h.2, by rw [h.1]⟩

theorem policies_iff {l : List (Option RawPolicy)} {ps : List (List RawAssertion)} :
    l.mapM (fun p => p.bind fun p => p.assertions.mapM id) = some ps ↔ l = ps.map fun x => some ⟨x.map some⟩ := by
  induction l generalizing ps with
  | nil => cases ps <;> simp
  | cons x l ih =>
    simp only [List.mapM_cons, Option.bind_eq_bind, Option.pure_def, Option.bind_eq_some_iff, Option.some.injEq]
    constructor
    · rintro ⟨y, ⟨p, rfl, hp⟩, r', h, rfl⟩
      simp only [List.map_cons, List.cons.injEq, Option.some.injEq]
      refine ⟨?_, ih.mp h⟩
      cases p
      exact congrArg RawPolicy.mk (mapM_id_some.mp hp)
    · intro h
      cases ps with
      | nil => simp at h
      | cons b r =>
        simp only [List.map_cons, List.cons.injEq] at h
        exact ⟨b, ⟨_, h.1, mapM_id_some.mpr rfl⟩, r, ih.mpr h.2, rfl⟩

theorem docOf_iff {sp : SignedPolicy} {d : PolicyDoc} : docOf sp = .ok d ↔ Spec.PolicySays sp d := by
  unfold docOf Spec.PolicySays
  constructor
  · intro h
    split at h
    · simp at h
    · rename_i x hx
      split at h
      · rename_i pd e h1 h2
        split at h
        · rename_i ps hp
          simp only [Res.ok.injEq] at h
          subst h
          exact ⟨x, pd, hx, h1, h2, policies_iff.mp hp⟩
        · simp at h
      · simp at h
  · rintro ⟨x, pd, hx, h1, h2, h3⟩
    simp only [hx, h1, h2, policies_iff.mpr h3]

theorem satSub_le_zero (a b : Int) : satSub a b ≤ 0 ↔ a ≤ b := by unfold satSub; omega

theorem verifyPolicy_ok {C : Codec} {keys : KeyProvider} {now : Int} {sp : SignedPolicy} :
    verifyPolicy C keys now (some sp) = .ok () ↔ Spec.Verified C keys now sp := by
  constructor
  · intro h
    simp only [verifyPolicy] at h
    split at h; · simp at h
    rename_i d hd
    split at h; · simp at h
    rename_i e he
    split at h; · simp at h
    rename_i hexp
    split at h; · simp at h
    rename_i v1 hv1
    split at h; · simp at h
    rename_i t1 ht1
    split at h; · simp at h
    rename_i hs1
    split at h; · simp at h
    rename_i v2 hv2
    split at h; · simp at h
    rename_i t2 ht2
    split at h; · simp at h
    rename_i hs2
    rw [satSub_le_zero] at hexp
    exact ⟨d, e, hd, he, by omega, ⟨v1, t1, hv1, ht1, by simpa using hs1⟩, ⟨v2, t2, hv2, ht2, by simpa using hs2⟩⟩
  · rintro ⟨d, e, hd, he, hlt, ⟨v1, t1, hv1, ht1, hs1⟩, ⟨v2, t2, hv2, ht2, hs2⟩⟩
    have : ¬ satSub e now ≤ 0 := by rw [satSub_le_zero]; omega
    simp [verifyPolicy, hd, he, this, hv1, ht1, hs1, hv2, ht2, hs2]

theorem verifyPolicy_no_panic {C : Codec} {keys : KeyProvider} {now : Int} {sp : SignedPolicy} :
    verifyPolicy C keys now (some sp) ≠ .panic := by
  simp only [verifyPolicy]
  repeat' split
  all_goals simp

theorem fRun_append (cfg : FetchCfg) (s : FState) (as bs : List FAct) :
    fRun cfg s (as ++ bs) = (fRun cfg s as).bind fun s' => fRun cfg s' bs := by
  induction as generalizing s with
  | nil => rfl
  | cons a as ih =>
    simp only [List.cons_append, fRun]
    cases fStep cfg s a with
    | none => rfl
    | some s' => exact ih s'

theorem fRun_snoc {cfg : FetchCfg} {s s1 : FState} {as : List FAct} (h : fRun cfg s as = some s1) (a : FAct) :
    fRun cfg s (as ++ [a]) = fStep cfg s1 a := by
  rw [fRun_append, h]
  simp only [Option.bind_some, fRun]
  cases fStep cfg s1 a <;> rfl

/-- What an answer does. -/
theorem fetchAnswer_cases (cfg : FetchCfg) (tp : Option Tagged) (keys : KeyProvider) (now : Int) (r : HttpResult) :
    (∃ e, fetchAnswer cfg tp keys now r = (.err e, none) ∧ (∀ t b, r ≠ .answer 304 t b) ∧
      ∀ t b sp, r = .answer 200 t b → cfg.codec.decode b = some (some sp) → ¬ Spec.Verified cfg.codec keys now sp) ∨
    (fetchAnswer cfg tp keys now r = (.panic, none) ∧
      ((tp = none ∧ ∃ t b, r = .answer 304 t b) ∨ ∃ t b, r = .answer 200 t b ∧ cfg.codec.decode b = some none)) ∨
    (∃ t e b, r = .answer 304 e b ∧ tp = some t ∧ fetchAnswer cfg tp keys now r = (.ok t.sp, none)) ∨
    (∃ t b sp d e, r = .answer 200 t b ∧ cfg.codec.decode b = some (some sp) ∧ Spec.Verified cfg.codec keys now sp ∧
      sp.data = some d ∧ d.expires = some e ∧
      fetchAnswer cfg tp keys now r = (.ok sp, some ⟨t, e + wrap64 (-cfg.expiryMargin), sp⟩)) := by
  cases r with
  | fail e => exact .inl ⟨e, rfl, by simp, by simp⟩
  | answer status t b =>
    by_cases h304 : status = 304
    · subst h304
      cases tp with
      | none => exact .inr (.inl ⟨by simp [fetchAnswer], .inl ⟨rfl, t, b, rfl⟩⟩)
      | some tp => exact .inr (.inr (.inl ⟨tp, t, b, rfl, rfl, by simp [fetchAnswer]⟩))
    · by_cases h200 : status = 200
      · subst h200
        cases hdec : cfg.codec.decode b with
        | none =>
          refine .inl ⟨_, by simp [fetchAnswer, hdec]; rfl, by simp, ?_⟩
          intro t' b' sp hr hd
          simp only [HttpResult.answer.injEq] at hr
          rw [← hr.2.2, hdec] at hd; simp at hd
        | some osp =>
          cases osp with
          | none => exact .inr (.inl ⟨by simp [fetchAnswer, hdec, verifyPolicy], .inr ⟨t, b, rfl, hdec⟩⟩)
          | some sp =>
            cases hv : verifyPolicy cfg.codec keys now (some sp) with
            | panic => exact absurd hv verifyPolicy_no_panic
            | err e =>
              refine .inl ⟨e, by simp [fetchAnswer, hdec, hv], by simp, ?_⟩
              intro t' b' sp' hr hd hver
              simp only [HttpResult.answer.injEq] at hr
              rw [← hr.2.2, hdec] at hd
              simp only [Option.some.injEq] at hd
              subst hd
              rw [verifyPolicy_ok.mpr hver] at hv; simp at hv
            | ok u =>
              have hver := verifyPolicy_ok.mp hv
              obtain ⟨d, e, hd, he, _⟩ := id hver
              exact .inr (.inr (.inr ⟨t, b, sp, d, e, rfl, hdec, hver, hd, he, by simp [fetchAnswer, hdec, hv, hd, he]⟩))
      · refine .inl ⟨.fetchPolicy, by simp [fetchAnswer, h304, h200], ?_, ?_⟩
        · intro t' b' hr; simp only [HttpResult.answer.injEq] at hr; exact h304 hr.1
        · intro t' b' sp hr; simp only [HttpResult.answer.injEq] at hr; exact absurd hr.1 h200

namespace Spec

theorem Downloaded.mono {cfg : FetchCfg} {s0 : FState} {h : List FAct} {t : Str} {sp : SignedPolicy} (hd : Downloaded cfg s0 h t sp)
    (more : List FAct) : Downloaded cfg s0 (h ++ more) t sp := by
  obtain ⟨pre, a, post, s, rfl, h1, h2⟩ := hd
  exact ⟨pre, a, post ++ more, s, by simp, h1, h2⟩

theorem downloaded_snoc {cfg : FetchCfg} {s0 s : FState} {h : List FAct} {a : FAct} {t : Str} {sp : SignedPolicy}
    (hr : fRun cfg s0 h = some s) : Downloaded cfg s0 (h ++ [a]) t sp ↔ Downloaded cfg s0 h t sp ∨ Download cfg s a t sp := by
  constructor
  · rintro ⟨pre, b, post, s', heq, h1, h2⟩
    rcases List.eq_nil_or_concat post with rfl | ⟨post', c, rfl⟩
    · have := List.append_inj' (heq : h ++ [a] = pre ++ [b]) rfl
      obtain ⟨rfl, hab⟩ := this
      simp only [List.cons.injEq, and_true] at hab
      subst hab
      rw [hr] at h1
      simp only [Option.some.injEq] at h1
      subst h1
      exact .inr h2
    · left
      have : h ++ [a] = (pre ++ b :: post') ++ [c] := by simpa using heq
      obtain ⟨rfl, _⟩ := List.append_inj' this rfl
      exact ⟨pre, b, post', s', rfl, h1, h2⟩
  · rintro (hd | hd)
    · exact hd.mono [a]
    · exact ⟨h, a, [], s, rfl, hr, hd⟩

theorem LastDownload.skip {cfg : FetchCfg} {s0 s : FState} {h : List FAct} {a : FAct} {o : Option (Str × SignedPolicy)}
    (hl : LastDownload cfg s0 h o) (hr : fRun cfg s0 h = some s) (hn : ∀ t sp, ¬ Download cfg s a t sp) :
    LastDownload cfg s0 (h ++ [a]) o := by
  cases o with
  | none =>
    intro t sp hd
    rcases (downloaded_snoc hr).mp hd with hd | hd
    · exact hl t sp hd
    · exact hn t sp hd
  | some p =>
    obtain ⟨pre, b, post, s1, s2, rfl, h1, h2, h3, h4⟩ := hl
    refine ⟨pre, b, post ++ [a], s1, s2, by simp, h1, h2, h3, ?_⟩
    have hrun : fRun cfg s2 post = some s := by
      rw [fRun_append, h1] at hr
      simpa [fRun, h3] using hr
    intro t sp hd
    rcases (downloaded_snoc hrun).mp hd with hd | hd
    · exact h4 t sp hd
    · exact hn t sp hd

theorem LastDownload.new {cfg : FetchCfg} {s0 s s' : FState} {h : List FAct} {a : FAct} {t : Str} {sp : SignedPolicy}
    (hr : fRun cfg s0 h = some s) (hd : Download cfg s a t sp) (hs : fStep cfg s a = some s') :
    LastDownload cfg s0 (h ++ [a]) (some (t, sp)) := by
  refine ⟨h, a, [], s, s', rfl, hr, hd, hs, ?_⟩
  rintro t sp ⟨pre, b, post, s1, heq, _⟩
  simp at heq

/-- The last download is unique. -/
theorem LastDownload.unique {cfg : FetchCfg} {s0 : FState} {h : List FAct} {o o' : Option (Str × SignedPolicy)}
    (h1 : LastDownload cfg s0 h o) (h2 : LastDownload cfg s0 h o') : o = o' := by
  have to_dl : ∀ p, LastDownload cfg s0 h (some p) → Downloaded cfg s0 h p.1 p.2 := by
    rintro ⟨t, sp⟩ ⟨pre, a, post, s, s', h1, h2, h3, _⟩
    exact ⟨pre, a, post, s, h1, h2, h3⟩
  cases o with
  | none =>
    cases o' with
    | none => rfl
    | some p => exact absurd (to_dl p h2) (h1 _ _)
  | some p =>
    cases o' with
    | none => exact absurd (to_dl p h1) (h2 _ _)
    | some p' =>
      obtain ⟨t, sp⟩ := p
      obtain ⟨t', sp'⟩ := p'
      obtain ⟨pre, a, post, s, s', e1, r1, d1, st1, l1⟩ := h1
      obtain ⟨pre', a', post', u, u', e2, r2, d2, st2, l2⟩ := h2
      have hrest : ∀ {pre pre' post post' : List FAct} {a a' : FAct} {s s' u : FState} {t t' : Str} {sp sp' : SignedPolicy},
          pre ++ a :: post = pre' ++ a' :: post' → pre.length < pre'.length → fRun cfg s0 pre = some s → fStep cfg s a = some s' →
          fRun cfg s0 pre' = some u → Download cfg u a' t' sp' → Downloaded cfg s' post t' sp' := by
        intro pre pre' post post' a a' s s' u t t' sp sp' heq hlt hp hs hp' hd
        rcases List.append_eq_append_iff.mp heq with ⟨c, rfl, hc⟩ | ⟨c, rfl, _⟩
        · cases c with
          | nil => simp at hlt
          | cons x c =>
            simp only [List.cons_append, List.cons.injEq] at hc
            obtain ⟨rfl, rfl⟩ := hc
            refine ⟨c, a', post', u, rfl, ?_, hd⟩
            rw [fRun_append, hp] at hp'
            simpa [fRun, hs] using hp'
        · simp at hlt; omega
      rcases Nat.lt_trichotomy pre.length pre'.length with hlt | heq | hgt
      · exact absurd (hrest (sp := sp) (t := t) (e1 ▸ e2) hlt r1 st1 r2 d2) (l1 _ _)
      · obtain ⟨rfl, h'⟩ := List.append_inj (e1.symm.trans e2) heq
        simp only [List.cons.injEq] at h'
        obtain ⟨rfl, rfl⟩ := h'
        obtain ⟨j, b, ha, _, hd, _⟩ := d1
        obtain ⟨j', b', ha', _, hd', _⟩ := d2
        rw [ha] at ha'
        simp only [FAct.answer.injEq, HttpResult.answer.injEq, true_and] at ha'
        obtain ⟨rfl, rfl, rfl⟩ := ha'
        rw [hd] at hd'
        simp only [Option.some.injEq] at hd'
        rw [hd']
      · exact absurd (hrest (sp := sp') (t := t') (e2.symm.trans e1) hgt r2 st2 r1 d1) (l2 _ _)

end Spec

/-- How many requests call `j` made. -/
def FState.sentBy (s : FState) (j : Nat) : Nat := (s.reqs.filter fun p => p.1 == j).length

/-- What is known about one call. -/
def CallOk (cfg : FetchCfg) (s0 : FState) (h : List FAct) (n : Nat) (c : FetchCall) : Prop :=
  match c.pc with
  | .loop i _ => -1 ≤ i ∧ (i = -1 ∨ i ≤ cfg.retryAttempts) ∧ (n : Int) = i + 1 ∧ (c.retry = false → i = -1)
  | .sent i tp => -1 ≤ i ∧ (c.retry = true → i < cfg.retryAttempts) ∧ (n : Int) = i + 2 ∧ (c.retry = false → i = -1) ∧
      ∀ t, tp = some t → Spec.Downloaded cfg s0 h t.eTag t.sp
  | .ret sp err => (∀ p, sp = some p → ∃ t, Spec.Downloaded cfg s0 h t p) ∧
      (err = none → sp.isSome) ∧ (c.retry = true → (n : Int) ≤ max 0 (cfg.retryAttempts + 1)) ∧ (c.retry = false → n = 1) ∧
      (err.isSome → c.retry = true → (n : Int) = max 0 (cfg.retryAttempts + 1)) ∧ (err.isSome → c.retry = false → sp = none)

theorem CallOk.mono {cfg : FetchCfg} {s0 : FState} {h : List FAct} {n : Nat} {c : FetchCall} (hc : CallOk cfg s0 h n c)
    (more : List FAct) : CallOk cfg s0 (h ++ more) n c := by
  unfold CallOk at *
  split at hc
  · exact hc
  · obtain ⟨h1, h2, h3, h4, h5⟩ := hc
    exact ⟨h1, h2, h3, h4, fun t ht => (h5 t ht).mono more⟩
  · obtain ⟨h1, h2⟩ := hc
    exact ⟨fun p hp => let ⟨t, ht⟩ := h1 p hp; ⟨t, ht.mono more⟩, h2⟩

structure FInv (cfg : FetchCfg) (s0 : FState) (h : List FAct) (s : FState) : Prop where
  run : fRun cfg s0 h = some s
  last : Spec.LastDownload cfg s0 h (s.cache.map fun t => (t.eTag, t.sp))
  tag : ∀ t, s.cache = some t → ∃ d e, t.sp.data = some d ∧ d.expires = some e ∧ t.eTagExpiry = e + wrap64 (-cfg.expiryMargin)
  calls : ∀ (j : Nat) (c : FetchCall), s.calls[j]? = some c → CallOk cfg s0 h (s.sentBy j) c
  reqs : ∀ p ∈ s.reqs, p.1 < s.calls.length

theorem fInit_inv (cfg : FetchCfg) (now : Int) (keys : KeyProvider) : FInv cfg (fInit now keys) [] (fInit now keys) := by
  refine ⟨rfl, ?_, by simp [fInit], by simp [fInit], by simp [fInit]⟩
  rintro t sp ⟨pre, b, post, s1, heq, _⟩
  simp at heq

theorem Spec.LastDownload.downloaded {cfg : FetchCfg} {s0 : FState} {h : List FAct} {p : Str × SignedPolicy}
    (hl : Spec.LastDownload cfg s0 h (some p)) : Spec.Downloaded cfg s0 h p.1 p.2 := by
  obtain ⟨pre, a, post, s, s', h1, h2, h3, _⟩ := hl
  exact ⟨pre, a, post, s, h1, h2, h3⟩

theorem FInv.step {cfg : FetchCfg} {s0 s s' : FState} {h : List FAct} (hI : FInv cfg s0 h s) {a : FAct}
    (hs : fStep cfg s a = some s') : FInv cfg s0 (h ++ [a]) s' := by
  have hrun : fRun cfg s0 (h ++ [a]) = some s' := by rw [fRun_snoc hI.run, hs]
  have hs0 := hs
  have hcall : ∀ (j : Nat) (c : FetchCall), s.calls[j]? = some c → CallOk cfg s0 (h ++ [a]) (s.sentBy j) c :=
    fun j c hc => (hI.calls j c hc).mono [a]
  have skip : (∀ t sp, ¬ Spec.Download cfg s a t sp) → Spec.LastDownload cfg s0 (h ++ [a]) (s.cache.map fun t => (t.eTag, t.sp)) :=
    fun hn => hI.last.skip hI.run hn
  unfold fStep at hs
  split at hs
  · simp at hs
  cases a with
  | tick d =>
    simp only [Option.some.injEq] at hs; subst hs
    exact ⟨hrun, skip (by rintro t sp ⟨j, b, h1, _⟩; simp at h1), hI.tag, hcall, hI.reqs⟩
  | setKeys k =>
    simp only [Option.some.injEq] at hs; subst hs
    exact ⟨hrun, skip (by rintro t sp ⟨j, b, h1, _⟩; simp at h1), hI.tag, hcall, hI.reqs⟩
  | call retry =>
    simp only [Option.some.injEq] at hs; subst hs
    refine ⟨hrun, skip (by rintro t sp ⟨j, b, h1, _⟩; simp at h1), hI.tag, ?_, ?_⟩
    · intro j c hc
      rcases getElem?_append_cases hc with hc | ⟨rfl, rfl⟩
      · exact hcall j c hc
      · have : s.reqs.filter (fun p => p.1 == s.calls.length) = [] := by
          rw [List.filter_eq_nil_iff]
          intro p hp
          have := hI.reqs p hp
          simp; omega
        simp [CallOk, FState.sentBy, this]
    · intro p hp; have := hI.reqs p hp; simp; omega
  | send j =>
    simp only at hs
    split at hs
    · rename_i retry i le hc
      split at hs
      · simp at hs
      · rename_i hcond
        simp only [Option.some.injEq] at hs; subst hs
        have hlt := (List.getElem?_eq_some_iff.mp hc).1
        refine ⟨hrun, skip (by rintro t sp ⟨j, b, h1, _⟩; simp at h1), hI.tag, ?_, ?_⟩
        · intro j' c' hc'
          rcases getElem?_set_cases' hc' with ⟨rfl, rfl⟩ | ⟨hne, hc'⟩
          · obtain ⟨h1, h2, h3, h4⟩ := hI.calls j _ hc
            have hcnt : FState.sentBy { s with calls := s.calls.set j ⟨retry, .sent i s.cache⟩,
                                               reqs := s.reqs ++ [(j, ifNoneMatch s.cache s.now)] } j = s.sentBy j + 1 := by
              simp [FState.sentBy]
            rw [hcnt]
            refine ⟨h1, ?_, by omega, h4, ?_⟩
            · intro hr; simp only at hr; simp [hr] at hcond; exact hcond
            · intro t ht
              have := hI.last
              rw [ht] at this
              exact this.downloaded.mono _
          · have hcnt : FState.sentBy { s with calls := s.calls.set j ⟨retry, .sent i s.cache⟩,
                                               reqs := s.reqs ++ [(j, ifNoneMatch s.cache s.now)] } j' = s.sentBy j' := by
              simp [FState.sentBy, hne]
            rw [hcnt]; exact hcall j' c' hc'
        · intro p hp
          simp only [List.mem_append, List.mem_singleton] at hp
          rcases hp with hp | rfl
          · simpa using hI.reqs p hp
          · simpa using hlt
    · simp at hs
  | answer j r =>
    simp only at hs
    split at hs
    · rename_i retry i tp hc
      have hlt := (List.getElem?_eq_some_iff.mp hc).1
      have hco := hI.calls j _ hc
      obtain ⟨h1, h2, h3, h4, h5⟩ := hco
      simp only at h2 h4
      have hrest : ∀ (c0 : FetchCall), CallOk cfg s0 (h ++ [.answer j r]) (s.sentBy j) c0 → ∀ (j' : Nat) (c' : FetchCall),
          (s.calls.set j c0)[j']? = some c' → CallOk cfg s0 (h ++ [.answer j r]) (s.sentBy j') c' := by
        intro c0 h0 j' c' hc'
        rcases getElem?_set_cases' hc' with ⟨rfl, rfl⟩ | ⟨_, hc'⟩
        · exact h0
        · exact hcall j' c' hc'
      have hreq : ∀ (c0 : FetchCall), ∀ p ∈ s.reqs, p.1 < (s.calls.set j c0).length := by
        intro c0 p hp; simpa using hI.reqs p hp
      have hnod : (∀ t b sp, r = .answer 200 t b → cfg.codec.decode b = some (some sp) → ¬ Spec.Verified cfg.codec s.keys s.now sp) →
          ∀ t sp, ¬ Spec.Download cfg s (.answer j r) t sp := by
        rintro hn t sp ⟨j', b, ha, _, hd, hv⟩
        simp only [FAct.answer.injEq] at ha
        exact hn t b sp ha.2 hd hv
      rcases fetchAnswer_cases cfg tp s.keys s.now r with ⟨e, hf, hn, hnv⟩ | ⟨hf, hpan⟩ | ⟨t, e, b, rfl, rfl, hf⟩ |
        ⟨t, b, sp, d, e, rfl, hdec, hver, hd, he, hf⟩ <;> rw [hf] at hs <;> simp only at hs
      · split at hs
        · rename_i hr
          simp only [Option.some.injEq] at hs; subst hs
          refine ⟨hrun, skip (hnod hnv), hI.tag, hrest _ ?_, hreq _⟩
          have := h2 hr
          exact ⟨by omega, .inr (by omega), by omega, by simp [hr]⟩
        · rename_i hr
          simp only [Option.some.injEq] at hs; subst hs
          refine ⟨hrun, skip (hnod hnv), hI.tag, hrest _ ?_, hreq _⟩
          have := h4 (by simpa using hr)
          refine ⟨by simp, by simp, by simp [hr], fun _ => by omega, by simp [hr], by simp⟩
      · simp only [Option.some.injEq] at hs; subst hs
        refine ⟨hrun, skip (hnod ?_), hI.tag, hcall, hI.reqs⟩
        rcases hpan with ⟨_, t, b, rfl⟩ | ⟨t, b, rfl, hdec⟩
        · intro t' b' sp hr; simp at hr
        · intro t' b' sp hr hd
          simp only [HttpResult.answer.injEq] at hr
          rw [← hr.2.2, hdec] at hd; simp at hd
      · simp only [Option.some.injEq] at hs; subst hs
        refine ⟨hrun, skip (hnod (by intro t' b' sp hr; simp at hr)), hI.tag, hrest _ ?_, hreq _⟩
        refine ⟨?_, by simp, ?_, ?_, by simp, by simp⟩
        · intro p hp
          simp only [Option.some.injEq] at hp; subst hp
          exact ⟨t.eTag, (h5 t rfl).mono _⟩
        · intro hr; have := h2 hr; omega
        · intro hr; have := h4 hr; omega
      · simp only [Option.some.injEq] at hs; subst hs
        have hdl : Spec.Download cfg s (.answer j (.answer 200 t b)) t sp := ⟨j, b, rfl, ⟨_, i, tp, hc, rfl⟩, hdec, hver⟩
        refine ⟨hrun, ?_, ?_, hrest _ ?_, hreq _⟩
        · exact Spec.LastDownload.new hI.run hdl hs0
        · intro t' ht'
          simp only [Option.some.injEq] at ht'; subst ht'
          exact ⟨d, e, hd, he, rfl⟩
        · refine ⟨?_, by simp, ?_, ?_, by simp, by simp⟩
          · intro p hp
            simp only [Option.some.injEq] at hp; subst hp
            exact ⟨t, (Spec.downloaded_snoc hI.run).mpr (.inr hdl)⟩
          · intro hr; have := h2 hr; omega
          · intro hr; have := h4 hr; omega
    · simp at hs
  | giveUp j =>
    simp only at hs
    split at hs
    · rename_i i le hc
      split at hs
      · simp at hs
      · rename_i hi
        simp only [Option.some.injEq] at hs; subst hs
        refine ⟨hrun, skip (by rintro t sp ⟨j, b, h1, _⟩; simp at h1), hI.tag, ?_, ?_⟩
        · intro j' c' hc'
          rcases getElem?_set_cases' hc' with ⟨rfl, rfl⟩ | ⟨hne, hc'⟩
          · obtain ⟨h1, h2, h3, h4⟩ := hI.calls j _ hc
            have hcnt : ((FState.sentBy { s with calls := s.calls.set j ⟨true, .ret (s.cache.map (·.sp)) (some (le.getD (.other "retryAttempts")))⟩ } j : Nat) : Int)
                = max 0 (cfg.retryAttempts + 1) := by
              have : FState.sentBy { s with calls := s.calls.set j ⟨true, .ret (s.cache.map (·.sp)) (some (le.getD (.other "retryAttempts")))⟩ } j = s.sentBy j := rfl
              rw [this]
              omega
            refine ⟨?_, by simp, fun _ => by rw [hcnt]; exact Int.le_refl _, by simp, fun _ _ => hcnt, by simp⟩
            intro p hp
            obtain ⟨t, ht, rfl⟩ := Option.map_eq_some_iff.mp hp
            have := hI.last
            rw [ht] at this
            exact ⟨t.eTag, this.downloaded.mono _⟩
          · exact hcall j' c' hc'
        · intro p hp; simpa using hI.reqs p hp
    · simp at hs

theorem FInv.extend {cfg : FetchCfg} {s0 s s' : FState} {h as : List FAct} (hI : FInv cfg s0 h s) (hs : fRun cfg s as = some s') :
    FInv cfg s0 (h ++ as) s' := by
  induction as generalizing s h with
  | nil => simp only [fRun, Option.some.injEq] at hs; subst hs; simpa using hI
  | cons a as ih =>
    simp only [fRun] at hs
    split at hs
    · simp at hs
    · rename_i s1 hs1
      have := ih (hI.step hs1) hs
      simpa using this

theorem fInv_run {cfg : FetchCfg} {now : Int} {keys : KeyProvider} {h : List FAct} {s : FState}
    (hs : fRun cfg (fInit now keys) h = some s) : FInv cfg (fInit now keys) h s := by
  simpa using (fInit_inv cfg now keys).extend hs

/-- A call that returned stays as it is and sends nothing. -/
theorem ret_step {cfg : FetchCfg} {s s' : FState} {a : FAct} (hs : fStep cfg s a = some s') {j : Nat} {c : FetchCall}
    {sp : Option SignedPolicy} {err : Option Err} (hc : s.calls[j]? = some c) (hpc : c.pc = .ret sp err) :
    s'.calls[j]? = some c ∧ s'.sentBy j = s.sentBy j := by
  have hset : ∀ (j' : Nat) (c0 c1 : FetchCall), s.calls[j']? = some c0 → (∀ sp err, c0.pc ≠ .ret sp err) → (s.calls.set j' c1)[j]? = some c := by
    intro j' c0 c1 h0 hn
    have : j' ≠ j := by
      rintro rfl
      rw [hc] at h0
      simp only [Option.some.injEq] at h0
      exact hn sp err (h0 ▸ hpc)
    rw [List.getElem?_set_ne this]; exact hc
  unfold fStep at hs
  split at hs
  · simp at hs
  cases a with
  | tick d => simp only [Option.some.injEq] at hs; subst hs; exact ⟨hc, rfl⟩
  | setKeys k => simp only [Option.some.injEq] at hs; subst hs; exact ⟨hc, rfl⟩
  | call retry =>
    simp only [Option.some.injEq] at hs; subst hs
    refine ⟨?_, rfl⟩
    rw [List.getElem?_append_left (List.getElem?_eq_some_iff.mp hc).1]; exact hc
  | send j' =>
    simp only at hs
    split at hs
    · rename_i retry i le hc'
      split at hs
      · simp at hs
      · simp only [Option.some.injEq] at hs; subst hs
        have hne : j' ≠ j := by
          rintro rfl
          rw [hc] at hc'
          simp only [Option.some.injEq] at hc'
          rw [hc'] at hpc; simp at hpc
        exact ⟨hset j' _ _ hc' (by simp), by simp [FState.sentBy, hne]⟩
    · simp at hs
  | answer j' r =>
    simp only at hs
    split at hs
    · rename_i retry i tp hc'
      split at hs
      · simp only [Option.some.injEq] at hs; subst hs; exact ⟨hc, rfl⟩
      · simp only [Option.some.injEq] at hs; subst hs; exact ⟨hset j' _ _ hc' (by simp), rfl⟩
      · split at hs
        · simp only [Option.some.injEq] at hs; subst hs; exact ⟨hset j' _ _ hc' (by simp), rfl⟩
        · simp only [Option.some.injEq] at hs; subst hs; exact ⟨hset j' _ _ hc' (by simp), rfl⟩
    · simp at hs
  | giveUp j' =>
    simp only at hs
    split at hs
    · rename_i i le hc'
      split at hs
      · simp at hs
      · simp only [Option.some.injEq] at hs; subst hs; exact ⟨hset j' _ _ hc' (by simp), rfl⟩
    · simp at hs

theorem ret_run {cfg : FetchCfg} {s s' : FState} {as : List FAct} (hs : fRun cfg s as = some s') {j : Nat} {c : FetchCall}
    {sp : Option SignedPolicy} {err : Option Err} (hc : s.calls[j]? = some c) (hpc : c.pc = .ret sp err) :
    s'.calls[j]? = some c ∧ s'.sentBy j = s.sentBy j := by
  induction as generalizing s with
  | nil => simp only [fRun, Option.some.injEq] at hs; subst hs; exact ⟨hc, rfl⟩
  | cons a as ih =>
    simp only [fRun] at hs
    split at hs
    · simp at hs
    · rename_i s1 hs1
      obtain ⟨h1, h2⟩ := ret_step hs1 hc hpc
      obtain ⟨h3, h4⟩ := ih hs h1
      exact ⟨h3, h4.trans h2⟩

/-- A request under way stays so until it is answered. -/
theorem sent_step {cfg : FetchCfg} {s s' : FState} {a : FAct} (hs : fStep cfg s a = some s') {j : Nat} {c : FetchCall}
    {i : Int} {tp : Option Tagged} (hc : s.calls[j]? = some c) (hpc : c.pc = .sent i tp) (ha : ∀ r, a ≠ .answer j r) :
    s'.calls[j]? = some c := by
  have hset : ∀ (j' : Nat) (c1 : FetchCall), j' ≠ j → (s.calls.set j' c1)[j]? = some c := by
    intro j' c1 hne; rw [List.getElem?_set_ne hne]; exact hc
  unfold fStep at hs
  split at hs
  · simp at hs
  cases a with
  | tick d => simp only [Option.some.injEq] at hs; subst hs; exact hc
  | setKeys k => simp only [Option.some.injEq] at hs; subst hs; exact hc
  | call retry =>
    simp only [Option.some.injEq] at hs; subst hs
    simp only
    rw [List.getElem?_append_left (List.getElem?_eq_some_iff.mp hc).1]; exact hc
  | send j' =>
    simp only at hs
    split at hs
    · rename_i retry i' le hc'
      split at hs
      · simp at hs
      · simp only [Option.some.injEq] at hs; subst hs
        refine hset j' _ ?_
        rintro rfl
        rw [hc] at hc'
        simp only [Option.some.injEq] at hc'
        rw [hc'] at hpc; simp at hpc
    · simp at hs
  | answer j' r =>
    have hne : j' ≠ j := by rintro rfl; exact ha r rfl
    simp only at hs
    repeat' split at hs
    all_goals first
      | (simp at hs; done)
      | (simp only [Option.some.injEq] at hs; subst hs; exact hc)
      | (simp only [Option.some.injEq] at hs; subst hs; exact hset j' _ hne)
  | giveUp j' =>
    simp only at hs
    split at hs
    · rename_i i' le hc'
      split at hs
      · simp at hs
      · simp only [Option.some.injEq] at hs; subst hs
        refine hset j' _ ?_
        rintro rfl
        rw [hc] at hc'
        simp only [Option.some.injEq] at hc'
        rw [hc'] at hpc; simp at hpc
    · simp at hs

theorem sent_run {cfg : FetchCfg} {s s' : FState} {as : List FAct} (hs : fRun cfg s as = some s') {j : Nat} {c : FetchCall}
    {i : Int} {tp : Option Tagged} (hc : s.calls[j]? = some c) (hpc : c.pc = .sent i tp) (ha : ∀ r, FAct.answer j r ∉ as) :
    s'.calls[j]? = some c := by
  induction as generalizing s with
  | nil => simp only [fRun, Option.some.injEq] at hs; subst hs; exact hc
  | cons a as ih =>
    simp only [fRun] at hs
    split at hs
    · simp at hs
    · rename_i s1 hs1
      refine ih hs (sent_step hs1 hc hpc ?_) (fun r hr => ha r (by simp [hr]))
      rintro r rfl
      exact ha r (by simp)

end Athenz
