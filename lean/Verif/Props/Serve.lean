import Verif.Spec.Serve
import Verif.Props.Options
import Verif.Props.Authority
import Verif.Proofs.Fetcher

/-! # C56: an authorizer that New returned can serve requests -/

namespace Athenz
open Spec

theorem checkResult_no_panic {U : CaseFns} {q : CheckReq} {view : PolicyView} {sched : List CheckAct} :
    checkResult U q view sched ≠ some .panic := by
  have step : ∀ (s s' : CheckState) a, s.coll ≠ .ret .panic → checkStep U q s a = some s' → s'.coll ≠ .ret .panic := by
    intro s s' a h hs
    have send : ∀ i role e, s.send q i role e = some s' → s'.coll = s.coll := by
      intro i role e hs
      simp only [CheckState.send] at hs
      split at hs
      · simp only [Option.some.injEq] at hs; rw [← hs]
      · split at hs
        · simp only [Option.some.injEq] at hs; rw [← hs]
        · simp at hs
    cases a with
    | worker i =>
      simp only [checkStep] at hs
      repeat' split at hs
      all_goals first
        | (rw [send _ _ _ hs]; exact h)
        | (simp only [Option.some.injEq] at hs; rw [← hs]; exact h)
        | simp at hs
    | close =>
      simp only [checkStep] at hs
      repeat' split at hs
      all_goals first
        | (simp only [Option.some.injEq] at hs; rw [← hs]; exact h)
        | simp at hs
    | recv =>
      simp only [checkStep] at hs
      split at hs
      · simp at hs
      · split at hs
        · split at hs <;> (simp only [Option.some.injEq] at hs; rw [← hs]; simp)
        · split at hs
          · simp only [Option.some.injEq] at hs
            rw [← hs]
            simp only [ne_eq, Collector.ret.injEq]
            split <;> simp
          · simp at hs
    | cancel =>
      simp only [checkStep] at hs
      split at hs
      · simp at hs
      · simp only [Option.some.injEq] at hs; rw [← hs]; exact h
    | mutate v => simp only [checkStep, Option.some.injEq] at hs; rw [← hs]; exact h
  have run : ∀ (l : List CheckAct) (s s' : CheckState), s.coll ≠ .ret .panic → checkRun U q s l = some s' → s'.coll ≠ .ret .panic := by
    intro l
    induction l with
    | nil => intro s s' h hs; simp only [checkRun, Option.some.injEq] at hs; rw [← hs]; exact h
    | cons a l ih =>
      intro s s' h hs
      simp only [checkRun] at hs
      split at hs
      · simp at hs
      · rename_i s1 h1
        exact ih s1 s' (step s s1 a h h1) hs
  intro h
  unfold checkResult at h
  split at h
  · rename_i s hs
    split at h
    · rename_i r hr
      simp only [Option.some.injEq] at h
      exact run sched _ s (by simp [CheckReq.init]) hs (by rw [hr, h])
    · simp at h
  · simp at h

theorem validateToken_no_panic {cfg : AuthCfg} {keys : Option KeyProvider} {jwkp : Option JwkProvider} {now : GoTime} {q : AReq}
    (hr : q.mode = .roleToken → cfg.enableRoleToken = true ∧ keys.isSome = true)
    (ha : q.mode = .accessToken → cfg.enableAccessToken = true ∧ jwkp.isSome = true) : validateToken cfg keys jwkp now q ≠ .panic := by
  unfold validateToken
  cases hm : q.mode with
  | roleToken =>
    obtain ⟨h1, h2⟩ := hr hm
    obtain ⟨ks, rfl⟩ := Option.isSome_iff_exists.mp h2
    have hv : validateRole cfg (some ks) now q.tok ≠ .panic := by
      unfold validateRole
      rw [if_pos h1]
      exact parseAndValidate_no_panic
    simp only
    split
    · simp
    · simp
    · rename_i h; exact absurd h hv
  | accessToken =>
    obtain ⟨h1, h2⟩ := ha hm
    obtain ⟨ks, rfl⟩ := Option.isSome_iff_exists.mp h2
    have hv : validateAccess cfg (some ks) now q.tok q.cert ≠ .panic := by
      unfold validateAccess parseAndValidateAccessToken
      rw [if_pos h1]
      simp only
      repeat' split
      all_goals simp
    simp only
    split
    · simp
    · simp
    · rename_i h; exact absurd h hv

/-- The full statement of C56. -/
def C56_statement : Prop :=
  ∀ (F : NewFns) (opts : List Opt) (b : Built), newAuthority F opts = .ok b → TranslatorFine b → ¬ Crashes b

/-- What goes wrong: a kind of token is enabled and the daemon with its keys is not. -/
def Spec.MissingKeys (a : Settings) : Prop :=
  (a.enableRoleToken = true ∧ a.disablePubkeyd = true) ∨ (a.accessTokenParam.enable = true ∧ a.disableJwkd = true)

theorem built_flags (F : NewFns) (opts : List Opt) (b : Built) (h : newAuthority F opts = .ok b) (lib : JwtLib) (thumb : Str → Str) (U : CaseFns) :
    b.pubkeyd.isSome = !b.set.disablePubkeyd ∧ b.jwkd.isSome = !b.set.disableJwkd ∧
    (b.cfg lib thumb U).enableRoleToken = b.set.enableRoleToken ∧ (b.cfg lib thumb U).enableAccessToken = b.set.accessTokenParam.enable ∧
    (b.cfg lib thumb U).translator = b.set.translator := by
  obtain ⟨_, _, rfl⟩ := (C57_new F opts b).mp h
  have flip : ∀ {α : Type} (f : Bool) (x : α), (if f = true then none else some x).isSome = !f := by
    intro α f x; cases f <;> rfl
  exact ⟨flip _ _, flip _ _, some_isSome _ _, some_isSome _ _, rfl⟩

/-- No call for an enabled kind of token has panicked, and the key providers are as wired. -/
def Fine (b : Built) (s : AState) : Prop :=
  Wired b s.keys s.jwkp ∧ ∀ i q, s.calls i = some ⟨q, .done .panic⟩ → ¬ ModeEnabled b q.mode

theorem fine_run {F : NewFns} {opts : List Opt} {b : Built} (h : newAuthority F opts = .ok b) (ht : TranslatorFine b)
    (hk : ¬ MissingKeys b.set) (lib : JwtLib) (thumb : Str → Str) (U : CaseFns) (acts : List AAct) :
    ∀ s s', Fine b s → (∀ a ∈ acts, WiredAct b a) → aRun (b.cfg lib thumb U) s acts = some s' → Fine b s' := by
  obtain ⟨f1, f2, f3, f4, f5⟩ := built_flags F opts b h lib thumb U
  have step : ∀ s s' a, Fine b s → WiredAct b a → aStep (b.cfg lib thumb U) s a = some s' → Fine b s' := by
    intro s s' a hf hw hs
    have set : ∀ (i : Nat) (q : AReq) (pc : Pc) (s1 : AState), s1.keys = s.keys → s1.jwkp = s.jwkp →
        (∀ j, s1.calls j = if j = i then some ⟨q, pc⟩ else s.calls j) → (pc = .done .panic → ¬ ModeEnabled b q.mode) → Fine b s1 := by
      intro i q pc s1 h1 h2 h3 h4
      refine ⟨by rw [h1, h2]; exact hf.1, ?_⟩
      intro j q' hj
      rw [h3 j] at hj
      split at hj
      · simp only [Option.some.injEq, Call.mk.injEq] at hj
        rw [← hj.1]
        exact h4 hj.2
      · exact hf.2 j q' hj
    have same : ∀ s1 : AState, s1.keys = s.keys → s1.jwkp = s.jwkp → s1.calls = s.calls → Fine b s1 := by
      intro s1 h1 h2 h3
      exact ⟨by rw [h1, h2]; exact hf.1, by rw [h3]; exact hf.2⟩
    cases aStep_effect hs with
    | call i q hc => exact set i q .start _ rfl rfl (fun j => rfl) (by simp)
    | bad i q hc he => exact set i q _ _ rfl rfl (fun j => rfl) (by simp)
    | hit i q p hc he hg => exact set i q _ _ rfl rfl (fun j => rfl) (by simp)
    | miss i q hc he hg => exact set i q _ _ rfl rfl (fun j => rfl) (by simp)
    | valid i q p hc hv => exact set i q _ _ rfl rfl (fun j => rfl) (by split <;> simp)
    | invalid i q r hc hv hr =>
      refine set i q _ _ rfl rfl (fun j => rfl) ?_
      intro hp he
      simp only [Pc.done.injEq] at hp
      rw [hp] at hv
      refine validateToken_no_panic ?_ ?_ hv
      · intro hm
        rw [hm] at he
        refine ⟨f3.trans he, ?_⟩
        rw [hf.1.1, f1]
        cases hd : b.set.disablePubkeyd with
        | false => rfl
        | true => exact absurd (.inl ⟨he, hd⟩) hk
      · intro hm
        rw [hm] at he
        refine ⟨f4.trans he, ?_⟩
        rw [hf.1.2, f2]
        cases hd : b.set.disableJwkd with
        | false => rfl
        | true => exact absurd (.inr ⟨he, hd⟩) hk
    | trans i seed q p act res hc hv => exact set i q _ _ rfl rfl (fun j => rfl) (by simp)
    | transFail i seed q p r hc hv hr =>
      refine set i q _ _ rfl rfl (fun j => rfl) ?_
      intro hp
      simp only [Pc.done.injEq] at hp
      subst hp
      exfalso
      unfold translate at hv
      rw [f5] at hv
      cases hb : b.set.translator with
      | none => rw [hb] at hv; simp [Res.fail] at hv
      | some t =>
        rw [hb] at hv
        simp only at hv
        cases hx : t seed p.domain q.act q.res q.query with
        | ok x => rw [hx] at hv; simp [Res.fail] at hv
        | err e => rw [hx] at hv; simp [Res.fail] at hv
        | panic => exact ht t hb _ _ _ _ _ hx
    | check i view sched q p act res rs hc hv => exact set i q _ _ rfl rfl (fun j => rfl) (by simp)
    | checkFail i view sched q p act res r hc hv hr =>
      refine set i q _ _ rfl rfl (fun j => rfl) ?_
      intro hp
      simp only [Pc.done.injEq] at hp
      subst hp
      exfalso
      obtain ⟨x, hx, hx'⟩ := Option.bind_eq_some_iff.mp hv
      cases x with
      | ok x => simp [Res.fail] at hx'
      | err e => simp [Res.fail] at hx'
      | panic => exact checkResult_no_panic hx
    | store i q p hc => exact set i q _ _ rfl rfl (fun j => rfl) (by simp)
    | opened k r act res hc => exact same _ rfl rfl rfl
    | sub k i q rest tried hs' hc => exact set i q .start _ rfl rfl (fun j => rfl) (by simp)
    | finFails k e rest tried hs' => exact same _ rfl rfl rfl
    | fin k c rest i tried q r hs' hc => exact same _ rfl rfl rfl
    | tick d => exact same _ rfl rfl rfl
    | setKeys ks => exact ⟨⟨hw, hf.1.2⟩, hf.2⟩
    | setJwkp ks => exact ⟨⟨hf.1.1, hw⟩, hf.2⟩
    | sweep sel => exact same _ rfl rfl rfl
    | clear => exact same _ rfl rfl rfl
  induction acts with
  | nil => intro s s' hf _ hs; simp only [aRun, Option.some.injEq] at hs; rw [← hs]; exact hf
  | cons a acts ih =>
    intro s s' hf hw hs
    simp only [aRun] at hs
    split at hs
    · rename_i s1 h1
      exact ih s1 s' (step s s1 a hf (hw a List.mem_cons_self) h1) (fun x hx => hw x (List.mem_cons_of_mem _ hx)) hs
    · simp at hs

theorem fine_init {b : Built} {now : Int} {keys : Option KeyProvider} {jwkp : Option JwkProvider} (h : Wired b keys jwkp) : Fine b (aInit now keys jwkp) :=
  ⟨h, by intro i q hc; simp [aInit] at hc⟩

theorem roleTok_parses : ∃ rt, parseRoleToken Ex.roleTok = .ok rt ∧ rt.expired (clock 1577836800000000000) = false := by
  cases h : parseRoleToken Ex.roleTok with
  | ok rt =>
    refine ⟨rt, rfl, ?_⟩
    have : (match parseRoleToken Ex.roleTok with | .ok rt => rt.expired (clock 1577836800000000000) | _ => true) = false := by decide +kernel
    rw [h] at this
    exact this
  | err e =>
    have : Ex.isOk (parseRoleToken Ex.roleTok) = true := by decide +kernel
    rw [h] at this; cases this
  | panic => exact absurd h parseRoleToken_no_panic

/-- **C56**, exactly when.  With what `New` returned, a call for an enabled kind of token can panic if and only if the keys for it are
missing because their daemon is disabled.  The full statement is false for these configurations, which `New` accepts. -/
theorem C56_exactly_partial (F : NewFns) (opts : List Opt) (b : Built) (h : newAuthority F opts = .ok b) (ht : TranslatorFine b) :
    Crashes b ↔ MissingKeys b.set := by
  constructor
  · rintro ⟨lib, thumb, U, now, keys, jwkp, acts, s, i, q, hw, ha, hr, hm, hc⟩
    exact Classical.byContradiction fun hk => (fine_run h ht hk lib thumb U acts _ _ (fine_init hw) ha hr).2 i q hc hm
  · intro hk
    obtain ⟨f1, f2, f3, f4, _⟩ := built_flags F opts b h Ex.atLib (fun x => x) asciiCase
    have hwired : ∃ keys jwkp, Wired b keys jwkp ∧ (b.set.disablePubkeyd = true → keys = none) ∧ (b.set.disableJwkd = true → jwkp = none) := by
      refine ⟨if b.set.disablePubkeyd then none else some Ex.roleKeys, if b.set.disableJwkd then none else some Ex.atKeys, ⟨?_, ?_⟩, ?_, ?_⟩
      · rw [f1]; cases b.set.disablePubkeyd <;> rfl
      · rw [f2]; cases b.set.disableJwkd <;> rfl
      · intro h; rw [h]; rfl
      · intro h; rw [h]; rfl
    obtain ⟨keys, jwkp, hw, hk1, hk2⟩ := hwired
    have go : ∀ q : AReq, q.act ≠ [] → q.res ≠ [] → ModeEnabled b q.mode →
        validateToken (b.cfg Ex.atLib (fun x => x) asciiCase) keys jwkp (clock 1577836800000000000) q = .panic → Crashes b := by
      intro q h1 h2 h3 h4
      have e1 : ∀ (s : AState) c, (b.cfg Ex.atLib (fun x => x) asciiCase).disablePolicyd = c → ¬ (c = false ∧ (q.act = [] ∨ q.res = [])) := by
        rintro s c - ⟨_, h | h⟩
        · exact h1 h
        · exact h2 h
      refine ⟨Ex.atLib, fun x => x, asciiCase, 1577836800000000000, keys, jwkp, [.call 0 q, .get 0, .validate 0],
        (((((aInit 1577836800000000000 keys jwkp).setPc 0 q .start).note (.begun 0 1577836800000000000)).setPc 0 q .miss).note
          (.validated 0 1577836800000000000 keys jwkp)).setPc 0 q (.done .panic), 0, q, hw, ?_, ?_, h3, ?_⟩
      · intro a ha
        simp only [List.mem_cons, List.not_mem_nil, or_false] at ha
        rcases ha with rfl | rfl | rfl <;> trivial
      · have s1 : aStep (b.cfg Ex.atLib (fun x => x) asciiCase) (aInit 1577836800000000000 keys jwkp) (.call 0 q) =
            some (((aInit 1577836800000000000 keys jwkp).setPc 0 q .start).note (.begun 0 1577836800000000000)) := rfl
        have s2 : aStep (b.cfg Ex.atLib (fun x => x) asciiCase) (((aInit 1577836800000000000 keys jwkp).setPc 0 q .start).note
            (.begun 0 1577836800000000000)) (.get 0) = some ((((aInit 1577836800000000000 keys jwkp).setPc 0 q .start).note
            (.begun 0 1577836800000000000)).setPc 0 q .miss) := by
          simp only [aStep, AState.note, AState.setPc, if_true]
          rw [if_neg (e1 (aInit 0 none none) _ rfl)]
          rfl
        have s3 : aStep (b.cfg Ex.atLib (fun x => x) asciiCase) ((((aInit 1577836800000000000 keys jwkp).setPc 0 q .start).note
            (.begun 0 1577836800000000000)).setPc 0 q .miss) (.validate 0) =
            some ((((((aInit 1577836800000000000 keys jwkp).setPc 0 q .start).note (.begun 0 1577836800000000000)).setPc 0 q .miss).note
          (.validated 0 1577836800000000000 keys jwkp)).setPc 0 q (.done .panic)) := by
          simp only [aStep, AState.note, AState.setPc, if_true, aInit, h4]
        simp only [aRun, s1, s2, s3]
      · simp [AState.setPc]
    rcases hk with ⟨h1, h2⟩ | ⟨h1, h2⟩
    · refine go ⟨.roleToken, Ex.roleTok, "a".toList, "r".toList, [], none⟩ (by decide) (by decide) h1 ?_
      obtain ⟨rt, hp, he⟩ := roleTok_parses
      have : validateRole (b.cfg Ex.atLib (fun x => x) asciiCase) keys (clock 1577836800000000000) Ex.roleTok = .panic := by
        unfold validateRole
        rw [if_pos (f3.trans h1), hk1 h2]
        simp only [hp, he, Bool.false_eq_true, if_false]
      unfold validateToken
      simp only [this]
    · refine go ⟨.accessToken, "H.P.S".toList, "a".toList, "r".toList, [], none⟩ (by decide) (by decide) h1 ?_
      have hq : keyAsked Ex.atLib "H.P.S".toList = true := by decide +kernel
      have hl : (b.cfg Ex.atLib (fun x => x) asciiCase).access.lib = Ex.atLib := by
        unfold Built.cfg
        cases b.access <;> rfl
      have : validateAccess (b.cfg Ex.atLib (fun x => x) asciiCase) jwkp (clock 1577836800000000000) "H.P.S".toList none = .panic := by
        unfold validateAccess
        rw [if_pos (f4.trans h1), hk2 h2]
        simp only [hl, hq, if_true]
      unfold validateToken
      simp only [this]

/-- **C56**, `Verify` and `Authorize`.  They only ask enabled checks, so with the keys at hand they do not panic, either. -/
theorem C56_sessions_partial (F : NewFns) (opts : List Opt) (b : Built) (h : newAuthority F opts = .ok b) (ht : TranslatorFine b)
    (hk : ¬ MissingKeys b.set) (lib : JwtLib) (thumb : Str → Str) (U : CaseFns) (now : Int) (keys : Option KeyProvider)
    (jwkp : Option JwkProvider) (hw : Wired b keys jwkp) (acts : List AAct) (ha : ∀ a ∈ acts, WiredAct b a) (s : AState)
    (hr : aRun (b.cfg lib thumb U) (aInit now keys jwkp) acts = some s) (k : Nat) (x : Sess) (hx : s.sess k = some x) : x.result ≠ some .panic := by
  intro hp
  obtain ⟨f1, f2, f3, f4, _⟩ := built_flags F opts b h lib thumb U
  have hi := sInv_run hr
  obtain ⟨r, act, res, ho⟩ := hi.sess k x hx
  obtain ⟨x', hx', hok⟩ := hi.opened k r act res ho
  rw [hx] at hx'
  simp only [Option.some.injEq] at hx'
  subst hx'
  have hc := hok.comb
  rw [hp] at hc
  obtain ⟨pre, c, i, rest, h1, _, h3⟩ := hc
  have hm : (c, i, Res.panic) ∈ x.tried := by rw [h1]; simp
  cases c with
  | fails e => have := (hok.fails e i _ hm).2; simp at this
  | token q =>
    obtain ⟨j, _, hj⟩ := hok.token q i _ hm
    refine (fine_run h ht hk lib thumb U acts _ _ (fine_init hw) ha hr).2 j q hj ?_
    have hq : AuthCall.token q ∈ authorizers (b.cfg lib thumb U) r act res := by rw [h3]; simp
    unfold authorizers at hq
    rw [f3, f4] at hq
    simp only [List.mem_append] at hq
    rcases hq with (hq | hq) | hq
    · split at hq <;> simp at hq
    · split at hq
      · rename_i he
        simp only [List.mem_singleton] at hq
        split at hq
        · cases hq
        · simp only [AuthCall.token.injEq] at hq
          rw [hq]
          exact he
      · simp at hq
    · split at hq
      · rename_i he
        simp only [List.mem_singleton, AuthCall.token.injEq] at hq
        rw [hq]
        exact he
      · simp at hq

/-- **C56**, the policy daemon.  Its key provider is missing exactly if the public key daemon is disabled, and then it panics on every
policy with data and an expiry that has not passed. -/
theorem C56_policy_partial (F : NewFns) (opts : List Opt) (b : Built) (h : newAuthority F opts = .ok b) (p : PdSettings) (hp : b.policyd = some p)
    (C : Codec) (ks : KeyProvider) (now : Int) (sp : SignedPolicy) :
    verifyPolicyWith C (if p.pkp then some ks else none) now (some sp) = .panic ↔
      b.set.disablePubkeyd = true ∧ ∃ d e, sp.data = some d ∧ d.expires = some e ∧ 0 < satSub e now := by
  obtain ⟨_, _, rfl⟩ := (C57_new F opts b).mp h
  have hpk : p.pkp = !(settingsOf opts).disablePubkeyd := by
    have : (builtOf F (settingsOf opts)).policyd = some p := hp
    unfold builtOf at this
    simp only at this
    split at this
    · cases this
    · simp only [Option.some.injEq] at this
      rw [← this]
  rw [hpk]
  have hset : (builtOf F (settingsOf opts)).set = settingsOf opts := rfl
  rw [hset]
  cases (settingsOf opts).disablePubkeyd with
  | false =>
    simp only [Bool.not_false, if_true, Bool.false_eq_true, false_and, iff_false]
    exact verifyPolicy_no_panic
  | true =>
    simp only [Bool.not_true, Bool.false_eq_true, if_false, true_and, verifyPolicyWith]
    cases hd : sp.data with
    | none => simp
    | some d =>
      simp only [Option.some.injEq]
      cases he : d.expires with
      | none => simp only [reduceCtorEq, false_iff]; rintro ⟨d', e, rfl, h, _⟩; rw [he] at h; cases h
      | some e =>
        constructor
        · intro h
          refine ⟨d, e, rfl, he, ?_⟩
          simp only at h
          split at h
          · cases h
          · omega
        · rintro ⟨d', e', rfl, h, hlt⟩
          rw [he] at h
          simp only [Option.some.injEq] at h
          subst h
          simp only
          rw [if_neg (by omega)]

theorem acceptable_disable (x : Opt) (hx : x = .disablePubkeyd ∨ x = .disableJwkd) : ∃ b, newAuthority Ex.newFns [x] = .ok b ∧ TranslatorFine b ∧ b.set = settingsOf [x] := by
  have hd : DurOk Ex.newFns "1h".toList :=
    .inr ⟨_, parseDuration_whole Ex.newFns.frac (ds := "1".toList) (u := "h".toList) (n := 1) (unit := 3600000000000) (by decide) (by decide) (by decide) (by decide)⟩
  have he : DurOk Ex.newFns [] := .inl rfl
  refine ⟨builtOf Ex.newFns (settingsOf [x]), (C57_new _ _ _).mpr ⟨?_, ?_, rfl⟩, ?_, rfl⟩
  · intro url hm
    rcases hx with rfl | rfl <;> simp at hm
  · rcases hx with rfl | rfl <;>
      exact ⟨fun _ => ⟨he, he, he, he⟩, fun _ => ⟨he, he, he, he⟩, fun _ => ⟨by decide +kernel, he, he, fun u hu => by cases hu⟩, fun _ => ⟨hd, hd⟩, .inl rfl⟩
  · intro t h
    rcases hx with rfl | rfl <;> cases h

/-- The full statement of **C56** is false: `New(WithDisablePubkeyd())` succeeds, role tokens stay enabled, and a role token that is not
expired crashes the caller.  So does `New(WithDisableJwkd())` with an access token. -/
theorem C56_refuted : ¬ C56_statement := by
  intro h
  obtain ⟨b, hb, ht, hs⟩ := acceptable_disable .disablePubkeyd (.inl rfl)
  exact h _ _ b hb ht ((C56_exactly_partial _ _ b hb ht).mpr (.inl (by rw [hs]; exact ⟨rfl, rfl⟩)))

theorem C56_refuted_access : ∃ F opts b, newAuthority F opts = .ok b ∧ TranslatorFine b ∧ b.set.enableRoleToken = true ∧ b.set.disablePubkeyd = false ∧ Crashes b := by
  obtain ⟨b, hb, ht, hs⟩ := acceptable_disable .disableJwkd (.inr rfl)
  exact ⟨_, _, b, hb, ht, by rw [hs]; rfl, by rw [hs]; rfl, (C56_exactly_partial _ _ b hb ht).mpr (.inr (by rw [hs]; exact ⟨rfl, rfl⟩))⟩

end Athenz
