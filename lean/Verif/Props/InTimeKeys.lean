import Verif.Props.InTimePkRun
import Verif.Props.InTimeJwkRun

/-! # C104: how long tokens that are signed with withdrawn keys are accepted -/

namespace Athenz
open Spec

/-- **C104**.  In a started authorizer whose public key daemon and JWK daemon go on without delay, from the time `t` on ZTS has the keys `K` and the
servers of the configured URLs give the sets `S`.  A call that begins when both daemons have had the time for an update, and the time in which calls store
their results and the lifetime of cached results have passed, is granted only if a token with the same cache key is a role token signed with a key of
`K` or an access token signed with a key of `S`. -/
theorem C104_signed (cfg : SysCfg) (ce : Str) (now : Int) (h0 : 0 ≤ now) (hexp : 0 < cfg.auth.cacheExp) (on : LKind → Bool)
    (honp : on .pubkeyd = true) (honj : on .jwkd = true) (y : RsExec cfg ce now on) (pp pj : PaceCfg) (ep ej : Nat → Int → TFetch) (Bp Bj : Nat)
    (cp cj : Nat → TLoop) (hf : InitFirst y Bp) (hyp : PkInTime y pp ep Bp cp) (hyj : JwkInTime y pj ej Bj cj) (hpp : 0 < pp.period)
    (hpj : 0 < pj.period) (hatp : pp.atTick = false) (hatj : pj.atTick = true) (Up Uj : Nat) (hUp : Takes Up ep) (hUj : Takes Uj ej) (N : Nat)
    (V : Str) (K : Str → Option SigVerifier) (S : Str → JwkSet) (hk : ServesKeys (pkExecOf y.sys) N .zts V K)
    (hans : Answers (pkExecOf y.sys) N .zts) (hv : Versioned (pkExecOf y.sys) .zts V K)
    (hg : ∀ url, ConfiguredURL cfg.jwk url → GivesSet y.sys N url (S url)) (t : Int) (htp : pp.t0 ≤ t) (htj : pj.t0 ≤ t)
    (hN : ∀ n, t ≤ (y.state n).sys.auth.now → N ≤ n) (D : Int) (hDp : t + max pp.period (Up + pp.delay.toNat) + Up ≤ D)
    (hDj : t + max pj.period (Uj + pj.delay.toNat) + Uj ≤ D) (m : Nat) (L : Nat) (hL : StoresWithin L (y.state m).sys.auth.log)
    (hbig : (y.state m).sys.auth.now + cfg.auth.cacheExp < 2 ^ 63) (i : Nat) (q : AReq) (p : Principal)
    (hlate : ∀ tb, .begun i tb ∈ (y.state m).sys.auth.log → D + L + cfg.auth.cacheExp < tb)
    (hc : (y.state m).sys.auth.calls i = some ⟨q, .done (.ok p)⟩) :
    ∃ q', cacheKey cfg.auth q' = cacheKey cfg.auth q ∧
      SignedBy cfg (fun id ver => K id = some ver) (fun url kid k => ConfiguredURL cfg.jwk url ∧ KeyIn (S url) kid k) q' := by
  obtain ⟨tb, hb, hb'⟩ := PacedP.begun_of_call (SysExec.run y.sys m) hc
  have hl := hlate tb hb
  have hb' : tb ≤ (y.state m).sys.auth.now := hb'
  obtain ⟨pick, call, done, hx⟩ := C103_paced cfg ce now on honp y pp ep Bp cp hf hyp hpp hatp D m (InTimePkP.started hyp (by omega)) (by omega)
  obtain ⟨pick', call', done', hx'⟩ := C102_paced cfg ce now on honj y pj ej Bj cj hyj hpj hatj D m (InTimeJwkP.started hyj (by omega)) (by omega)
  obtain ⟨M, hM, hin⟩ := PacedPkP.in_use (x := y.sys) hk hans hv (C79_serial cfg ce now on y honp Bp hf .zts) hN hpp htp hUp hx hDp
  obtain ⟨M', hM', hin'⟩ := PacedJwkP.in_use (x := y.sys) hg hN hpj htj hUj hx' hDj
  have hmax : (y.sys.state (max M M')).auth.now ≤ D := by
    rcases Nat.le_total M M' with h | h
    · rw [Nat.max_eq_right h]; omega
    · rw [Nat.max_eq_left h]; omega
  refine PacedPkP.grant_after (x := y.sys) h0 hexp hmax (fun n hn => ⟨fun id ver hkey => ?_, fun kid jku key hkey => ?_⟩) m L hL hbig i q p hlate hc
  · show K id = some ver
    rw [← hin n (by omega) id]
    exact hkey
  · obtain ⟨acts, hj⟩ := (sysRuns_run (SysExec.run y.sys n)).2.jwk
    obtain ⟨_, hu, _⟩ := C29_sources cfg.jwk acts _ hj kid jku key hkey
    exact ⟨hu, ((hin' n (by omega) _ hu kid jku rfl key).mp hkey).2⟩

namespace Ex

/-- `Init` loads the old keys, the policy and the old set. -/
def ibInit : List RAct := ikInit ++ [.sys (.jwk .update), .sys (.jwk (.fetch 0 (some pjOld))), .sys (.jwk (.store 0))]

/-- Keys and set change after 50 seconds; after 100 seconds both tickers begin updates, which get the new ones; 90 seconds later there is a call with a
role token that names the new key. -/
def ibAll : List RAct := ibInit ++
  [.sys (.tick 50000000000), .sys (.tick 50000000000), .fwd (.child .pubkeyd .tick), .fwd (.child .jwkd .tick), .call .jwkd false [],
   .call .pubkeyd false [], .sys (.tick 1), .sys (.jwk (.fetch 1 (some pjNew)))] ++
  (([.send 2, .answer 2 (.answer 200 ikNew "Y".toList) ["3".toList], .step 2 [], .step 2 ["1".toList, "3".toList], .step 2 [], .step 2 [], .step 2 [],
    .send 3, .answer 3 (.answer 200 "tm".toList "M".toList) ["0".toList], .step 3 [], .step 3 ["0".toList], .step 3 [], .step 3 []] :
    List PkAct).map fun a => .sys (.pk a)) ++
  [.sys (.jwk (.store 1)), .ret .pubkeyd [], .ret .jwkd [], .sys (.tick 90000000000)] ++ (.auth (.call 0 ikReq) :: syCall 0).map .sys

/-- The schedule, and then nothing but the passing of no time. -/
def ibAct (n : Nat) : RAct := (ibAll[n]?).getD (.sys (.tick 0))

def ibStates : Nat → RSys
  | 0 => rsInit (sysInit ikCfg (auT 1500)) (fun _ => true)
  | n + 1 => (rsStep ikCfg [] (ibStates n) (ibAct n)).getD (ibStates n)

theorem ibAct_end (n : Nat) : ibAct (ibAll.length + n) = .sys (.tick 0) := by simp [ibAct]

theorem ibLive : (ibStates ibAll.length).sys.dead = false := by decide +kernel

theorem ibStep_end : rsStep ikCfg [] (ibStates ibAll.length) (.sys (.tick 0)) = some (ibStates ibAll.length) := by
  have h := ibLive
  generalize ibStates ibAll.length = s at h ⊢
  simp [rsStep, h, sysStep_tick0 h]

theorem ibStates_end (n : Nat) : ibStates (ibAll.length + n) = ibStates ibAll.length := by
  induction n with
  | zero => rfl
  | succ n ih =>
    rw [show ibAll.length + (n + 1) = (ibAll.length + n) + 1 from rfl, ibStates, ih, ibAct_end, ibStep_end, Option.getD_some]

theorem ibSteps : ∀ n, n < ibAll.length → (rsStep ikCfg [] (ibStates n) (ibAct n)).isSome = true := by decide +kernel

def ibExec : RsExec ikCfg [] (auT 1500) (fun _ => true) where
  state := ibStates
  act := ibAct
  init := rfl
  next := by
    intro n
    show rsStep ikCfg [] (ibStates n) (ibAct n) = some ((rsStep ikCfg [] (ibStates n) (ibAct n)).getD (ibStates n))
    have hsome : (rsStep ikCfg [] (ibStates n) (ibAct n)).isSome = true := by
      by_cases hn : n < ibAll.length
      · exact ibSteps n hn
      · obtain ⟨k, rfl⟩ : ∃ k, n = ibAll.length + k := ⟨n - ibAll.length, by omega⟩
        rw [ibStates_end, ibAct_end, ibStep_end]
        rfl
    obtain ⟨s, hs⟩ := Option.isSome_iff_exists.mp hsome
    rw [hs]; rfl

/-- The goroutine `k` in time. -/
def ibNext (k : LKind) (a : RAct) (s : TLoop) : TLoop :=
  match a with
  | .sys (.tick d) => { s with now := s.now + d }
  | .fwd (.child k' .tick) => if k' = k then { s with l := (lStep k [] s.l .tick).getD s.l, fired := s.fired + 1 } else s
  | .call k' _ _ => if k' = k then { s with l := (lStep k [] s.l .selTick).getD s.l, since := s.now, calls := s.calls ++ [(.tick, s.now)] } else s
  | .ret k' _ => if k' = k then { s with l := (lStep k [] s.l .updOk).getD s.l, since := s.now } else s
  | _ => s

/-- What is checked of a step by evaluation. -/
def ibGood (k : LKind) (pace : PaceCfg) (a : RAct) (s : TLoop) : Bool :=
  match a with
  | .sys (.tick d) => d == 0 || (decide (s.now + d ≤ s.due pace) && (match s.l.pc with
    | .select => decide (s.l.fch = 0) && !s.l.tick
    | .updating _ => decide (s.now + d ≤ s.since + (s.upd paEnv).dur)
    | _ => false))
  | .sys _ => true
  | .fwd (.child k' .tick) => decide (k' ≠ k) || (decide (s.now = s.due pace) && (lStep k [] s.l .tick).isSome)
  | .call k' _ _ => decide (k' ≠ k) || (decide (s.now < s.due pace) && (lStep k [] s.l .selTick).isSome)
  | .ret k' _ => decide (k' ≠ k) || (decide (s.now < s.due pace) && decide (s.now = s.since + (s.upd paEnv).dur) && (lStep k [] s.l .updOk).isSome)
  | _ => false

theorem ibGood_step {k : LKind} {pace : PaceCfg} {a : RAct} {s : TLoop} (h : ibGood k pace a s = true) :
    ibNext k a s = s ∨ TlStep k [] pace paEnv s (ibNext k a s) := by
  unfold ibGood at h
  split at h
  · rename_i d
    by_cases hd : d = 0
    · subst hd; left; simp [ibNext]
    · right
      have hd' : (d == 0) = false := by simpa using hd
      simp only [hd', Bool.false_or, Bool.and_eq_true, decide_eq_true_eq] at h
      refine .pass d (by omega) ?_ h.1
      have h2 := h.2
      unfold NothingToDo
      split at h2
      · rename_i hpc; simp only [hpc]; simpa using h2
      · rename_i hpc; simp only [hpc]; simpa using h2
      · cases h2
  · rename_i a' _
    left
    cases a' <;> first | rfl | (rename_i hh; exact absurd rfl (hh _))
  · rename_i k'
    by_cases hk : k' = k
    · right
      simp only [hk, ne_eq, not_true_eq_false, decide_false, Bool.false_or, Bool.and_eq_true, decide_eq_true_eq] at h
      obtain ⟨l, hl⟩ := Option.isSome_iff_exists.mp h.2
      simp only [ibNext, hk, if_true, hl, Option.getD_some]
      exact .tick _ h.1 hl
    · left; simp [ibNext, hk]
  · rename_i k' _ _
    by_cases hk : k' = k
    · right
      simp only [hk, ne_eq, not_true_eq_false, decide_false, Bool.false_or, Bool.and_eq_true, decide_eq_true_eq] at h
      obtain ⟨l, hl⟩ := Option.isSome_iff_exists.mp h.2
      simp only [ibNext, hk, if_true, hl, Option.getD_some]
      exact .call .tick l h.1 hl
    · left; simp [ibNext, hk]
  · rename_i k' _
    by_cases hk : k' = k
    · right
      simp only [hk, ne_eq, not_true_eq_false, decide_false, Bool.false_or, Bool.and_eq_true, decide_eq_true_eq] at h
      obtain ⟨l, hl⟩ := Option.isSome_iff_exists.mp h.2
      simp only [ibNext, hk, if_true, hl, Option.getD_some]
      exact .ret [] l h.1.1 h.1.2 (by simpa [TLoop.upd, paEnv] using hl)
    · left; simp [ibNext, hk]
  · cases h

/-- From the end of `Init` on. -/
def ibClock (k : LKind) (pace : PaceCfg) : Nat → TLoop
  | 0 => tlInit pace
  | n + 1 => ibNext k (ibAct (ibInit.length + n)) (ibClock k pace n)

def ibC (k : LKind) (pace : PaceCfg) (n : Nat) : TLoop := ibClock k pace (n - ibInit.length)

theorem ibC_next {k : LKind} {pace : PaceCfg} {n : Nat} (h : ibInit.length ≤ n) : ibC k pace (n + 1) = ibNext k (ibAct n) (ibC k pace n) := by
  obtain ⟨d, rfl⟩ := Nat.exists_eq_add_of_le h
  unfold ibC
  rw [show ibInit.length + d + 1 - ibInit.length = d + 1 by omega, show ibInit.length + d - ibInit.length = d by omega]
  rfl

theorem ibC_end (k : LKind) (pace : PaceCfg) (n : Nat) : ibC k pace (ibAll.length + n) = ibC k pace ibAll.length := by
  induction n with
  | zero => rfl
  | succ n ih =>
    have hle : ibInit.length ≤ ibAll.length := by decide +kernel
    rw [show ibAll.length + (n + 1) = ibAll.length + n + 1 by omega, ibC_next (by omega), ih, ibAct_end]
    simp [ibNext]

theorem ibPrompt {k : LKind} {pace : PaceCfg}
    (good : ∀ n, n < ibAll.length → ibInit.length ≤ n → ibGood k pace (ibAct n) (ibC k pace n) = true) : Prompt k [] pace paEnv ibInit.length (ibC k pace) := by
  refine ⟨by simp [ibC, ibClock], ?_⟩
  intro n hn
  by_cases hl : n < ibAll.length
  · rw [ibC_next hn]
    exact ibGood_step (good n hl hn)
  · obtain ⟨d, rfl⟩ : ∃ d, n = ibAll.length + d := ⟨n - ibAll.length, by omega⟩
    left
    rw [show ibAll.length + d + 1 = ibAll.length + (d + 1) by omega, ibC_end, ibC_end]

theorem ibBoth {k : LKind} {pace : PaceCfg}
    (key : ∀ n, n < ibAll.length + 1 → ibInit.length ≤ n → (ibStates n).fwd.child k = some (ibC k pace n).l ∧
      (ibC k pace n).now = (ibStates n).sys.auth.now) (n : Nat) (hn : ibInit.length ≤ n) :
    (ibStates n).fwd.child k = some (ibC k pace n).l ∧ (ibC k pace n).now = (ibStates n).sys.auth.now := by
  by_cases hl : n < ibAll.length + 1
  · exact key n hl hn
  · obtain ⟨d, rfl⟩ : ∃ d, n = ibAll.length + d := ⟨n - ibAll.length, by omega⟩
    rw [ibC_end, ibStates_end]
    exact key ibAll.length (by omega) (by decide +kernel)

theorem ibPk : PkInTime ibExec ikPace paEnv ibInit.length (ibC .pubkeyd ikPace) := by
  have both := ibBoth (k := .pubkeyd) (pace := ikPace) (by decide +kernel)
  exact ⟨ibPrompt (by decide +kernel), fun n hn => (both n hn).1, fun n hn => (both n hn).2⟩

theorem ibJwk : JwkInTime ibExec pjPace paEnv ibInit.length (ibC .jwkd pjPace) := by
  have both := ibBoth (k := .jwkd) (pace := pjPace) (by decide +kernel)
  have pre : ∀ n, n < ibInit.length → (match ibAct n with | .sys _ => true | _ => false) = true := by decide +kernel
  have only : ∀ n, n < ibAll.length → (match ibAct n with | .sys (.jwk .update) => n == ibInit.length - 3 | _ => true) = true := by decide +kernel
  have init : (((ibExec.state ibInit.length).sys.jwk.jobs[(ibExec.state (ibInit.length - 3)).sys.jwk.jobs.length]?).map fun b => b.result.isSome) = some true := by
    decide +kernel
  refine ⟨?_, ?_, ibPrompt (by decide +kernel), fun n hn => (both n hn).1, fun n hn => (both n hn).2⟩
  · intro n r f hn ha
    have := pre n hn
    rw [show ibAct n = _ from ha] at this
    cases this
  · intro n ha
    have ha : ibAct n = .sys (.jwk .update) := ha
    have hn : n = ibInit.length - 3 := by
      by_cases hl : n < ibAll.length
      · have := only n hl
        rw [ha] at this
        simpa using this
      · obtain ⟨d, rfl⟩ : ∃ d, n = ibAll.length + d := ⟨n - ibAll.length, by omega⟩
        rw [ibAct_end] at ha
        cases ha
    subst hn
    refine ⟨by decide +kernel, ?_⟩
    obtain ⟨b, hb, hr⟩ := Option.map_eq_some_iff.mp init
    obtain ⟨e, he⟩ := Option.isSome_iff_exists.mp hr
    exact ⟨b, e, hb, he⟩

theorem ibGives (url : Str) : GivesSet ibExec.sys (ibInit.length + 1) url pjNew := by
  intro n hn j out hact _
  have hall : ∀ n, n < ibAll.length → (n < ibInit.length + 1 || match (ibAct n).proj with | .jwk (.fetch _ o) => o == some pjNew | _ => true) = true := by
    decide +kernel
  by_cases hl : n < ibAll.length
  · have := hall n hl
    rw [show (ibAct n).proj = _ from hact] at this
    simpa [Nat.not_lt.mpr hn] using this
  · obtain ⟨d, rfl⟩ : ∃ d, n = ibAll.length + d := ⟨n - ibAll.length, by omega⟩
    have := ibAct_end d
    have hact : (ibAct (ibAll.length + d)).proj = _ := hact
    rw [this] at hact
    cases hact

theorem ibFirst : InitFirst ibExec ibInit.length := by
  have pre : ∀ n, n < ibInit.length → (match ibAct n with | .sys (.pk .update) => n == 0 | .sys _ => true | _ => false) = true := by decide +kernel
  have post : ∀ n, n < ibAll.length → ibInit.length ≤ n → (match ibAct n with | .sys (.pk .update) => false | _ => true) = true := by decide +kernel
  have over : ((ibExec.state ibInit.length).sys.pk.jobs.all fun b => match b.pc with | .done _ => true | _ => false) = true := by decide +kernel
  refine ⟨?_, ?_, ?_, ?_⟩
  · intro n hn r f ha
    have := pre n hn
    rw [show ibAct n = _ from ha] at this
    cases this
  · intro n hn ha
    have := pre n hn
    rw [show ibAct n = _ from ha] at this
    have : n = 0 := by simpa using this
    subst this
    intro j b hb
    have : ([] : List PkJob)[j]? = some b := hb
    simp at this
  · intro j b hb
    have := List.all_eq_true.mp over b (List.mem_of_getElem? hb)
    revert this
    cases hpc : b.pc <;> simp
  · intro n hn ha
    have ha : ibAct n = _ := ha
    by_cases hl : n < ibAll.length
    · have := post n hl hn
      rw [ha] at this
      cases this
    · obtain ⟨d, rfl⟩ : ∃ d, n = ibAll.length + d := ⟨n - ibAll.length, by omega⟩
      rw [ibAct_end] at ha
      cases ha

theorem ibAnswers (n : Nat) : ikAns (decide (ibInit.length + 1 ≤ n)) ((pkExecOf ibExec.sys).act n) = true := by
  have hall : ∀ n, n < ibAll.length → ikAns (decide (ibInit.length + 1 ≤ n)) (pkActOf (ibAct n).proj) = true := by decide +kernel
  show ikAns _ (pkActOf (ibAct n).proj) = true
  by_cases hl : n < ibAll.length
  · exact hall n hl
  · obtain ⟨d, rfl⟩ : ∃ d, n = ibAll.length + d := ⟨n - ibAll.length, by omega⟩
    rw [ibAct_end]
    rfl

theorem ibAnswer {n j : Nat} {r : HttpResult} {o : List Str} (ha : (pkExecOf ibExec.sys).act n = .answer j r o) (hj : jobEnv j = .zts) :
    ∃ tag b, r = .answer 200 tag b ∧ ((tag = ikNew ∧ b = "Y".toList) ∨ (n < ibInit.length + 1 ∧ tag = ikOld)) := by
  have h := ibAnswers n
  rw [ha] at h
  have hj : j % 2 = 0 := by
    unfold jobEnv at hj
    split at hj
    · assumption
    · cases hj
  cases r with
  | fail err => simp [ikAns, hj] at h
  | answer st tag b =>
    simp only [ikAns, hj, ne_eq, not_true_eq_false, decide_false, Bool.false_or, Bool.and_eq_true, decide_eq_true_eq, Bool.or_eq_true,
      Bool.not_eq_true', decide_eq_false_iff_not, Nat.not_le] at h
    obtain ⟨rfl, h⟩ := h
    exact ⟨tag, b, rfl, h⟩

theorem ibServes : ServesKeys (pkExecOf ibExec.sys) (ibInit.length + 1) .zts ikNew ikK := by
  intro n hn j st tag b o ha hj
  obtain ⟨tag', b', h1, h2⟩ := ibAnswer ha hj
  obtain ⟨rfl, rfl, rfl⟩ := HttpResult.answer.inj h1
  rcases h2 with ⟨rfl, rfl⟩ | ⟨h2, _⟩
  · exact ⟨fun _ => ⟨rfl, ikPublishes⟩, fun h => absurd h (by decide)⟩
  · omega

theorem ibAnswering : Answers (pkExecOf ibExec.sys) (ibInit.length + 1) .zts := by
  intro n _ j r o ha hj
  obtain ⟨tag, b, h1, _⟩ := ibAnswer ha hj
  exact ⟨200, tag, b, h1, .inl rfl⟩

theorem ibVersioned : Versioned (pkExecOf ibExec.sys) .zts ikNew ikK := by
  intro n j tag b o ha hj _
  obtain ⟨tag', b', h1, h2⟩ := ibAnswer ha hj
  obtain ⟨_, rfl, rfl⟩ := HttpResult.answer.inj h1
  rcases h2 with ⟨rfl, rfl⟩ | ⟨_, rfl⟩
  · exact ⟨by decide, fun _ => ikPublishes⟩
  · exact ⟨by decide, fun h => absurd h (by decide)⟩

theorem ibLogs : ∀ e ∈ (ibExec.state ibAll.length).sys.auth.log, itLog e = true := by
  have : (ibExec.state ibAll.length).sys.auth.log.all itLog = true := by decide +kernel
  intro e he
  exact List.all_eq_true.mp this e he

end Ex

/-- The goroutines fetch the new list and the new set 100 seconds after they began; the call 90 seconds later, with a role token signed with the new
key, is granted. -/
example : 0 < Ex.ikCfg.auth.cacheExp ∧ InitFirst Ex.ibExec Ex.ibInit.length ∧
    PkInTime Ex.ibExec Ex.ikPace Ex.paEnv Ex.ibInit.length (Ex.ibC .pubkeyd Ex.ikPace) ∧
    JwkInTime Ex.ibExec Ex.pjPace Ex.paEnv Ex.ibInit.length (Ex.ibC .jwkd Ex.pjPace) ∧
    0 < Ex.ikPace.period ∧ 0 < Ex.pjPace.period ∧ Ex.ikPace.atTick = false ∧ Ex.pjPace.atTick = true ∧ Takes 1 Ex.paEnv ∧
    ServesKeys (pkExecOf Ex.ibExec.sys) (Ex.ibInit.length + 1) .zts Ex.ikNew Ex.ikK ∧ Answers (pkExecOf Ex.ibExec.sys) (Ex.ibInit.length + 1) .zts ∧
    Versioned (pkExecOf Ex.ibExec.sys) .zts Ex.ikNew Ex.ikK ∧
    (∀ url, ConfiguredURL Ex.ikCfg.jwk url → GivesSet Ex.ibExec.sys (Ex.ibInit.length + 1) url Ex.pjNew) ∧
    (∀ n, Ex.auT 1500 + 1 ≤ (Ex.ibExec.state n).sys.auth.now → Ex.ibInit.length + 1 ≤ n) ∧
    Ex.auT 1500 + 1 + max Ex.ikPace.period ((1 : Nat) + Ex.ikPace.delay.toNat) + (1 : Nat) ≤ Ex.auT 1600 + 2 ∧
    Ex.auT 1500 + 1 + max Ex.pjPace.period ((1 : Nat) + Ex.pjPace.delay.toNat) + (1 : Nat) ≤ Ex.auT 1600 + 2 ∧
    StoresWithin 0 (Ex.ibExec.state Ex.ibAll.length).sys.auth.log ∧
    (∀ tb, .begun 0 tb ∈ (Ex.ibExec.state Ex.ibAll.length).sys.auth.log → Ex.auT 1600 + 2 + 0 + Ex.ikCfg.auth.cacheExp < tb) ∧
    (Ex.ibExec.state Ex.ibAll.length).sys.auth.calls 0 = some ⟨Ex.ikReq, .done (.ok Ex.syPrincipal)⟩ := by
  refine ⟨by decide, Ex.ibFirst, Ex.ibPk, Ex.ibJwk, by decide, by decide, by decide, by decide, Ex.paTakes, Ex.ibServes, Ex.ibAnswering, Ex.ibVersioned,
    fun url _ => Ex.ibGives url, ?_, by decide, by decide, ?_, ?_, Ex.doneOk_iff (by decide +kernel)⟩
  · intro n hn
    refine Classical.byContradiction fun hlt => ?_
    have h : ∀ n, n < Ex.ibInit.length + 1 → (Ex.ibExec.state n).sys.auth.now < Ex.auT 1500 + 1 := by decide +kernel
    have := h n (by omega)
    omega
  · intro j tb ts k p h1 h2
    have g1 := Ex.ibLogs _ h1
    have g2 := Ex.ibLogs _ h2
    simp only [Ex.itLog, decide_eq_true_eq] at g1 g2
    omega
  · intro tb h
    have := Ex.ibLogs _ h
    simp only [Ex.itLog, decide_eq_true_eq] at this
    rw [this]
    decide

end Athenz
