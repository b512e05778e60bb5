import Verif.Props.InTimeAllRun
import Verif.Props.InForce

/-! # C105 for policies that are not regular -/

namespace Athenz
open Spec

namespace Ex

/-- As in `iaCfg`, but the new policy allows and denies the same. -/
def icCfg : SysCfg :=
  { iaCfg with
    fetch := { iaCfg.fetch with
      codec := { iaCfg.fetch.codec with
        decode := fun b => if b = "O".toList then some (some paOld) else if b = "A".toList then some (some ifPolicy) else none } } }

/-- As in `ifLoad`, the goroutine that has the allow looks before the other one stores the deny, and stores after it. -/
def icUpd : List SysAct :=
  [.pd (.task 1 (.job 0 [])), .fetcher "dom".toList (.send 1), .tick 1, .fetcher "dom".toList (.answer 1 (.answer 200 "t".toList "A".toList))] ++
  ([.task 1 (.job 0 []), .task 1 (.merge 0 0), .task 1 (.merge 0 1), .task 1 (.merge 0 1), .task 1 (.merge 0 0), .task 1 (.job 0 [syRaw]),
    .task 1 (.job 0 []), .task 1 (.job 0 []), .task 1 (.job 0 []), .finish 1] : List PdAct).map .pd

/-- As in `iaAll`: policies, keys and set change after 50 seconds; after 100 seconds the three tickers begin updates, which get the new ones; 90 seconds later there is
a call with a role token that names the new key. -/
def icAll : List RAct := iaInit ++
  [.sys (.tick 50000000000), .sys (.tick 50000000000), .fwd (.child .policyd .tick), .fwd (.child .pubkeyd .tick), .fwd (.child .jwkd .tick),
   .call .policyd false [some ifDoc], .call .jwkd false [], .call .pubkeyd false []] ++ icUpd.map .sys ++ [.sys (.jwk (.fetch 1 (some pjNew)))] ++
  (([.send 2, .answer 2 (.answer 200 ikNew "Y".toList) ["3".toList], .step 2 [], .step 2 ["1".toList, "3".toList], .step 2 [], .step 2 [], .step 2 [],
    .send 3, .answer 3 (.answer 200 "tm".toList "M".toList) ["0".toList], .step 3 [], .step 3 ["0".toList], .step 3 [], .step 3 []] :
    List PkAct).map fun a => .sys (.pk a)) ++
  [.sys (.jwk (.store 1)), .ret .policyd [], .ret .pubkeyd [], .ret .jwkd [], .sys (.tick 90000000000)] ++
  (.auth (.call 0 ikReq) :: syCall 0).map .sys

/-- The schedule, and then nothing but the passing of no time. -/
def icAct (n : Nat) : RAct := (icAll[n]?).getD (.sys (.tick 0))

def icStates : Nat → RSys
  | 0 => rsInit (sysInit icCfg (auT 1500)) (fun _ => true)
  | n + 1 => (rsStep icCfg [] (icStates n) (icAct n)).getD (icStates n)

theorem icAct_end (n : Nat) : icAct (icAll.length + n) = .sys (.tick 0) := by simp [icAct]

theorem icLive : (icStates icAll.length).sys.dead = false := by decide +kernel

theorem icStep_end : rsStep icCfg [] (icStates icAll.length) (.sys (.tick 0)) = some (icStates icAll.length) := by
  have h := icLive
  generalize icStates icAll.length = s at h ⊢
  simp [rsStep, h, sysStep_tick0 h]

theorem icStates_end (n : Nat) : icStates (icAll.length + n) = icStates icAll.length := by
  induction n with
  | zero => rfl
  | succ n ih =>
    rw [show icAll.length + (n + 1) = (icAll.length + n) + 1 from rfl, icStates, ih, icAct_end, icStep_end, Option.getD_some]

theorem icSteps : ∀ n, n < icAll.length → (rsStep icCfg [] (icStates n) (icAct n)).isSome = true := by decide +kernel

def icExec : RsExec icCfg [] (auT 1500) (fun _ => true) where
  state := icStates
  act := icAct
  init := rfl
  next := by
    intro n
    show rsStep icCfg [] (icStates n) (icAct n) = some ((rsStep icCfg [] (icStates n) (icAct n)).getD (icStates n))
    have hsome : (rsStep icCfg [] (icStates n) (icAct n)).isSome = true := by
      by_cases hn : n < icAll.length
      · exact icSteps n hn
      · obtain ⟨k, rfl⟩ : ∃ k, n = icAll.length + k := ⟨n - icAll.length, by omega⟩
        rw [icStates_end, icAct_end, icStep_end]
        rfl
    obtain ⟨s, hs⟩ := Option.isSome_iff_exists.mp hsome
    rw [hs]; rfl

/-- From the end of `Init` on. -/
def icClock (k : LKind) (pace : PaceCfg) : Nat → TLoop
  | 0 => tlInit pace
  | n + 1 => ibNext k (icAct (iaInit.length + n)) (icClock k pace n)

def icC (k : LKind) (pace : PaceCfg) (n : Nat) : TLoop := icClock k pace (n - iaInit.length)

theorem icC_next {k : LKind} {pace : PaceCfg} {n : Nat} (h : iaInit.length ≤ n) : icC k pace (n + 1) = ibNext k (icAct n) (icC k pace n) := by
  obtain ⟨d, rfl⟩ := Nat.exists_eq_add_of_le h
  unfold icC
  rw [show iaInit.length + d + 1 - iaInit.length = d + 1 by omega, show iaInit.length + d - iaInit.length = d by omega]
  rfl

theorem icC_end (k : LKind) (pace : PaceCfg) (n : Nat) : icC k pace (icAll.length + n) = icC k pace icAll.length := by
  induction n with
  | zero => rfl
  | succ n ih =>
    have hle : iaInit.length ≤ icAll.length := by decide +kernel
    rw [show icAll.length + (n + 1) = icAll.length + n + 1 by omega, icC_next (by omega), ih, icAct_end]
    simp [ibNext]

theorem icPrompt {k : LKind} {pace : PaceCfg}
    (good : ∀ n, n < icAll.length → iaInit.length ≤ n → ibGood k pace (icAct n) (icC k pace n) = true) : Prompt k [] pace paEnv iaInit.length (icC k pace) := by
  refine ⟨by simp [icC, icClock], ?_⟩
  intro n hn
  by_cases hl : n < icAll.length
  · rw [icC_next hn]
    exact ibGood_step (good n hl hn)
  · obtain ⟨d, rfl⟩ : ∃ d, n = icAll.length + d := ⟨n - icAll.length, by omega⟩
    left
    rw [show icAll.length + d + 1 = icAll.length + (d + 1) by omega, icC_end, icC_end]

theorem icBoth {k : LKind} {pace : PaceCfg}
    (key : ∀ n, n < icAll.length + 1 → iaInit.length ≤ n → (icStates n).fwd.child k = some (icC k pace n).l ∧
      (icC k pace n).now = (icStates n).sys.auth.now) (n : Nat) (hn : iaInit.length ≤ n) :
    (icStates n).fwd.child k = some (icC k pace n).l ∧ (icC k pace n).now = (icStates n).sys.auth.now := by
  by_cases hl : n < icAll.length + 1
  · exact key n hl hn
  · obtain ⟨d, rfl⟩ : ∃ d, n = icAll.length + d := ⟨n - icAll.length, by omega⟩
    rw [icC_end, icStates_end]
    exact key icAll.length (by omega) (by decide +kernel)

theorem icPd : PdInTime icExec paPace paEnv iaInit.length (icC .policyd paPace) := by
  have both := icBoth (k := .policyd) (pace := paPace) (by decide +kernel)
  have pre : ∀ n, n < iaInit.length → (match icAct n with | .sys _ => true | _ => false) = true := by decide +kernel
  have only : ∀ n, n < icAll.length → (match icAct n with | .sys (.pd (.update _)) => n == 13 | _ => true) = true := by decide +kernel
  have init : (((icExec.state iaInit.length).sys.pd.tasks[(icExec.state 13).sys.pd.tasks.length]?).map fun t => decide (t.ret ≠ none)) = some true := by
    decide +kernel
  refine ⟨?_, ?_, icPrompt (by decide +kernel), fun n hn => (both n hn).1, fun n hn => (both n hn).2⟩
  · intro n r f hn ha
    have := pre n hn
    rw [show icAct n = _ from ha] at this
    cases this
  · intro n fetch ha
    have ha : icAct n = .sys (.pd (.update fetch)) := ha
    have hn : n = 13 := by
      by_cases hl : n < icAll.length
      · have := only n hl
        rw [ha] at this
        simpa using this
      · obtain ⟨d, rfl⟩ : ∃ d, n = icAll.length + d := ⟨n - icAll.length, by omega⟩
        rw [icAct_end] at ha
        cases ha
    subst hn
    refine ⟨by decide +kernel, ?_⟩
    obtain ⟨t, ht, hr⟩ := Option.map_eq_some_iff.mp init
    exact ⟨t, ht, of_decide_eq_true hr⟩

theorem icNew : NewPolicies icExec.sys (iaInit.length + 1) [ifDoc] := by
  have hg : ∀ n, n < icAll.length → (n < iaInit.length + 1 || paGives icCfg ifPolicy (icExec.state n).sys (icAct n).proj) = true := by decide +kernel
  have hc : ∀ n, n < icAll.length → (match (icAct n).proj with | .pd (.task _ .cancel) => false | _ => true) = true := by decide +kernel
  refine ⟨rfl, ?_, ?_, ?_⟩
  · intro j dom d hdom hd n hn k r hact
    have hact : (icAct n).proj = .fetcher dom (.answer k r) := hact
    obtain rfl : ifDoc = d := by
      cases j with
      | zero => simpa using hd
      | succ j => simp at hd
    have hl : n < icAll.length := by
      refine Classical.byContradiction fun hl => ?_
      obtain ⟨e, rfl⟩ : ∃ e, n = icAll.length + e := ⟨n - icAll.length, by omega⟩
      rw [icAct_end] at hact
      cases hact
    have hb := hg n hl
    rw [hact] at hb
    cases r with
    | fail e => simp [paGives, Nat.not_lt.mpr hn] at hb
    | answer st e b =>
      simp only [paGives, Nat.not_lt.mpr hn, decide_false, Bool.false_or, Bool.and_eq_true, decide_eq_true_eq] at hb
      obtain ⟨⟨⟨rfl, hb1⟩, hb2⟩, hb3⟩ := hb
      split at hb1
      · rename_i c hc
        split at hb1
        · rename_i a tp hpc
          exact ⟨ifPolicy, .inl ⟨e, k, b, rfl, ⟨c, a, tp, hc, hpc⟩, hb2, verifyPolicy_ok.mp hb3⟩, docOf_iff.mp (by decide +kernel)⟩
        · simp at hb1
      · simp at hb1
  · intro d hd a ha
    rw [List.mem_singleton.mp hd] at ha
    exact (by decide : ∀ a ∈ ifDoc.policies.flatten, ':' ∈ a.resource) a ha
  · intro n i _ hact
    have hact : (icAct n).proj = .pd (.task i .cancel) := hact
    by_cases hl : n < icAll.length
    · have := hc n hl
      rw [hact] at this
      cases this
    · obtain ⟨e, rfl⟩ : ∃ e, n = icAll.length + e := ⟨n - icAll.length, by omega⟩
      rw [icAct_end] at hact
      cases hact

theorem icPk : PkInTime icExec ikPace paEnv iaInit.length (icC .pubkeyd ikPace) := by
  have both := icBoth (k := .pubkeyd) (pace := ikPace) (by decide +kernel)
  exact ⟨icPrompt (by decide +kernel), fun n hn => (both n hn).1, fun n hn => (both n hn).2⟩

theorem icJwk : JwkInTime icExec pjPace paEnv iaInit.length (icC .jwkd pjPace) := by
  have both := icBoth (k := .jwkd) (pace := pjPace) (by decide +kernel)
  have pre : ∀ n, n < iaInit.length → (match icAct n with | .sys _ => true | _ => false) = true := by decide +kernel
  have only : ∀ n, n < icAll.length → (match icAct n with | .sys (.jwk .update) => n == iaInit.length - 3 | _ => true) = true := by decide +kernel
  have init : (((icExec.state iaInit.length).sys.jwk.jobs[(icExec.state (iaInit.length - 3)).sys.jwk.jobs.length]?).map fun b => b.result.isSome) = some true := by
    decide +kernel
  refine ⟨?_, ?_, icPrompt (by decide +kernel), fun n hn => (both n hn).1, fun n hn => (both n hn).2⟩
  · intro n r f hn ha
    have := pre n hn
    rw [show icAct n = _ from ha] at this
    cases this
  · intro n ha
    have ha : icAct n = .sys (.jwk .update) := ha
    have hn : n = iaInit.length - 3 := by
      by_cases hl : n < icAll.length
      · have := only n hl
        rw [ha] at this
        simpa using this
      · obtain ⟨d, rfl⟩ : ∃ d, n = icAll.length + d := ⟨n - icAll.length, by omega⟩
        rw [icAct_end] at ha
        cases ha
    subst hn
    refine ⟨by decide +kernel, ?_⟩
    obtain ⟨b, hb, hr⟩ := Option.map_eq_some_iff.mp init
    obtain ⟨e, he⟩ := Option.isSome_iff_exists.mp hr
    exact ⟨b, e, hb, he⟩

theorem icGives (url : Str) : GivesSet icExec.sys (iaInit.length + 1) url pjNew := by
  intro n hn j out hact _
  have hall : ∀ n, n < icAll.length → (n < iaInit.length + 1 || match (icAct n).proj with | .jwk (.fetch _ o) => o == some pjNew | _ => true) = true := by
    decide +kernel
  by_cases hl : n < icAll.length
  · have := hall n hl
    rw [show (icAct n).proj = _ from hact] at this
    simpa [Nat.not_lt.mpr hn] using this
  · obtain ⟨d, rfl⟩ : ∃ d, n = icAll.length + d := ⟨n - icAll.length, by omega⟩
    have := icAct_end d
    have hact : (icAct (icAll.length + d)).proj = _ := hact
    rw [this] at hact
    cases hact

theorem icFirst : InitFirst icExec iaInit.length := by
  have pre : ∀ n, n < iaInit.length → (match icAct n with | .sys (.pk .update) => n == 0 | .sys _ => true | _ => false) = true := by decide +kernel
  have post : ∀ n, n < icAll.length → iaInit.length ≤ n → (match icAct n with | .sys (.pk .update) => false | _ => true) = true := by decide +kernel
  have over : ((icExec.state iaInit.length).sys.pk.jobs.all fun b => match b.pc with | .done _ => true | _ => false) = true := by decide +kernel
  refine ⟨?_, ?_, ?_, ?_⟩
  · intro n hn r f ha
    have := pre n hn
    rw [show icAct n = _ from ha] at this
    cases this
  · intro n hn ha
    have := pre n hn
    rw [show icAct n = _ from ha] at this
    have : n = 0 := by simpa using this
    subst this
    intro j b hb
    have : ([] : List PkJob)[j]? = some b := hb
    simp at this
  · intro j b hb
    have := List.all_eq_true.mp over b (List.mem_of_getElem? hb)
    revert this
    cases hpc : b.pc <;> simp
  · intro n hn ha
    have ha : icAct n = _ := ha
    by_cases hl : n < icAll.length
    · have := post n hl hn
      rw [ha] at this
      cases this
    · obtain ⟨d, rfl⟩ : ∃ d, n = icAll.length + d := ⟨n - icAll.length, by omega⟩
      rw [icAct_end] at ha
      cases ha

theorem icAnswers (n : Nat) : ikAns (decide (iaInit.length + 1 ≤ n)) ((pkExecOf icExec.sys).act n) = true := by
  have hall : ∀ n, n < icAll.length → ikAns (decide (iaInit.length + 1 ≤ n)) (pkActOf (icAct n).proj) = true := by decide +kernel
  show ikAns _ (pkActOf (icAct n).proj) = true
  by_cases hl : n < icAll.length
  · exact hall n hl
  · obtain ⟨d, rfl⟩ : ∃ d, n = icAll.length + d := ⟨n - icAll.length, by omega⟩
    rw [icAct_end]
    rfl

theorem icAnswer {n j : Nat} {r : HttpResult} {o : List Str} (ha : (pkExecOf icExec.sys).act n = .answer j r o) (hj : jobEnv j = .zts) :
    ∃ tag b, r = .answer 200 tag b ∧ ((tag = ikNew ∧ b = "Y".toList) ∨ (n < iaInit.length + 1 ∧ tag = ikOld)) := by
  have h := icAnswers n
  rw [ha] at h
  have hj : j % 2 = 0 := by
    unfold jobEnv at hj
    split at hj
    · assumption
    · cases hj
  cases r with
  | fail err => simp [ikAns, hj] at h
  | answer st tag b =>
    simp only [ikAns, hj, ne_eq, not_true_eq_false, decide_false, Bool.false_or, Bool.and_eq_true, decide_eq_true_eq, Bool.or_eq_true,
      Bool.not_eq_true', decide_eq_false_iff_not, Nat.not_le] at h
    obtain ⟨rfl, h⟩ := h
    exact ⟨tag, b, rfl, h⟩

theorem icServes : ServesKeys (pkExecOf icExec.sys) (iaInit.length + 1) .zts ikNew ikK := by
  intro n hn j st tag b o ha hj
  obtain ⟨tag', b', h1, h2⟩ := icAnswer ha hj
  obtain ⟨rfl, rfl, rfl⟩ := HttpResult.answer.inj h1
  rcases h2 with ⟨rfl, rfl⟩ | ⟨h2, _⟩
  · exact ⟨fun _ => ⟨rfl, ikPublishes⟩, fun h => absurd h (by decide)⟩
  · omega

theorem icAnswering : Answers (pkExecOf icExec.sys) (iaInit.length + 1) .zts := by
  intro n _ j r o ha hj
  obtain ⟨tag, b, h1, _⟩ := icAnswer ha hj
  exact ⟨200, tag, b, h1, .inl rfl⟩

theorem icVersioned : Versioned (pkExecOf icExec.sys) .zts ikNew ikK := by
  intro n j tag b o ha hj _
  obtain ⟨tag', b', h1, h2⟩ := icAnswer ha hj
  obtain ⟨_, rfl, rfl⟩ := HttpResult.answer.inj h1
  rcases h2 with ⟨rfl, rfl⟩ | ⟨_, rfl⟩
  · exact ⟨by decide, fun _ => ikPublishes⟩
  · exact ⟨by decide, fun h => absurd h (by decide)⟩

theorem icLogs : ∀ e ∈ (icExec.state icAll.length).sys.auth.log, itLog e = true := by
  have : (icExec.state icAll.length).sys.auth.log.all itLog = true := by decide +kernel
  intro e he
  exact List.all_eq_true.mp this e he

end Ex

/-- **C105** is false for the code without the hypothesis of regularity: the merge of the update loses the deny (C10), and the call is granted
although the one policy that the server has denies all that it allows. -/
theorem C105_refuted : ¬ C105_statement := by
  intro hst
  have hnow : (Ex.icExec.state Ex.icAll.length).sys.auth.now = Ex.auT 1690 + 1 := by decide +kernel
  obtain ⟨_, _, act, res, _, _, _, hdec⟩ := hst Ex.icCfg [] (Ex.auT 1500) (by decide) rfl (by decide) (by decide) _ (fun _ => rfl) Ex.icExec Ex.paPace Ex.ikPace
    Ex.pjPace Ex.paEnv Ex.paEnv Ex.paEnv _ _ _ _ _ _ Ex.icFirst Ex.icPd Ex.icPk Ex.icJwk (by decide) (by decide) (by decide) rfl rfl rfl 1 1 1 Ex.paTakes
    Ex.paTakes Ex.paTakes (Ex.iaInit.length + 1) [Ex.ifDoc] Ex.ikNew Ex.ikK (fun _ => Ex.pjNew) Ex.icNew Ex.icServes Ex.icAnswering Ex.icVersioned
    (fun url _ => Ex.icGives url) (Ex.auT 1500 + 1) (by decide) (by decide) (by decide)
    (by
      intro n hn
      refine Classical.byContradiction fun hlt => ?_
      have h : ∀ n, n < Ex.iaInit.length + 1 → (Ex.icExec.state n).sys.auth.now < Ex.auT 1500 + 1 := by decide +kernel
      have := h n (by omega)
      omega)
    (Ex.auT 1600 + 2) (by decide) (by decide) (by decide) Ex.icAll.length 0
    (by
      intro j tb ts k p h1 h2
      have g1 := Ex.icLogs _ h1
      have g2 := Ex.icLogs _ h2
      simp only [Ex.itLog, decide_eq_true_eq] at g1 g2
      omega)
    (by rw [hnow]; decide) 0 Ex.ikReq Ex.syPrincipal
    (by
      intro tb h
      have := Ex.icLogs _ h
      simp only [Ex.itLog, decide_eq_true_eq] at this
      rw [this]
      decide)
    (Ex.doneOk_iff (by decide +kernel))
    (by
      intro d hd
      rw [List.mem_singleton.mp hd, hnow]
      decide)
  obtain ⟨⟨role, hrole, a, ha, happ, hn⟩, hden, _⟩ := hdec
  have ha : a = Ex.syRaw ∨ a = Ex.ifDeny := by simpa [allAssertions, Ex.ifDoc] using ha
  rcases ha with rfl | rfl
  · exact hden ⟨role, hrole, Ex.ifDeny, by simp [allAssertions, Ex.ifDoc], happ, by show IsDeny asciiCase _; unfold IsDeny; decide +kernel⟩
  · exact hn (by show IsDeny asciiCase _; unfold IsDeny; decide +kernel)

end Athenz
