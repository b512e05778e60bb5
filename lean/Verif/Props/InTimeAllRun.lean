import Verif.Props.InTimeAll
import Verif.Props.InTimeRun

/-! # A run as in the theorem of C105 -/

namespace Athenz
open Spec

namespace Ex

/-- Both the policies and the lists of keys can change. -/
def iaCfg : SysCfg := { paCfg with pk := ikCfg.pk }

/-- `Init` loads the old keys, the old policy and the old set. -/
def iaInit : List RAct :=
  ((([.update, .send 0, .answer 0 (.answer 200 ikOld "Z".toList) ["1".toList], .step 0 [], .step 0 ["1".toList], .step 0 [], .step 0 [],
    .send 1, .answer 1 (.answer 200 "tm".toList "M".toList) ["0".toList], .step 1 [], .step 1 ["0".toList], .step 1 [], .step 1 []] :
    List PkAct).map SysAct.pk) ++ (paPre.drop syKeys.length).dropLast).map .sys ++
  [.sys (.jwk .update), .sys (.jwk (.fetch 0 (some pjOld))), .sys (.jwk (.store 0))]

/-- Policies, keys and set change after 50 seconds; after 100 seconds the three tickers begin updates, which get the new ones; 90 seconds later there is
a call with a role token that names the new key. -/
def iaAll : List RAct := iaInit ++
  [.sys (.tick 50000000000), .sys (.tick 50000000000), .fwd (.child .policyd .tick), .fwd (.child .pubkeyd .tick), .fwd (.child .jwkd .tick),
   .call .policyd false [some paDoc], .call .jwkd false [], .call .pubkeyd false []] ++ paUpd.tail.map .sys ++ [.sys (.jwk (.fetch 1 (some pjNew)))] ++
  (([.send 2, .answer 2 (.answer 200 ikNew "Y".toList) ["3".toList], .step 2 [], .step 2 ["1".toList, "3".toList], .step 2 [], .step 2 [], .step 2 [],
    .send 3, .answer 3 (.answer 200 "tm".toList "M".toList) ["0".toList], .step 3 [], .step 3 ["0".toList], .step 3 [], .step 3 []] :
    List PkAct).map fun a => .sys (.pk a)) ++
  [.sys (.jwk (.store 1)), .ret .policyd [], .ret .pubkeyd [], .ret .jwkd [], .sys (.tick 90000000000)] ++
  (.auth (.call 0 ikReq) :: syCall 0).map .sys

/-- The schedule, and then nothing but the passing of no time. -/
def iaAct (n : Nat) : RAct := (iaAll[n]?).getD (.sys (.tick 0))

def iaStates : Nat → RSys
  | 0 => rsInit (sysInit iaCfg (auT 1500)) (fun _ => true)
  | n + 1 => (rsStep iaCfg [] (iaStates n) (iaAct n)).getD (iaStates n)

theorem iaAct_end (n : Nat) : iaAct (iaAll.length + n) = .sys (.tick 0) := by simp [iaAct]

theorem iaLive : (iaStates iaAll.length).sys.dead = false := by decide +kernel

theorem iaStep_end : rsStep iaCfg [] (iaStates iaAll.length) (.sys (.tick 0)) = some (iaStates iaAll.length) := by
  have h := iaLive
  generalize iaStates iaAll.length = s at h ⊢
  simp [rsStep, h, sysStep_tick0 h]

theorem iaStates_end (n : Nat) : iaStates (iaAll.length + n) = iaStates iaAll.length := by
  induction n with
  | zero => rfl
  | succ n ih =>
    rw [show iaAll.length + (n + 1) = (iaAll.length + n) + 1 from rfl, iaStates, ih, iaAct_end, iaStep_end, Option.getD_some]

theorem iaSteps : ∀ n, n < iaAll.length → (rsStep iaCfg [] (iaStates n) (iaAct n)).isSome = true := by decide +kernel

def iaExec : RsExec iaCfg [] (auT 1500) (fun _ => true) where
  state := iaStates
  act := iaAct
  init := rfl
  next := by
    intro n
    show rsStep iaCfg [] (iaStates n) (iaAct n) = some ((rsStep iaCfg [] (iaStates n) (iaAct n)).getD (iaStates n))
    have hsome : (rsStep iaCfg [] (iaStates n) (iaAct n)).isSome = true := by
      by_cases hn : n < iaAll.length
      · exact iaSteps n hn
      · obtain ⟨k, rfl⟩ : ∃ k, n = iaAll.length + k := ⟨n - iaAll.length, by omega⟩
        rw [iaStates_end, iaAct_end, iaStep_end]
        rfl
    obtain ⟨s, hs⟩ := Option.isSome_iff_exists.mp hsome
    rw [hs]; rfl

/-- From the end of `Init` on. -/
def iaClock (k : LKind) (pace : PaceCfg) : Nat → TLoop
  | 0 => tlInit pace
  | n + 1 => ibNext k (iaAct (iaInit.length + n)) (iaClock k pace n)

def iaC (k : LKind) (pace : PaceCfg) (n : Nat) : TLoop := iaClock k pace (n - iaInit.length)

theorem iaC_next {k : LKind} {pace : PaceCfg} {n : Nat} (h : iaInit.length ≤ n) : iaC k pace (n + 1) = ibNext k (iaAct n) (iaC k pace n) := by
  obtain ⟨d, rfl⟩ := Nat.exists_eq_add_of_le h
  unfold iaC
  rw [show iaInit.length + d + 1 - iaInit.length = d + 1 by omega, show iaInit.length + d - iaInit.length = d by omega]
  rfl

theorem iaC_end (k : LKind) (pace : PaceCfg) (n : Nat) : iaC k pace (iaAll.length + n) = iaC k pace iaAll.length := by
  induction n with
  | zero => rfl
  | succ n ih =>
    have hle : iaInit.length ≤ iaAll.length := by decide +kernel
    rw [show iaAll.length + (n + 1) = iaAll.length + n + 1 by omega, iaC_next (by omega), ih, iaAct_end]
    simp [ibNext]

theorem iaPrompt {k : LKind} {pace : PaceCfg}
    (good : ∀ n, n < iaAll.length → iaInit.length ≤ n → ibGood k pace (iaAct n) (iaC k pace n) = true) : Prompt k [] pace paEnv iaInit.length (iaC k pace) := by
  refine ⟨by simp [iaC, iaClock], ?_⟩
  intro n hn
  by_cases hl : n < iaAll.length
  · rw [iaC_next hn]
    exact ibGood_step (good n hl hn)
  · obtain ⟨d, rfl⟩ : ∃ d, n = iaAll.length + d := ⟨n - iaAll.length, by omega⟩
    left
    rw [show iaAll.length + d + 1 = iaAll.length + (d + 1) by omega, iaC_end, iaC_end]

theorem iaBoth {k : LKind} {pace : PaceCfg}
    (key : ∀ n, n < iaAll.length + 1 → iaInit.length ≤ n → (iaStates n).fwd.child k = some (iaC k pace n).l ∧
      (iaC k pace n).now = (iaStates n).sys.auth.now) (n : Nat) (hn : iaInit.length ≤ n) :
    (iaStates n).fwd.child k = some (iaC k pace n).l ∧ (iaC k pace n).now = (iaStates n).sys.auth.now := by
  by_cases hl : n < iaAll.length + 1
  · exact key n hl hn
  · obtain ⟨d, rfl⟩ : ∃ d, n = iaAll.length + d := ⟨n - iaAll.length, by omega⟩
    rw [iaC_end, iaStates_end]
    exact key iaAll.length (by omega) (by decide +kernel)

theorem iaPd : PdInTime iaExec paPace paEnv iaInit.length (iaC .policyd paPace) := by
  have both := iaBoth (k := .policyd) (pace := paPace) (by decide +kernel)
  have pre : ∀ n, n < iaInit.length → (match iaAct n with | .sys _ => true | _ => false) = true := by decide +kernel
  have only : ∀ n, n < iaAll.length → (match iaAct n with | .sys (.pd (.update _)) => n == 13 | _ => true) = true := by decide +kernel
  have init : (((iaExec.state iaInit.length).sys.pd.tasks[(iaExec.state 13).sys.pd.tasks.length]?).map fun t => decide (t.ret ≠ none)) = some true := by
    decide +kernel
  refine ⟨?_, ?_, iaPrompt (by decide +kernel), fun n hn => (both n hn).1, fun n hn => (both n hn).2⟩
  · intro n r f hn ha
    have := pre n hn
    rw [show iaAct n = _ from ha] at this
    cases this
  · intro n fetch ha
    have ha : iaAct n = .sys (.pd (.update fetch)) := ha
    have hn : n = 13 := by
      by_cases hl : n < iaAll.length
      · have := only n hl
        rw [ha] at this
        simpa using this
      · obtain ⟨d, rfl⟩ : ∃ d, n = iaAll.length + d := ⟨n - iaAll.length, by omega⟩
        rw [iaAct_end] at ha
        cases ha
    subst hn
    refine ⟨by decide +kernel, ?_⟩
    obtain ⟨t, ht, hr⟩ := Option.map_eq_some_iff.mp init
    exact ⟨t, ht, of_decide_eq_true hr⟩

theorem iaNew : NewPolicies iaExec.sys (iaInit.length + 1) [paDoc] := by
  have hg : ∀ n, n < iaAll.length → (n < iaInit.length + 1 || paGives iaCfg syPolicy (iaExec.state n).sys (iaAct n).proj) = true := by decide +kernel
  have hc : ∀ n, n < iaAll.length → (match (iaAct n).proj with | .pd (.task _ .cancel) => false | _ => true) = true := by decide +kernel
  refine ⟨rfl, ?_, ?_, ?_⟩
  · intro j dom d hdom hd n hn k r hact
    have hact : (iaAct n).proj = .fetcher dom (.answer k r) := hact
    obtain rfl : paDoc = d := by
      cases j with
      | zero => simpa using hd
      | succ j => simp at hd
    have hl : n < iaAll.length := by
      refine Classical.byContradiction fun hl => ?_
      obtain ⟨e, rfl⟩ : ∃ e, n = iaAll.length + e := ⟨n - iaAll.length, by omega⟩
      rw [iaAct_end] at hact
      cases hact
    have hb := hg n hl
    rw [hact] at hb
    cases r with
    | fail e => simp [paGives, Nat.not_lt.mpr hn] at hb
    | answer st e b =>
      simp only [paGives, Nat.not_lt.mpr hn, decide_false, Bool.false_or, Bool.and_eq_true, decide_eq_true_eq] at hb
      obtain ⟨⟨⟨rfl, hb1⟩, hb2⟩, hb3⟩ := hb
      split at hb1
      · rename_i c hc
        split at hb1
        · rename_i a tp hpc
          exact ⟨syPolicy, .inl ⟨e, k, b, rfl, ⟨c, a, tp, hc, hpc⟩, hb2, verifyPolicy_ok.mp hb3⟩, docOf_iff.mp (by decide +kernel)⟩
        · simp at hb1
      · simp at hb1
  · intro d hd a ha
    rw [List.mem_singleton.mp hd] at ha
    exact (by decide : ∀ a ∈ paDoc.policies.flatten, ':' ∈ a.resource) a ha
  · intro n i _ hact
    have hact : (iaAct n).proj = .pd (.task i .cancel) := hact
    by_cases hl : n < iaAll.length
    · have := hc n hl
      rw [hact] at this
      cases this
    · obtain ⟨e, rfl⟩ : ∃ e, n = iaAll.length + e := ⟨n - iaAll.length, by omega⟩
      rw [iaAct_end] at hact
      cases hact

theorem iaRegular : RegularAt asciiCase ([paDoc].map some) (auT 1500) (iaExec.state iaAll.length).sys.auth.now
    (iaExec.state iaAll.length).sys.auth.now "dom:role.admin".toList := by
  have hn : (iaExec.state iaAll.length).sys.auth.now = (itExec.state itAll.length).sys.auth.now := by decide +kernel
  rw [hn]
  exact itRegular

theorem iaPk : PkInTime iaExec ikPace paEnv iaInit.length (iaC .pubkeyd ikPace) := by
  have both := iaBoth (k := .pubkeyd) (pace := ikPace) (by decide +kernel)
  exact ⟨iaPrompt (by decide +kernel), fun n hn => (both n hn).1, fun n hn => (both n hn).2⟩

theorem iaJwk : JwkInTime iaExec pjPace paEnv iaInit.length (iaC .jwkd pjPace) := by
  have both := iaBoth (k := .jwkd) (pace := pjPace) (by decide +kernel)
  have pre : ∀ n, n < iaInit.length → (match iaAct n with | .sys _ => true | _ => false) = true := by decide +kernel
  have only : ∀ n, n < iaAll.length → (match iaAct n with | .sys (.jwk .update) => n == iaInit.length - 3 | _ => true) = true := by decide +kernel
  have init : (((iaExec.state iaInit.length).sys.jwk.jobs[(iaExec.state (iaInit.length - 3)).sys.jwk.jobs.length]?).map fun b => b.result.isSome) = some true := by
    decide +kernel
  refine ⟨?_, ?_, iaPrompt (by decide +kernel), fun n hn => (both n hn).1, fun n hn => (both n hn).2⟩
  · intro n r f hn ha
    have := pre n hn
    rw [show iaAct n = _ from ha] at this
    cases this
  · intro n ha
    have ha : iaAct n = .sys (.jwk .update) := ha
    have hn : n = iaInit.length - 3 := by
      by_cases hl : n < iaAll.length
      · have := only n hl
        rw [ha] at this
        simpa using this
      · obtain ⟨d, rfl⟩ : ∃ d, n = iaAll.length + d := ⟨n - iaAll.length, by omega⟩
        rw [iaAct_end] at ha
        cases ha
    subst hn
    refine ⟨by decide +kernel, ?_⟩
    obtain ⟨b, hb, hr⟩ := Option.map_eq_some_iff.mp init
    obtain ⟨e, he⟩ := Option.isSome_iff_exists.mp hr
    exact ⟨b, e, hb, he⟩

theorem iaGives (url : Str) : GivesSet iaExec.sys (iaInit.length + 1) url pjNew := by
  intro n hn j out hact _
  have hall : ∀ n, n < iaAll.length → (n < iaInit.length + 1 || match (iaAct n).proj with | .jwk (.fetch _ o) => o == some pjNew | _ => true) = true := by
    decide +kernel
  by_cases hl : n < iaAll.length
  · have := hall n hl
    rw [show (iaAct n).proj = _ from hact] at this
    simpa [Nat.not_lt.mpr hn] using this
  · obtain ⟨d, rfl⟩ : ∃ d, n = iaAll.length + d := ⟨n - iaAll.length, by omega⟩
    have := iaAct_end d
    have hact : (iaAct (iaAll.length + d)).proj = _ := hact
    rw [this] at hact
    cases hact

theorem iaFirst : InitFirst iaExec iaInit.length := by
  have pre : ∀ n, n < iaInit.length → (match iaAct n with | .sys (.pk .update) => n == 0 | .sys _ => true | _ => false) = true := by decide +kernel
  have post : ∀ n, n < iaAll.length → iaInit.length ≤ n → (match iaAct n with | .sys (.pk .update) => false | _ => true) = true := by decide +kernel
  have over : ((iaExec.state iaInit.length).sys.pk.jobs.all fun b => match b.pc with | .done _ => true | _ => false) = true := by decide +kernel
  refine ⟨?_, ?_, ?_, ?_⟩
  · intro n hn r f ha
    have := pre n hn
    rw [show iaAct n = _ from ha] at this
    cases this
  · intro n hn ha
    have := pre n hn
    rw [show iaAct n = _ from ha] at this
    have : n = 0 := by simpa using this
    subst this
    intro j b hb
    have : ([] : List PkJob)[j]? = some b := hb
    simp at this
  · intro j b hb
    have := List.all_eq_true.mp over b (List.mem_of_getElem? hb)
    revert this
    cases hpc : b.pc <;> simp
  · intro n hn ha
    have ha : iaAct n = _ := ha
    by_cases hl : n < iaAll.length
    · have := post n hl hn
      rw [ha] at this
      cases this
    · obtain ⟨d, rfl⟩ : ∃ d, n = iaAll.length + d := ⟨n - iaAll.length, by omega⟩
      rw [iaAct_end] at ha
      cases ha

theorem iaAnswers (n : Nat) : ikAns (decide (iaInit.length + 1 ≤ n)) ((pkExecOf iaExec.sys).act n) = true := by
  have hall : ∀ n, n < iaAll.length → ikAns (decide (iaInit.length + 1 ≤ n)) (pkActOf (iaAct n).proj) = true := by decide +kernel
  show ikAns _ (pkActOf (iaAct n).proj) = true
  by_cases hl : n < iaAll.length
  · exact hall n hl
  · obtain ⟨d, rfl⟩ : ∃ d, n = iaAll.length + d := ⟨n - iaAll.length, by omega⟩
    rw [iaAct_end]
    rfl

theorem iaAnswer {n j : Nat} {r : HttpResult} {o : List Str} (ha : (pkExecOf iaExec.sys).act n = .answer j r o) (hj : jobEnv j = .zts) :
    ∃ tag b, r = .answer 200 tag b ∧ ((tag = ikNew ∧ b = "Y".toList) ∨ (n < iaInit.length + 1 ∧ tag = ikOld)) := by
  have h := iaAnswers n
  rw [ha] at h
  have hj : j % 2 = 0 := by
    unfold jobEnv at hj
    split at hj
    · assumption
    · cases hj
  cases r with
  | fail err => simp [ikAns, hj] at h
  | answer st tag b =>
    simp only [ikAns, hj, ne_eq, not_true_eq_false, decide_false, Bool.false_or, Bool.and_eq_true, decide_eq_true_eq, Bool.or_eq_true,
      Bool.not_eq_true', decide_eq_false_iff_not, Nat.not_le] at h
    obtain ⟨rfl, h⟩ := h
    exact ⟨tag, b, rfl, h⟩

theorem iaServes : ServesKeys (pkExecOf iaExec.sys) (iaInit.length + 1) .zts ikNew ikK := by
  intro n hn j st tag b o ha hj
  obtain ⟨tag', b', h1, h2⟩ := iaAnswer ha hj
  obtain ⟨rfl, rfl, rfl⟩ := HttpResult.answer.inj h1
  rcases h2 with ⟨rfl, rfl⟩ | ⟨h2, _⟩
  · exact ⟨fun _ => ⟨rfl, ikPublishes⟩, fun h => absurd h (by decide)⟩
  · omega

theorem iaAnswering : Answers (pkExecOf iaExec.sys) (iaInit.length + 1) .zts := by
  intro n _ j r o ha hj
  obtain ⟨tag, b, h1, _⟩ := iaAnswer ha hj
  exact ⟨200, tag, b, h1, .inl rfl⟩

theorem iaVersioned : Versioned (pkExecOf iaExec.sys) .zts ikNew ikK := by
  intro n j tag b o ha hj _
  obtain ⟨tag', b', h1, h2⟩ := iaAnswer ha hj
  obtain ⟨_, rfl, rfl⟩ := HttpResult.answer.inj h1
  rcases h2 with ⟨rfl, rfl⟩ | ⟨_, rfl⟩
  · exact ⟨by decide, fun _ => ikPublishes⟩
  · exact ⟨by decide, fun h => absurd h (by decide)⟩

theorem iaLogs : ∀ e ∈ (iaExec.state iaAll.length).sys.auth.log, itLog e = true := by
  have : (iaExec.state iaAll.length).sys.auth.log.all itLog = true := by decide +kernel
  intro e he
  exact List.all_eq_true.mp this e he

end Ex

/-- The goroutines fetch the new policies, the new list and the new set 100 seconds after they began; the call 90 seconds later, with a role token signed
with the new key, is granted by the new policies. -/
example : 0 < Ex.iaCfg.auth.cacheExp ∧ 0 ≤ Ex.iaCfg.fetch.retryAttempts ∧ Ex.iaCfg.auth.disablePolicyd = false ∧ InitFirst Ex.iaExec Ex.iaInit.length ∧
    PdInTime Ex.iaExec Ex.paPace Ex.paEnv Ex.iaInit.length (Ex.iaC .policyd Ex.paPace) ∧
    PkInTime Ex.iaExec Ex.ikPace Ex.paEnv Ex.iaInit.length (Ex.iaC .pubkeyd Ex.ikPace) ∧
    JwkInTime Ex.iaExec Ex.pjPace Ex.paEnv Ex.iaInit.length (Ex.iaC .jwkd Ex.pjPace) ∧
    0 < Ex.paPace.period ∧ 0 < Ex.ikPace.period ∧ 0 < Ex.pjPace.period ∧ Ex.paPace.atTick = false ∧ Ex.ikPace.atTick = false ∧ Ex.pjPace.atTick = true ∧
    Takes 1 Ex.paEnv ∧ NewPolicies Ex.iaExec.sys (Ex.iaInit.length + 1) [Ex.paDoc] ∧
    ServesKeys (pkExecOf Ex.iaExec.sys) (Ex.iaInit.length + 1) .zts Ex.ikNew Ex.ikK ∧ Answers (pkExecOf Ex.iaExec.sys) (Ex.iaInit.length + 1) .zts ∧
    Versioned (pkExecOf Ex.iaExec.sys) .zts Ex.ikNew Ex.ikK ∧
    (∀ url, ConfiguredURL Ex.iaCfg.jwk url → GivesSet Ex.iaExec.sys (Ex.iaInit.length + 1) url Ex.pjNew) ∧
    (∀ n, Ex.auT 1500 + 1 ≤ (Ex.iaExec.state n).sys.auth.now → Ex.iaInit.length + 1 ≤ n) ∧
    Ex.auT 1500 + 1 + max Ex.paPace.period ((1 : Nat) + Ex.paPace.delay.toNat) + (1 : Nat) ≤ Ex.auT 1600 + 2 ∧
    Ex.auT 1500 + 1 + max Ex.ikPace.period ((1 : Nat) + Ex.ikPace.delay.toNat) + (1 : Nat) ≤ Ex.auT 1600 + 2 ∧
    Ex.auT 1500 + 1 + max Ex.pjPace.period ((1 : Nat) + Ex.pjPace.delay.toNat) + (1 : Nat) ≤ Ex.auT 1600 + 2 ∧
    StoresWithin 0 (Ex.iaExec.state Ex.iaAll.length).sys.auth.log ∧
    (∀ tb, .begun 0 tb ∈ (Ex.iaExec.state Ex.iaAll.length).sys.auth.log → Ex.auT 1600 + 2 + 0 + Ex.iaCfg.auth.cacheExp < tb) ∧
    (Ex.iaExec.state Ex.iaAll.length).sys.auth.calls 0 = some ⟨Ex.ikReq, .done (.ok Ex.syPrincipal)⟩ ∧
    ∀ role ∈ Ex.syPrincipal.roles, RegularAt Ex.iaCfg.auth.U ([Ex.paDoc].map some) (Ex.auT 1500) (Ex.iaExec.state Ex.iaAll.length).sys.auth.now
      (Ex.iaExec.state Ex.iaAll.length).sys.auth.now (Ex.syPrincipal.domain ++ ":role.".toList ++ role) := by
  refine ⟨by decide, by decide, by decide, Ex.iaFirst, Ex.iaPd, Ex.iaPk, Ex.iaJwk, by decide, by decide, by decide, by decide, by decide, by decide, Ex.paTakes,
    Ex.iaNew, Ex.iaServes, Ex.iaAnswering, Ex.iaVersioned, fun url _ => Ex.iaGives url, ?_, by decide, by decide, by decide, ?_, ?_,
    Ex.doneOk_iff (by decide +kernel), ?_⟩
  · intro n hn
    refine Classical.byContradiction fun hlt => ?_
    have h : ∀ n, n < Ex.iaInit.length + 1 → (Ex.iaExec.state n).sys.auth.now < Ex.auT 1500 + 1 := by decide +kernel
    have := h n (by omega)
    omega
  · intro j tb ts k p h1 h2
    have g1 := Ex.iaLogs _ h1
    have g2 := Ex.iaLogs _ h2
    simp only [Ex.itLog, decide_eq_true_eq] at g1 g2
    omega
  · intro tb h
    have := Ex.iaLogs _ h
    simp only [Ex.itLog, decide_eq_true_eq] at this
    rw [this]
    decide
  · intro role hr
    have : role = "admin".toList := by simpa [Ex.syPrincipal] using hr
    subst this
    exact Ex.iaRegular

/-- And there is a check that began late enough. -/
example : Ex.auT 1500 + 1 + max Ex.paPace.period ((1 : Nat) + Ex.paPace.delay.toNat) + (1 : Nat)
      < (Ex.iaExec.state (Ex.iaAll.length - (Ex.syCall 0).length)).sys.auth.now ∧
    (Ex.iaExec.state (Ex.iaAll.length - (Ex.syCall 0).length)).sys.pd.checks.length = 0 ∧
    ((Ex.iaExec.state Ex.iaAll.length).sys.pd.checks[0]?).any (fun q => match q.cs.coll with | .ret (.ok _) => true | _ => false) = true :=
  ⟨by decide +kernel, by decide +kernel, by decide +kernel⟩

end Athenz
