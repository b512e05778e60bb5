import Verif.Props.InTimePk
import Verif.Props.InTimeRun

/-! # A run as in the theorems of C103 about the goroutine -/

namespace Athenz
open Spec

namespace Ex

def ikOld : Str := "tz".toList

def ikNew : Str := "ty".toList

/-- The list `Z` is the old one of ZTS, with the key "1"; `Y` is the new one, with the key "3". -/
def ikCfg : SysCfg :=
  { chCfg with
    pk := { chCfg.pk with
      decode := fun b => if b = "Y".toList then some (some [some ("3".toList, "y".toList)]) else chCfg.pk.decode b } }

def ikPace : PaceCfg := ⟨100000000000, 30000000000, false, auT 1500⟩

/-- The keys that the new list publishes. -/
def ikK : Str → Option SigVerifier := published ikCfg.pk [some ("3".toList, "y".toList)]

def ikReq : AReq := { syReq with tok := "v=Z1;d=dom;r=admin;p=me;t=1400;e=2000;k=3;s=y".toList }

/-- `Init` loads the old keys and the policy. -/
def ikInit : List RAct :=
  ((([.update, .send 0, .answer 0 (.answer 200 ikOld "Z".toList) ["1".toList], .step 0 [], .step 0 ["1".toList], .step 0 [], .step 0 [],
    .send 1, .answer 1 (.answer 200 "tm".toList "M".toList) ["0".toList], .step 1 [], .step 1 ["0".toList], .step 1 [], .step 1 []] :
    List PkAct).map SysAct.pk) ++ syLoad chDom).map .sys

/-- The list of ZTS changes after 50 seconds; after 100 seconds the ticker begins an update, which gets the new one; 90 seconds later there is a
call with a role token that names the new key. -/
def ikAll : List RAct := ikInit ++
  [.sys (.tick 50000000000), .sys (.tick 50000000000), .fwd (.child .pubkeyd .tick), .call .pubkeyd false [], .sys (.tick 1)] ++
  (([.send 2, .answer 2 (.answer 200 ikNew "Y".toList) ["3".toList], .step 2 [], .step 2 ["1".toList, "3".toList], .step 2 [], .step 2 [], .step 2 [],
    .send 3, .answer 3 (.answer 200 "tm".toList "M".toList) ["0".toList], .step 3 [], .step 3 ["0".toList], .step 3 [], .step 3 []] :
    List PkAct).map fun a => .sys (.pk a)) ++
  [.ret .pubkeyd [], .sys (.tick 90000000000)] ++ (.auth (.call 0 ikReq) :: syCall 0).map .sys

/-- The schedule, and then nothing but the passing of no time. -/
def ikAct (n : Nat) : RAct := (ikAll[n]?).getD (.sys (.tick 0))

def ikStates : Nat → RSys
  | 0 => rsInit (sysInit ikCfg (auT 1500)) (fun _ => true)
  | n + 1 => (rsStep ikCfg [] (ikStates n) (ikAct n)).getD (ikStates n)

theorem ikAct_end (n : Nat) : ikAct (ikAll.length + n) = .sys (.tick 0) := by simp [ikAct]

theorem ikLive : (ikStates ikAll.length).sys.dead = false := by decide +kernel

theorem ikStep_end : rsStep ikCfg [] (ikStates ikAll.length) (.sys (.tick 0)) = some (ikStates ikAll.length) := by
  have h := ikLive
  generalize ikStates ikAll.length = s at h ⊢
  simp [rsStep, h, sysStep_tick0 h]

theorem ikStates_end (n : Nat) : ikStates (ikAll.length + n) = ikStates ikAll.length := by
  induction n with
  | zero => rfl
  | succ n ih =>
    rw [show ikAll.length + (n + 1) = (ikAll.length + n) + 1 from rfl, ikStates, ih, ikAct_end, ikStep_end, Option.getD_some]

theorem ikSteps : ∀ n, n < ikAll.length → (rsStep ikCfg [] (ikStates n) (ikAct n)).isSome = true := by decide +kernel

def ikExec : RsExec ikCfg [] (auT 1500) (fun _ => true) where
  state := ikStates
  act := ikAct
  init := rfl
  next := by
    intro n
    show rsStep ikCfg [] (ikStates n) (ikAct n) = some ((rsStep ikCfg [] (ikStates n) (ikAct n)).getD (ikStates n))
    have hsome : (rsStep ikCfg [] (ikStates n) (ikAct n)).isSome = true := by
      by_cases hn : n < ikAll.length
      · exact ikSteps n hn
      · obtain ⟨k, rfl⟩ : ∃ k, n = ikAll.length + k := ⟨n - ikAll.length, by omega⟩
        rw [ikStates_end, ikAct_end, ikStep_end]
        rfl
    obtain ⟨s, hs⟩ := Option.isSome_iff_exists.mp hsome
    rw [hs]; rfl

/-- The goroutine in time. -/
def ikNext (a : RAct) (s : TLoop) : TLoop :=
  match a with
  | .sys (.tick d) => { s with now := s.now + d }
  | .fwd (.child .pubkeyd .tick) => { s with l := (lStep .pubkeyd [] s.l .tick).getD s.l, fired := s.fired + 1 }
  | .call .pubkeyd _ _ => { s with l := (lStep .pubkeyd [] s.l .selTick).getD s.l, since := s.now, calls := s.calls ++ [(.tick, s.now)] }
  | .ret .pubkeyd _ => { s with l := (lStep .pubkeyd [] s.l .updOk).getD s.l, since := s.now }
  | _ => s

/-- What is checked of a step by evaluation. -/
def ikGood (a : RAct) (s : TLoop) : Bool :=
  match a with
  | .sys (.tick d) => d == 0 || (decide (s.now + d ≤ s.due ikPace) && (match s.l.pc with
    | .select => decide (s.l.fch = 0) && !s.l.tick
    | .updating _ => decide (s.now + d ≤ s.since + (s.upd paEnv).dur)
    | _ => false))
  | .sys _ => true
  | .fwd (.child .pubkeyd .tick) => decide (s.now = s.due ikPace)
  | .call .pubkeyd _ _ => decide (s.now < s.due ikPace) && (lStep .pubkeyd [] s.l .selTick).isSome
  | .ret .pubkeyd _ => decide (s.now < s.due ikPace) && decide (s.now = s.since + (s.upd paEnv).dur) && (lStep .pubkeyd [] s.l .updOk).isSome
  | _ => false

theorem ikGood_step {a : RAct} {s : TLoop} (h : ikGood a s = true) : ikNext a s = s ∨ TlStep .pubkeyd [] ikPace paEnv s (ikNext a s) := by
  unfold ikGood at h
  split at h
  · rename_i d
    by_cases hd : d = 0
    · subst hd; left; simp [ikNext]
    · right
      have hd' : (d == 0) = false := by simpa using hd
      simp only [hd', Bool.false_or, Bool.and_eq_true, decide_eq_true_eq] at h
      refine .pass d (by omega) ?_ h.1
      have h2 := h.2
      unfold NothingToDo
      split at h2
      · rename_i hpc; simp only [hpc]; simpa using h2
      · rename_i hpc; simp only [hpc]; simpa using h2
      · cases h2
  · rename_i a' _
    left
    cases a' <;> first | rfl | (rename_i hh; exact absurd rfl (hh _))
  · right
    exact .tick _ (of_decide_eq_true h) rfl
  · right
    simp only [Bool.and_eq_true, decide_eq_true_eq] at h
    obtain ⟨l, hl⟩ := Option.isSome_iff_exists.mp h.2
    simp only [ikNext, hl, Option.getD_some]
    exact .call .tick l h.1 hl
  · right
    simp only [Bool.and_eq_true, decide_eq_true_eq] at h
    obtain ⟨l, hl⟩ := Option.isSome_iff_exists.mp h.2
    simp only [ikNext, hl, Option.getD_some]
    exact .ret [] l h.1.1 h.1.2 (by simpa [TLoop.upd, paEnv] using hl)
  · cases h

/-- From the end of `Init` on. -/
def ikClock : Nat → TLoop
  | 0 => tlInit ikPace
  | n + 1 => ikNext (ikAct (ikInit.length + n)) (ikClock n)

def ikC (n : Nat) : TLoop := ikClock (n - ikInit.length)

theorem ikC_next {n : Nat} (h : ikInit.length ≤ n) : ikC (n + 1) = ikNext (ikAct n) (ikC n) := by
  obtain ⟨d, rfl⟩ := Nat.exists_eq_add_of_le h
  unfold ikC
  rw [show ikInit.length + d + 1 - ikInit.length = d + 1 by omega, show ikInit.length + d - ikInit.length = d by omega]
  rfl

theorem ikC_end (n : Nat) : ikC (ikAll.length + n) = ikC ikAll.length := by
  induction n with
  | zero => rfl
  | succ n ih =>
    have hle : ikInit.length ≤ ikAll.length := by decide +kernel
    rw [show ikAll.length + (n + 1) = ikAll.length + n + 1 by omega, ikC_next (by omega), ih, ikAct_end]
    simp [ikNext]

theorem ikInTime : PkInTime ikExec ikPace paEnv ikInit.length ikC := by
  have key : ∀ n, n < ikAll.length + 1 → ikInit.length ≤ n → (ikStates n).fwd.child .pubkeyd = some (ikC n).l ∧
      (ikC n).now = (ikStates n).sys.auth.now := by decide +kernel
  have good : ∀ n, n < ikAll.length → ikInit.length ≤ n → ikGood (ikAct n) (ikC n) = true := by decide +kernel
  have both : ∀ n, ikInit.length ≤ n → (ikStates n).fwd.child .pubkeyd = some (ikC n).l ∧ (ikC n).now = (ikStates n).sys.auth.now := by
    intro n hn
    by_cases hl : n < ikAll.length + 1
    · exact key n hl hn
    · obtain ⟨d, rfl⟩ : ∃ d, n = ikAll.length + d := ⟨n - ikAll.length, by omega⟩
      rw [ikC_end, ikStates_end]
      exact key ikAll.length (by omega) (by decide +kernel)
  refine ⟨⟨by simp [ikC, ikClock], ?_⟩, fun n hn => (both n hn).1, fun n hn => (both n hn).2⟩
  intro n hn
  by_cases hl : n < ikAll.length
  · rw [ikC_next hn]
    exact ikGood_step (good n hl hn)
  · obtain ⟨d, rfl⟩ : ∃ d, n = ikAll.length + d := ⟨n - ikAll.length, by omega⟩
    left
    rw [show ikAll.length + d + 1 = ikAll.length + (d + 1) by omega, ikC_end, ikC_end]

theorem ikFirst : InitFirst ikExec ikInit.length := by
  have pre : ∀ n, n < ikInit.length → (match ikAct n with | .sys (.pk .update) => n == 0 | .sys _ => true | _ => false) = true := by decide +kernel
  have post : ∀ n, n < ikAll.length → ikInit.length ≤ n → (match ikAct n with | .sys (.pk .update) => false | _ => true) = true := by decide +kernel
  have over : ((ikStates ikInit.length).sys.pk.jobs.all fun b => match b.pc with | .done _ => true | _ => false) = true := by decide +kernel
  refine ⟨?_, ?_, ?_, ?_⟩
  · intro n hn r f ha
    have := pre n hn
    rw [show ikAct n = _ from ha] at this
    cases this
  · intro n hn ha
    have := pre n hn
    rw [show ikAct n = _ from ha] at this
    have : n = 0 := by simpa using this
    subst this
    intro j b hb
    have : ([] : List PkJob)[j]? = some b := hb
    simp at this
  · intro j b hb
    have := List.all_eq_true.mp over b (List.mem_of_getElem? hb)
    revert this
    cases hpc : b.pc <;> simp
  · intro n hn ha
    have ha : ikAct n = _ := ha
    by_cases hl : n < ikAll.length
    · have := post n hl hn
      rw [ha] at this
      cases this
    · obtain ⟨d, rfl⟩ : ∃ d, n = ikAll.length + d := ⟨n - ikAll.length, by omega⟩
      rw [ikAct_end] at ha
      cases ha

/-- What is checked of the answers of ZTS by evaluation. -/
def ikAns (late : Bool) : PkAct → Bool
  | .answer j r _ => decide (j % 2 ≠ 0) || (match r with
    | .answer st tag b => decide (st = 200) && ((decide (tag = ikNew) && decide (b = "Y".toList)) || (!late && decide (tag = ikOld)))
    | .fail _ => false)
  | _ => true

theorem ikAnswers (n : Nat) : ikAns (decide (ikInit.length + 1 ≤ n)) ((pkExecOf ikExec.sys).act n) = true := by
  have hall : ∀ n, n < ikAll.length → ikAns (decide (ikInit.length + 1 ≤ n)) (pkActOf (ikAct n).proj) = true := by decide +kernel
  show ikAns _ (pkActOf (ikAct n).proj) = true
  by_cases hl : n < ikAll.length
  · exact hall n hl
  · obtain ⟨d, rfl⟩ : ∃ d, n = ikAll.length + d := ⟨n - ikAll.length, by omega⟩
    rw [ikAct_end]
    rfl

theorem ikAnswer {n j : Nat} {r : HttpResult} {o : List Str} (ha : (pkExecOf ikExec.sys).act n = .answer j r o) (hj : jobEnv j = .zts) :
    ∃ tag b, r = .answer 200 tag b ∧ ((tag = ikNew ∧ b = "Y".toList) ∨ (n < ikInit.length + 1 ∧ tag = ikOld)) := by
  have h := ikAnswers n
  rw [ha] at h
  have hj : j % 2 = 0 := by
    unfold jobEnv at hj
    split at hj
    · assumption
    · cases hj
  cases r with
  | fail err => simp [ikAns, hj] at h
  | answer st tag b =>
    simp only [ikAns, hj, ne_eq, not_true_eq_false, decide_false, Bool.false_or, Bool.and_eq_true, decide_eq_true_eq, Bool.or_eq_true,
      Bool.not_eq_true', decide_eq_false_iff_not, Nat.not_le] at h
    obtain ⟨rfl, h⟩ := h
    exact ⟨tag, b, rfl, h⟩

theorem ikPublishes : Publishes ikCfg.pk "Y".toList ikK := ⟨[some ("3".toList, "y".toList)], rfl, by
  intro p hp
  simp only [List.mem_singleton] at hp
  exact ⟨_, hp, rfl⟩, fun _ => rfl⟩

theorem ikServes : ServesKeys (pkExecOf ikExec.sys) (ikInit.length + 1) .zts ikNew ikK := by
  intro n hn j st tag b o ha hj
  obtain ⟨tag', b', h1, h2⟩ := ikAnswer ha hj
  obtain ⟨rfl, rfl, rfl⟩ := HttpResult.answer.inj h1
  rcases h2 with ⟨rfl, rfl⟩ | ⟨h2, _⟩
  · exact ⟨fun _ => ⟨rfl, ikPublishes⟩, fun h => absurd h (by decide)⟩
  · omega

theorem ikAnswering : Answers (pkExecOf ikExec.sys) (ikInit.length + 1) .zts := by
  intro n _ j r o ha hj
  obtain ⟨tag, b, h1, _⟩ := ikAnswer ha hj
  exact ⟨200, tag, b, h1, .inl rfl⟩

theorem ikVersioned : Versioned (pkExecOf ikExec.sys) .zts ikNew ikK := by
  intro n j tag b o ha hj _
  obtain ⟨tag', b', h1, h2⟩ := ikAnswer ha hj
  obtain ⟨_, rfl, rfl⟩ := HttpResult.answer.inj h1
  rcases h2 with ⟨rfl, rfl⟩ | ⟨_, rfl⟩
  · exact ⟨by decide, fun _ => ikPublishes⟩
  · exact ⟨by decide, fun h => absurd h (by decide)⟩

theorem ikLogs : ∀ e ∈ (ikExec.state ikAll.length).sys.auth.log, itLog e = true := by
  have : (ikExec.state ikAll.length).sys.auth.log.all itLog = true := by decide +kernel
  intro e he
  exact List.all_eq_true.mp this e he

end Ex

/-- The goroutine fetches the new list 100 seconds after it began; before, the new key is not in use, but another one; the call 90 seconds later, with
a role token signed with the new key, is granted. -/
example : 0 < Ex.ikCfg.auth.cacheExp ∧ InitFirst Ex.ikExec Ex.ikInit.length ∧ PkInTime Ex.ikExec Ex.ikPace Ex.paEnv Ex.ikInit.length Ex.ikC ∧
    0 < Ex.ikPace.period ∧ Ex.ikPace.atTick = false ∧ Takes 1 Ex.paEnv ∧
    ServesKeys (pkExecOf Ex.ikExec.sys) (Ex.ikInit.length + 1) .zts Ex.ikNew Ex.ikK ∧ Answers (pkExecOf Ex.ikExec.sys) (Ex.ikInit.length + 1) .zts ∧
    Versioned (pkExecOf Ex.ikExec.sys) .zts Ex.ikNew Ex.ikK ∧
    (∀ n, Ex.auT 1500 + 1 ≤ (Ex.ikExec.state n).sys.auth.now → Ex.ikInit.length + 1 ≤ n) ∧
    Ex.auT 1500 + 1 + max Ex.ikPace.period ((1 : Nat) + Ex.ikPace.delay.toNat) + (1 : Nat) < (Ex.ikExec.state Ex.ikAll.length).sys.auth.now ∧
    StoresWithin 0 (Ex.ikExec.state Ex.ikAll.length).sys.auth.log ∧
    (∀ tb, .begun 0 tb ∈ (Ex.ikExec.state Ex.ikAll.length).sys.auth.log →
      Ex.auT 1500 + 1 + max Ex.ikPace.period ((1 : Nat) + Ex.ikPace.delay.toNat) + (1 : Nat) + 0 + Ex.ikCfg.auth.cacheExp < tb) ∧
    (Ex.ikExec.state Ex.ikAll.length).sys.auth.calls 0 = some ⟨Ex.ikReq, .done (.ok Ex.syPrincipal)⟩ ∧
    ((Ex.ikExec.state Ex.ikInit.length).sys.pk.provider .zts "3".toList).isSome = false ∧
    ((Ex.ikExec.state Ex.ikInit.length).sys.pk.provider .zts "1".toList).isSome = true ∧ (Ex.ikK "1".toList).isSome = false := by
  refine ⟨by decide, Ex.ikFirst, Ex.ikInTime, by decide, by decide, Ex.paTakes, Ex.ikServes, Ex.ikAnswering, Ex.ikVersioned, ?_, by decide +kernel, ?_, ?_,
    Ex.doneOk_iff (by decide +kernel), by decide +kernel, by decide +kernel, by decide +kernel⟩
  · intro n hn
    refine Classical.byContradiction fun hlt => ?_
    have h : ∀ n, n < Ex.ikInit.length + 1 → (Ex.ikExec.state n).sys.auth.now < Ex.auT 1500 + 1 := by decide +kernel
    have := h n (by omega)
    omega
  · intro j tb ts k p h1 h2
    have g1 := Ex.ikLogs _ h1
    have g2 := Ex.ikLogs _ h2
    simp only [Ex.itLog, decide_eq_true_eq] at g1 g2
    omega
  · intro tb h
    have := Ex.ikLogs _ h
    simp only [Ex.itLog, decide_eq_true_eq] at this
    rw [this]
    decide

end Athenz
