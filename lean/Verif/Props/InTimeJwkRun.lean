import Verif.Props.InTimeJwk
import Verif.Props.InTimeRun

/-! # A run as in the theorems of C102 about the goroutine -/

namespace Athenz
open Spec

namespace Ex

/-- `Init`, as in `pjPre`. -/
def ijInit : List RAct := pjPre.dropLast.map .sys

/-- The set changes after 50 seconds; after 100 seconds the ticker begins an update, which gets the new one; 90 seconds later there is a call. -/
def ijAll : List RAct := ijInit ++
  [.sys (.tick 50000000000), .sys (.tick 50000000000), .fwd (.child .jwkd .tick), .call .jwkd false [], .sys (.tick 1),
   .sys (.jwk (.fetch 1 (some pjNew))), .sys (.jwk (.store 1)), .ret .jwkd [], .sys (.tick 90000000000)] ++
  (.auth (.call 0 auReq) :: syCall 0).map .sys

/-- The schedule, and then nothing but the passing of no time. -/
def ijAct (n : Nat) : RAct := (ijAll[n]?).getD (.sys (.tick 0))

def ijStates : Nat → RSys
  | 0 => rsInit (sysInit chCfg (auT 1500)) (fun _ => true)
  | n + 1 => (rsStep chCfg [] (ijStates n) (ijAct n)).getD (ijStates n)

theorem ijAct_end (n : Nat) : ijAct (ijAll.length + n) = .sys (.tick 0) := by simp [ijAct]

theorem ijLive : (ijStates ijAll.length).sys.dead = false := by decide +kernel

theorem ijStep_end : rsStep chCfg [] (ijStates ijAll.length) (.sys (.tick 0)) = some (ijStates ijAll.length) := by
  have h := ijLive
  generalize ijStates ijAll.length = s at h ⊢
  simp [rsStep, h, sysStep_tick0 h]

theorem ijStates_end (n : Nat) : ijStates (ijAll.length + n) = ijStates ijAll.length := by
  induction n with
  | zero => rfl
  | succ n ih =>
    rw [show ijAll.length + (n + 1) = (ijAll.length + n) + 1 from rfl, ijStates, ih, ijAct_end, ijStep_end, Option.getD_some]

theorem ijSteps : ∀ n, n < ijAll.length → (rsStep chCfg [] (ijStates n) (ijAct n)).isSome = true := by decide +kernel

def ijExec : RsExec chCfg [] (auT 1500) (fun _ => true) where
  state := ijStates
  act := ijAct
  init := rfl
  next := by
    intro n
    show rsStep chCfg [] (ijStates n) (ijAct n) = some ((rsStep chCfg [] (ijStates n) (ijAct n)).getD (ijStates n))
    have hsome : (rsStep chCfg [] (ijStates n) (ijAct n)).isSome = true := by
      by_cases hn : n < ijAll.length
      · exact ijSteps n hn
      · obtain ⟨k, rfl⟩ : ∃ k, n = ijAll.length + k := ⟨n - ijAll.length, by omega⟩
        rw [ijStates_end, ijAct_end, ijStep_end]
        rfl
    obtain ⟨s, hs⟩ := Option.isSome_iff_exists.mp hsome
    rw [hs]; rfl

/-- The goroutine in time. -/
def ijNext (a : RAct) (s : TLoop) : TLoop :=
  match a with
  | .sys (.tick d) => { s with now := s.now + d }
  | .fwd (.child .jwkd .tick) => { s with l := (lStep .jwkd [] s.l .tick).getD s.l, fired := s.fired + 1 }
  | .call .jwkd _ _ => { s with l := (lStep .jwkd [] s.l .selTick).getD s.l, since := s.now, calls := s.calls ++ [(.tick, s.now)] }
  | .ret .jwkd _ => { s with l := (lStep .jwkd [] s.l .updOk).getD s.l, since := s.now }
  | _ => s

/-- What is checked of a step by evaluation. -/
def ijGood (a : RAct) (s : TLoop) : Bool :=
  match a with
  | .sys (.tick d) => d == 0 || (decide (s.now + d ≤ s.due pjPace) && (match s.l.pc with
    | .select => decide (s.l.fch = 0) && !s.l.tick
    | .updating _ => decide (s.now + d ≤ s.since + (s.upd paEnv).dur)
    | _ => false))
  | .sys _ => true
  | .fwd (.child .jwkd .tick) => decide (s.now = s.due pjPace)
  | .call .jwkd _ _ => decide (s.now < s.due pjPace) && (lStep .jwkd [] s.l .selTick).isSome
  | .ret .jwkd _ => decide (s.now < s.due pjPace) && decide (s.now = s.since + (s.upd paEnv).dur) && (lStep .jwkd [] s.l .updOk).isSome
  | _ => false

theorem ijGood_step {a : RAct} {s : TLoop} (h : ijGood a s = true) : ijNext a s = s ∨ TlStep .jwkd [] pjPace paEnv s (ijNext a s) := by
  unfold ijGood at h
  split at h
  · rename_i d
    by_cases hd : d = 0
    · subst hd; left; simp [ijNext]
    · right
      have hd' : (d == 0) = false := by simpa using hd
      simp only [hd', Bool.false_or, Bool.and_eq_true, decide_eq_true_eq] at h
      refine .pass d (by omega) ?_ h.1
      have h2 := h.2
      unfold NothingToDo
      split at h2
      · rename_i hpc; simp only [hpc]; simpa using h2
      · rename_i hpc; simp only [hpc]; simpa using h2
      · cases h2
  · rename_i a' _
    left
    cases a' <;> first | rfl | (rename_i hh; exact absurd rfl (hh _))
  · right
    exact .tick _ (of_decide_eq_true h) rfl
  · right
    simp only [Bool.and_eq_true, decide_eq_true_eq] at h
    obtain ⟨l, hl⟩ := Option.isSome_iff_exists.mp h.2
    simp only [ijNext, hl, Option.getD_some]
    exact .call .tick l h.1 hl
  · right
    simp only [Bool.and_eq_true, decide_eq_true_eq] at h
    obtain ⟨l, hl⟩ := Option.isSome_iff_exists.mp h.2
    simp only [ijNext, hl, Option.getD_some]
    exact .ret [] l h.1.1 h.1.2 (by simpa [TLoop.upd, paEnv] using hl)
  · cases h

/-- From the end of `Init` on. -/
def ijClock : Nat → TLoop
  | 0 => tlInit pjPace
  | n + 1 => ijNext (ijAct (ijInit.length + n)) (ijClock n)

def ijC (n : Nat) : TLoop := ijClock (n - ijInit.length)

theorem ijC_next {n : Nat} (h : ijInit.length ≤ n) : ijC (n + 1) = ijNext (ijAct n) (ijC n) := by
  obtain ⟨d, rfl⟩ := Nat.exists_eq_add_of_le h
  unfold ijC
  rw [show ijInit.length + d + 1 - ijInit.length = d + 1 by omega, show ijInit.length + d - ijInit.length = d by omega]
  rfl

theorem ijC_end (n : Nat) : ijC (ijAll.length + n) = ijC ijAll.length := by
  induction n with
  | zero => rfl
  | succ n ih =>
    have hle : ijInit.length ≤ ijAll.length := by decide +kernel
    rw [show ijAll.length + (n + 1) = ijAll.length + n + 1 by omega, ijC_next (by omega), ih, ijAct_end]
    simp [ijNext]

theorem ijInTime : JwkInTime ijExec pjPace paEnv ijInit.length ijC := by
  have key : ∀ n, n < ijAll.length + 1 → ijInit.length ≤ n → (ijStates n).fwd.child .jwkd = some (ijC n).l ∧
      (ijC n).now = (ijStates n).sys.auth.now := by decide +kernel
  have good : ∀ n, n < ijAll.length → ijInit.length ≤ n → ijGood (ijAct n) (ijC n) = true := by decide +kernel
  have pre : ∀ n, n < ijInit.length → (match ijAct n with | .sys _ => true | _ => false) = true := by decide +kernel
  have only : ∀ n, n < ijAll.length → (match ijAct n with | .sys (.jwk .update) => n == ijInit.length - 3 | _ => true) = true := by decide +kernel
  have init : (((ijStates ijInit.length).sys.jwk.jobs[(ijStates (ijInit.length - 3)).sys.jwk.jobs.length]?).map fun b => b.result.isSome) = some true := by
    decide +kernel
  have both : ∀ n, ijInit.length ≤ n → (ijStates n).fwd.child .jwkd = some (ijC n).l ∧ (ijC n).now = (ijStates n).sys.auth.now := by
    intro n hn
    by_cases hl : n < ijAll.length + 1
    · exact key n hl hn
    · obtain ⟨d, rfl⟩ : ∃ d, n = ijAll.length + d := ⟨n - ijAll.length, by omega⟩
      rw [ijC_end, ijStates_end]
      exact key ijAll.length (by omega) (by decide +kernel)
  refine ⟨?_, ?_, ⟨by simp [ijC, ijClock], ?_⟩, fun n hn => (both n hn).1, fun n hn => (both n hn).2⟩
  · intro n r f hn ha
    have := pre n hn
    rw [show ijAct n = _ from ha] at this
    cases this
  · intro n ha
    have ha : ijAct n = .sys (.jwk .update) := ha
    have hn : n = ijInit.length - 3 := by
      by_cases hl : n < ijAll.length
      · have := only n hl
        rw [ha] at this
        simpa using this
      · obtain ⟨d, rfl⟩ : ∃ d, n = ijAll.length + d := ⟨n - ijAll.length, by omega⟩
        rw [ijAct_end] at ha
        cases ha
    subst hn
    refine ⟨by decide +kernel, ?_⟩
    obtain ⟨b, hb, hr⟩ := Option.map_eq_some_iff.mp init
    obtain ⟨e, he⟩ := Option.isSome_iff_exists.mp hr
    exact ⟨b, e, hb, he⟩
  · intro n hn
    by_cases hl : n < ijAll.length
    · rw [ijC_next hn]
      exact ijGood_step (good n hl hn)
    · obtain ⟨d, rfl⟩ : ∃ d, n = ijAll.length + d := ⟨n - ijAll.length, by omega⟩
      left
      rw [show ijAll.length + d + 1 = ijAll.length + (d + 1) by omega, ijC_end, ijC_end]

theorem ijLogs : ∀ e ∈ (ijExec.state ijAll.length).sys.auth.log, itLog e = true := by
  have : (ijExec.state ijAll.length).sys.auth.log.all itLog = true := by decide +kernel
  intro e he
  exact List.all_eq_true.mp this e he

theorem ijGives (url : Str) : GivesSet ijExec.sys (ijInit.length + 1) url pjNew := by
  intro n hn j out hact _
  have hall : ∀ n, n < ijAll.length → (n < ijInit.length + 1 || match (ijAct n).proj with | .jwk (.fetch _ o) => o == some pjNew | _ => true) = true := by
    decide +kernel
  by_cases hl : n < ijAll.length
  · have := hall n hl
    rw [show (ijAct n).proj = _ from hact] at this
    simpa [Nat.not_lt.mpr hn] using this
  · obtain ⟨d, rfl⟩ : ∃ d, n = ijAll.length + d := ⟨n - ijAll.length, by omega⟩
    have := ijAct_end d
    have hact : (ijAct (ijAll.length + d)).proj = _ := hact
    rw [this] at hact
    cases hact

end Ex

/-- The goroutine fetches the new set 100 seconds after it began; the call 90 seconds later, with a token signed with the new key, is granted. -/
example : 0 < Ex.chCfg.auth.cacheExp ∧ JwkInTime Ex.ijExec Ex.pjPace Ex.paEnv Ex.ijInit.length Ex.ijC ∧
    0 < Ex.pjPace.period ∧ Ex.pjPace.atTick = true ∧ Takes 1 Ex.paEnv ∧
    (∀ url, ConfiguredURL Ex.chCfg.jwk url → GivesSet Ex.ijExec.sys (Ex.ijInit.length + 1) url Ex.pjNew) ∧
    (∀ n, Ex.auT 1500 + 1 ≤ (Ex.ijExec.state n).sys.auth.now → Ex.ijInit.length + 1 ≤ n) ∧
    Ex.auT 1500 + 1 + max Ex.pjPace.period ((1 : Nat) + Ex.pjPace.delay.toNat) + (1 : Nat) < (Ex.ijExec.state Ex.ijAll.length).sys.auth.now ∧
    StoresWithin 0 (Ex.ijExec.state Ex.ijAll.length).sys.auth.log ∧
    (∀ tb, .begun 0 tb ∈ (Ex.ijExec.state Ex.ijAll.length).sys.auth.log →
      Ex.auT 1500 + 1 + max Ex.pjPace.period ((1 : Nat) + Ex.pjPace.delay.toNat) + (1 : Nat) + 0 + Ex.chCfg.auth.cacheExp < tb) ∧
    (Ex.ijExec.state Ex.ijAll.length).sys.auth.calls 0 = some ⟨Ex.auReq, .done (.ok Ex.auPrincipal)⟩ := by
  refine ⟨by decide, Ex.ijInTime, by decide, by decide, Ex.paTakes, fun url _ => Ex.ijGives url, ?_, by decide +kernel, ?_, ?_,
    Ex.doneOk_iff (by decide +kernel)⟩
  · intro n hn
    refine Classical.byContradiction fun hlt => ?_
    have h : ∀ n, n < Ex.ijInit.length + 1 → (Ex.ijExec.state n).sys.auth.now < Ex.auT 1500 + 1 := by decide +kernel
    have := h n (by omega)
    omega
  · intro j tb ts k p h1 h2
    have g1 := Ex.ijLogs _ h1
    have g2 := Ex.ijLogs _ h2
    simp only [Ex.itLog, decide_eq_true_eq] at g1 g2
    omega
  · intro tb h
    have := Ex.ijLogs _ h
    simp only [Ex.itLog, decide_eq_true_eq] at this
    rw [this]
    decide

end Athenz
