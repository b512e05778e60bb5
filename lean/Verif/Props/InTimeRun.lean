import Verif.Props.InTime

/-! # A run as in the theorems of C101 about the goroutine -/

namespace Athenz
open Spec

namespace Ex

/-- `Init`, as in `paPre`. -/
def itInit : List LsAct := paPre.dropLast.map .sys

/-- The policies change after 50 seconds; after 100 seconds the ticker begins an update, which loads them; 90 seconds later there is a call. -/
def itAll : List LsAct := itInit ++
  [.sys (.tick 50000000000), .sys (.tick 50000000000), .loop .tick, .call false [some paDoc]] ++ paUpd.tail.map .sys ++
  [.ret [], .sys (.tick 90000000000)] ++ (.auth (.call 0 syReq) :: syCall 0).map .sys

/-- The schedule, and then nothing but the passing of no time. -/
def itAct (n : Nat) : LsAct := (itAll[n]?).getD (.sys (.tick 0))

def itStates : Nat → LSys
  | 0 => lsInit (sysInit paCfg (auT 1500))
  | n + 1 => (lsStep paCfg [] (itStates n) (itAct n)).getD (itStates n)

theorem itAct_end (n : Nat) : itAct (itAll.length + n) = .sys (.tick 0) := by simp [itAct]

theorem itLive : (itStates itAll.length).sys.dead = false := by decide +kernel

theorem itStep_end : lsStep paCfg [] (itStates itAll.length) (.sys (.tick 0)) = some (itStates itAll.length) := by
  have h := itLive
  generalize itStates itAll.length = s at h ⊢
  simp [lsStep, h, sysStep_tick0 h]

theorem itStates_end (n : Nat) : itStates (itAll.length + n) = itStates itAll.length := by
  induction n with
  | zero => rfl
  | succ n ih =>
    rw [show itAll.length + (n + 1) = (itAll.length + n) + 1 from rfl, itStates, ih, itAct_end, itStep_end, Option.getD_some]

theorem itSteps : ∀ n, n < itAll.length → (lsStep paCfg [] (itStates n) (itAct n)).isSome = true := by decide +kernel

def itExec : LsExec paCfg [] (auT 1500) where
  state := itStates
  act := itAct
  init := rfl
  next := by
    intro n
    show lsStep paCfg [] (itStates n) (itAct n) = some ((lsStep paCfg [] (itStates n) (itAct n)).getD (itStates n))
    have hsome : (lsStep paCfg [] (itStates n) (itAct n)).isSome = true := by
      by_cases hn : n < itAll.length
      · exact itSteps n hn
      · obtain ⟨k, rfl⟩ : ∃ k, n = itAll.length + k := ⟨n - itAll.length, by omega⟩
        rw [itStates_end, itAct_end, itStep_end]
        rfl
    obtain ⟨s, hs⟩ := Option.isSome_iff_exists.mp hsome
    rw [hs]; rfl

/-- What it is for the rest of the authorizer. -/
def itSys : List SysAct := itAll.map LsAct.proj

theorem itOk : FxOk paCfg itSys := ⟨by decide +kernel, by decide +kernel, by decide +kernel⟩

theorem itProj (n : Nat) : (itAct n).proj = fxAct itSys n := by
  simp only [itAct, fxAct, itSys, List.getElem?_map]
  cases itAll[n]? <;> rfl

theorem itSame (n : Nat) : (itStates n).sys = fxStates paCfg itSys n := by
  induction n with
  | zero => rfl
  | succ n ih =>
    have h := ls_next itExec n
    have h : sysStep paCfg (itStates n).sys (itAct n).proj = some (itStates (n + 1)).sys := h
    show _ = (sysStep paCfg (fxStates paCfg itSys n) (fxAct itSys n)).getD _
    rw [← ih, ← itProj, h]
    rfl

theorem itEq : itExec.sys = fxExec itOk := by
  have h1 : itExec.sys.state = (fxExec itOk).state := funext itSame
  have h2 : itExec.sys.act = (fxExec itOk).act := funext itProj
  generalize itExec.sys = x at h1 h2
  generalize fxExec itOk = x' at h1 h2
  obtain ⟨s, a, _, _⟩ := x
  obtain ⟨s', a', _, _⟩ := x'
  simp only at h1 h2
  subst h1 h2
  rfl

/-- The goroutine in time. -/
def itNext (a : LsAct) (s : TLoop) : TLoop :=
  match a with
  | .sys (.tick d) => { s with now := s.now + d }
  | .loop .tick => { s with l := (lStep .policyd [] s.l .tick).getD s.l, fired := s.fired + 1 }
  | .call _ _ => { s with l := (lStep .policyd [] s.l .selTick).getD s.l, since := s.now, calls := s.calls ++ [(.tick, s.now)] }
  | .ret _ => { s with l := (lStep .policyd [] s.l .updOk).getD s.l, since := s.now }
  | _ => s

/-- What is checked of a step by evaluation. -/
def itGood (a : LsAct) (s : TLoop) : Bool :=
  match a with
  | .sys (.tick d) => d == 0 || (decide (s.now + d ≤ s.due paPace) && (match s.l.pc with
    | .select => decide (s.l.fch = 0) && !s.l.tick
    | .updating _ => decide (s.now + d ≤ s.since + (s.upd paEnv).dur)
    | _ => false))
  | .sys _ => true
  | .loop .tick => decide (s.now = s.due paPace)
  | .call _ _ => decide (s.now < s.due paPace) && (lStep .policyd [] s.l .selTick).isSome
  | .ret _ => decide (s.now < s.due paPace) && decide (s.now = s.since + (s.upd paEnv).dur) && (lStep .policyd [] s.l .updOk).isSome
  | _ => false

theorem itGood_step {a : LsAct} {s : TLoop} (h : itGood a s = true) : itNext a s = s ∨ TlStep .policyd [] paPace paEnv s (itNext a s) := by
  unfold itGood at h
  split at h
  · rename_i d
    by_cases hd : d = 0
    · subst hd; left; simp [itNext]
    · right
      have hd' : (d == 0) = false := by simpa using hd
      simp only [hd', Bool.false_or, Bool.and_eq_true, decide_eq_true_eq] at h
      refine .pass d (by omega) ?_ h.1
      have h2 := h.2
      unfold NothingToDo
      split at h2
      · rename_i hpc; simp only [hpc]; simpa using h2
      · rename_i hpc; simp only [hpc]; simpa using h2
      · cases h2
  · rename_i a' _
    left
    cases a' <;> first | rfl | (rename_i hh; exact absurd rfl (hh _))
  · right
    exact .tick _ (of_decide_eq_true h) rfl
  · right
    simp only [Bool.and_eq_true, decide_eq_true_eq] at h
    obtain ⟨l, hl⟩ := Option.isSome_iff_exists.mp h.2
    simp only [itNext, hl, Option.getD_some]
    exact .call .tick l h.1 hl
  · right
    simp only [Bool.and_eq_true, decide_eq_true_eq] at h
    obtain ⟨l, hl⟩ := Option.isSome_iff_exists.mp h.2
    simp only [itNext, hl, Option.getD_some]
    exact .ret [] l h.1.1 h.1.2 (by simpa [TLoop.upd, paEnv] using hl)
  · cases h

/-- From the end of `Init` on. -/
def itClock : Nat → TLoop
  | 0 => tlInit paPace
  | n + 1 => itNext (itAct (itInit.length + n)) (itClock n)

def itC (n : Nat) : TLoop := itClock (n - itInit.length)

theorem itC_next {n : Nat} (h : itInit.length ≤ n) : itC (n + 1) = itNext (itAct n) (itC n) := by
  obtain ⟨d, rfl⟩ := Nat.exists_eq_add_of_le h
  unfold itC
  rw [show itInit.length + d + 1 - itInit.length = d + 1 by omega, show itInit.length + d - itInit.length = d by omega]
  rfl

theorem itC_end (n : Nat) : itC (itAll.length + n) = itC itAll.length := by
  induction n with
  | zero => rfl
  | succ n ih =>
    have hle : itInit.length ≤ itAll.length := by decide +kernel
    rw [show itAll.length + (n + 1) = itAll.length + n + 1 by omega, itC_next (by omega), ih, itAct_end]
    simp [itNext]

theorem itInTime : InTime itExec paPace paEnv itInit.length itC := by
  have key : ∀ n, n < itAll.length + 1 → itInit.length ≤ n → (itC n).l = (itStates n).loop ∧ (itC n).now = (itStates n).sys.auth.now := by decide +kernel
  have good : ∀ n, n < itAll.length → itInit.length ≤ n → itGood (itAct n) (itC n) = true := by decide +kernel
  have pre : ∀ n, n < itInit.length → (match itAct n with | .sys _ => true | _ => false) = true := by decide +kernel
  have only : ∀ n, n < itAll.length → (match itAct n with | .sys (.pd (.update _)) => n == syKeys.length | _ => true) = true := by decide +kernel
  have init : (((itStates itInit.length).sys.pd.tasks[(itStates syKeys.length).sys.pd.tasks.length]?).map fun t => decide (t.ret ≠ none)) = some true := by
    decide +kernel
  have both : ∀ n, itInit.length ≤ n → (itC n).l = (itStates n).loop ∧ (itC n).now = (itStates n).sys.auth.now := by
    intro n hn
    by_cases hl : n < itAll.length + 1
    · exact key n hl hn
    · obtain ⟨d, rfl⟩ : ∃ d, n = itAll.length + d := ⟨n - itAll.length, by omega⟩
      rw [itC_end, itStates_end]
      exact key itAll.length (by omega) (by decide +kernel)
  refine ⟨?_, ?_, by simp [itC, itClock], fun n hn => (both n hn).1, fun n hn => (both n hn).2, ?_⟩
  · intro n hn
    have := pre n hn
    split at this
    · rename_i a ha; exact ⟨a, ha⟩
    · cases this
  · intro n fetch ha
    have ha : itAct n = .sys (.pd (.update fetch)) := ha
    have hn : n = syKeys.length := by
      by_cases hl : n < itAll.length
      · have := only n hl
        rw [ha] at this
        simpa using this
      · obtain ⟨d, rfl⟩ : ∃ d, n = itAll.length + d := ⟨n - itAll.length, by omega⟩
        rw [itAct_end] at ha
        cases ha
    subst hn
    refine ⟨by decide +kernel, ?_⟩
    obtain ⟨t, ht, hr⟩ := Option.map_eq_some_iff.mp init
    exact ⟨t, ht, of_decide_eq_true hr⟩
  · intro n hn
    by_cases hl : n < itAll.length
    · rw [itC_next hn]
      exact itGood_step (good n hl hn)
    · obtain ⟨d, rfl⟩ : ∃ d, n = itAll.length + d := ⟨n - itAll.length, by omega⟩
      left
      rw [show itAll.length + d + 1 = itAll.length + (d + 1) by omega, itC_end, itC_end]

/-- When it began, and when it stored. -/
def itLog : AEvent → Bool
  | .begun _ tb => decide (tb = auT 1690 + 1)
  | .stored _ ts _ _ => decide (ts = auT 1690 + 1)
  | _ => true

theorem itLogs : ∀ e ∈ (itExec.state itAll.length).sys.auth.log, itLog e = true := by
  have : (itExec.state itAll.length).sys.auth.log.all itLog = true := by decide +kernel
  intro e he
  exact List.all_eq_true.mp this e he

theorem itRegular : RegularAt asciiCase ([paDoc].map some) (auT 1500) (itExec.state itAll.length).sys.auth.now
    (itExec.state itAll.length).sys.auth.now "dom:role.admin".toList := by
  have hn : (itExec.state itAll.length).sys.auth.now = auT 1690 + 1 := by decide +kernel
  rw [hn]
  refine .inr ⟨0, paDoc, ⟨rfl, ?_, .inr (by decide)⟩, ?_⟩
  · intro j d hj hd
    match j with
    | 0 => exact absurd rfl hj
    | n + 1 => simp at hd
  · intro a ha _
    have : a = syRaw := by simpa [paDoc] using ha
    subst this
    refine ⟨fun b hb _ => ?_, fun hd => absurd hd (by decide)⟩
    have : b = syRaw := by simpa [paDoc] using hb
    subst this
    exact ⟨rfl, rfl, rfl⟩

theorem itNew : NewPolicies itExec.sys (itInit.length + 1) [paDoc] := by
  rw [itEq]
  exact paNew itOk (dom := "dom".toList) (sp := syPolicy) rfl (by decide +kernel) (by decide) (by decide +kernel)

end Ex

/-- The goroutine fetches the new policies 100 seconds after it began; the call 90 seconds later is granted by them. -/
example : 0 < Ex.paCfg.auth.cacheExp ∧ 0 ≤ Ex.paCfg.fetch.retryAttempts ∧ InTime Ex.itExec Ex.paPace Ex.paEnv Ex.itInit.length Ex.itC ∧
    0 < Ex.paPace.period ∧ Ex.paPace.atTick = false ∧ Takes 1 Ex.paEnv ∧ NewPolicies Ex.itExec.sys (Ex.itInit.length + 1) [Ex.paDoc] ∧
    (∀ n, Ex.auT 1500 + 1 ≤ (Ex.itExec.state n).sys.auth.now → Ex.itInit.length + 1 ≤ n) ∧
    Ex.auT 1500 + 1 + max Ex.paPace.period ((1 : Nat) + Ex.paPace.delay.toNat) + (1 : Nat) < (Ex.itExec.state Ex.itAll.length).sys.auth.now ∧
    StoresWithin 0 (Ex.itExec.state Ex.itAll.length).sys.auth.log ∧
    (∀ tb, .begun 0 tb ∈ (Ex.itExec.state Ex.itAll.length).sys.auth.log →
      Ex.auT 1500 + 1 + max Ex.paPace.period ((1 : Nat) + Ex.paPace.delay.toNat) + (1 : Nat) + 0 + Ex.paCfg.auth.cacheExp < tb) ∧
    (Ex.itExec.state Ex.itAll.length).sys.auth.calls 0 = some ⟨Ex.syReq, .done (.ok Ex.syPrincipal)⟩ ∧
    ∀ role ∈ Ex.syPrincipal.roles, RegularAt Ex.paCfg.auth.U ([Ex.paDoc].map some) (Ex.auT 1500) (Ex.itExec.state Ex.itAll.length).sys.auth.now
      (Ex.itExec.state Ex.itAll.length).sys.auth.now (Ex.syPrincipal.domain ++ ":role.".toList ++ role) := by
  refine ⟨by decide, by decide, Ex.itInTime, by decide, by decide, Ex.paTakes, Ex.itNew, ?_, by decide +kernel, ?_, ?_, ?_, ?_⟩
  · intro n hn
    refine Classical.byContradiction fun hlt => ?_
    have h : ∀ n, n < Ex.itInit.length + 1 → (Ex.itExec.state n).sys.auth.now < Ex.auT 1500 + 1 := by decide +kernel
    have := h n (by omega)
    omega
  · intro j tb ts k p h1 h2
    have g1 := Ex.itLogs _ h1
    have g2 := Ex.itLogs _ h2
    simp only [Ex.itLog, decide_eq_true_eq] at g1 g2
    omega
  · intro tb h
    have := Ex.itLogs _ h
    simp only [Ex.itLog, decide_eq_true_eq] at this
    rw [this]
    decide
  · exact Ex.doneOk_iff (by decide +kernel)
  · intro role hr
    have : role = "admin".toList := by simpa [Ex.syPrincipal] using hr
    subst this
    exact Ex.itRegular

/-- And there is a check that began late enough. -/
example : Ex.auT 1500 + 1 + max Ex.paPace.period ((1 : Nat) + Ex.paPace.delay.toNat) + (1 : Nat)
      < (Ex.itExec.state (Ex.itAll.length - (Ex.syCall 0).length)).sys.auth.now ∧
    (Ex.itExec.state (Ex.itAll.length - (Ex.syCall 0).length)).sys.pd.checks.length = 0 ∧
    ((Ex.itExec.state Ex.itAll.length).sys.pd.checks[0]?).any (fun q => match q.cs.coll with | .ret (.ok _) => true | _ => false) = true :=
  ⟨by decide +kernel, by decide +kernel, by decide +kernel⟩

end Athenz
