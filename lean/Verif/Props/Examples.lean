import Verif.Proofs.Update
import Verif.Proofs.CheckTerm

/-! Concrete objects used by the examples beside the theorems. -/

namespace Athenz.Ex

def allowR : RawAssertion := ⟨"d:role.r".toList, "read".toList, "d:x*".toList, "ALLOW".toList⟩
def denyR : RawAssertion := ⟨"d:role.r".toList, "read".toList, "d:x*".toList, "DENY".toList⟩
def denyS : RawAssertion := ⟨"d:role.s".toList, "*".toList, "d:xy?".toList, "Deny".toList⟩

/-- Two policies with the same triple and opposite effects: the race of C10. -/
def raceDoc : PolicyDoc := ⟨[[allowR], [denyR]], 1000⟩
/-- A document without race. -/
def doc : PolicyDoc := ⟨[[allowR], [denyS]], 1000⟩

/-- Both goroutines load before either stores; the allow is stored last. -/
def raceUpd : List UpdAct :=
  [.job 0 [], .job 0 [], .merge 0 0, .merge 0 1, .merge 0 1, .merge 0 0, .job 0 [allowR], .job 0 [], .job 0 [], .job 0 []]

def upd : List UpdAct :=
  [.job 0 [], .job 0 [], .merge 0 0, .merge 0 1, .merge 0 1, .merge 0 0, .job 0 [denyS, allowR], .job 0 [], .tick 5, .job 0 [], .job 0 [],
   .job 0 [], .job 0 []]

/-- Role `r` asks to read `xyz`. -/
def reqR : CheckReq := ⟨"d".toList, ["r".toList], "Read".toList, "xyz".toList⟩
/-- Roles `r` and `s` ask to read `xyz`. -/
def reqRS : CheckReq := ⟨"d".toList, ["r".toList, "s".toList], "Read".toList, "xyz".toList⟩

def schedR : List CheckAct := [.worker 0, .worker 0, .close, .recv, .recv]
/-- The denied role answers first. -/
def schedRS : List CheckAct := [.worker 1, .worker 1, .recv, .worker 0, .close]
/-- The allowed role answers first, then the denied one. -/
def schedRS' : List CheckAct := [.worker 0, .worker 0, .worker 1, .recv, .worker 1, .close, .recv]

theorem exists_of_map {α : Type} {o : Option α} {p : α → Bool} (h : o.map p = some true) : ∃ s, o = some s ∧ p s = true := by
  cases o with
  | none => simp at h
  | some s => exact ⟨s, rfl, by simpa using h⟩

/-- Evaluates a check to what the collector returned. -/
def checkRet (U : CaseFns) (q : CheckReq) (view : PolicyView) (sched : List CheckAct) : Option (Res (List Str)) :=
  match checkRun U q (q.init view) sched with
  | some s => match s.coll with | .ret r => some r | _ => none
  | none => none

theorem returns_of_ret {U : CaseFns} {q : CheckReq} {view : PolicyView} {sched : List CheckAct} {r : Res (List Str)}
    (h : checkRet U q view sched = some r) : CheckReturns U q view sched r := by
  unfold checkRet at h
  split at h
  · rename_i s hs
    split at h
    · rename_i r' hr
      simp only [Option.some.injEq] at h
      subst h
      exact ⟨s, hs, hr⟩
    · simp at h
  · simp at h

theorem succeeded_of {s : UpdState} (h : s.jobs = [.done none]) : s.succeeded := by
  intro j hj; rw [h] at hj; simpa using hj

/-- The state after `upd`. -/
theorem upd_run : ∃ s, updRun asciiCase (updInit 10 [some doc]) upd = some s ∧ s.succeeded ∧ s.now = 15 ∧
    CheckReturns asciiCase reqR (viewOf s.rp 20) schedR (.ok ["r".toList]) ∧
    CheckReturns asciiCase reqRS (viewOf s.rp 20) schedRS (.err .denyByPolicy) := by
  obtain ⟨s, hs, hp⟩ := exists_of_map (o := updRun asciiCase (updInit 10 [some doc]) upd)
    (p := fun s => decide (s.jobs = [.done none]) && decide (s.now = 15) &&
      decide (checkRet asciiCase reqR (viewOf s.rp 20) schedR = some (.ok ["r".toList])) &&
      decide (checkRet asciiCase reqRS (viewOf s.rp 20) schedRS = some (.err .denyByPolicy))) (by decide +kernel)
  simp only [Bool.and_eq_true, decide_eq_true_eq] at hp
  exact ⟨s, hs, succeeded_of hp.1.1.1, hp.1.1.2, returns_of_ret hp.1.2, returns_of_ret hp.2⟩

theorem doc_denySafe : DenySafe asciiCase doc := by
  intro a ha had
  simp [doc] at ha
  rcases ha with rfl | rfl
  · exact absurd ((isDeny_iff _ _).mpr had) (by decide +kernel)
  · intro p hp hb
    simp [doc] at hp
    rcases hp with rfl | rfl
    · obtain ⟨b, hb, hk⟩ := hb
      simp at hb; subst hb
      exact absurd hk.1 (by decide +kernel)
    · exact ⟨denyS, by simp, ⟨rfl, rfl, rfl⟩, had⟩

theorem doc_commaFree : CommaFree (allAssertions [some doc]) := by
  intro a ha
  simp [allAssertions, doc] at ha
  rcases ha with rfl | rfl <;> decide

theorem doc_frame : Frame [some doc] 10 15 := by
  refine ⟨by decide, by decide, ?_⟩
  intro d hd
  simp at hd; subst hd
  decide

theorem single_disjoint (f : Option PolicyDoc) : RolesDisjoint [f] := by
  intro i j d d' hij hi hj
  match i, j with
  | 0, 0 => exact absurd rfl hij
  | n + 1, _ => simp at hi
  | 0, n + 1 => simp at hj

end Athenz.Ex
