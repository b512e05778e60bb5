import Verif.Spec.TimedRun
import Verif.Props.Timing

/-! # C93: the model of times agrees with the model of the fetcher -/

namespace Athenz
open Spec

namespace TimedRunP

theorem steps {cfg : FetchCfg} {cache : Option Tagged} {keys : KeyProvider} {delay : Int} {srv : Server} {j : Nat}
    (hp : ∀ i t, (fetchAnswer cfg cache keys (t + (srv i t).1) (srv i t).2).1 ≠ .panic) :
    ∀ (fuel i : Nat) (s : FState) (e : Option Err), s.crashed = false → s.cache = cache → s.keys = keys →
      s.calls[j]? = some ⟨true, .loop ((i : Int) - 1) e⟩ → fuel = (cfg.retryAttempts - ((i : Int) - 1)).toNat →
      ∃ s' sp err, fRun cfg s (callSteps cfg cache keys delay srv j fuel i s.now) = some s' ∧
        s'.now = (retryFrom delay (timesOf cfg cache keys srv) fuel i s.now).2.1 ∧ s'.calls[j]? = some ⟨true, .ret sp err⟩ ∧
        (err = none ↔ (retryFrom delay (timesOf cfg cache keys srv) fuel i s.now).2.2 = true) ∧
        s'.reqs.length = s.reqs.length + (retryFrom delay (timesOf cfg cache keys srv) fuel i s.now).1.countP isFetch ∧
        ∃ new, s'.reqs = s.reqs ++ new ∧ ∀ x ∈ new, x.1 = j := by
  intro fuel
  induction fuel with
  | zero =>
    intro i s e hc hca hk hj hf
    have hi : ¬ ((i : Int) - 1 < cfg.retryAttempts) := by omega
    have hlt : j < s.calls.length := (List.getElem?_eq_some_iff.mp hj).1
    refine ⟨{ s with calls := s.calls.set j ⟨true, .ret (s.cache.map (·.sp)) (some (e.getD (.other "retryAttempts")))⟩ }, _, _, ?_, rfl,
      List.getElem?_set_self hlt, by simp [retryFrom], by simp [retryFrom], [], by simp, by simp⟩
    simp [callSteps, fRun, fStep, hc, hj, hi]
  | succ fuel ih =>
    intro i s e hc hca hk hj hf
    have hi : (i : Int) - 1 < cfg.retryAttempts := by omega
    have hlt : j < s.calls.length := (List.getElem?_eq_some_iff.mp hj).1
    have hpi := hp i s.now
    generalize hd : (srv i s.now).1 = d at hpi
    generalize hr : (srv i s.now).2 = r at hpi
    have hsend : fStep cfg s (.send j) = some { s with
        calls := s.calls.set j ⟨true, .sent ((i : Int) - 1) s.cache⟩, reqs := s.reqs ++ [(j, ifNoneMatch s.cache s.now)] } := by
      simp [fStep, hc, hj, hi]
    cases ha : fetchAnswer cfg cache keys (s.now + d) r with
    | mk res new =>
      rw [ha] at hpi
      cases res with
      | panic => exact absurd rfl hpi
      | ok sp =>
        have hg : Gets cfg cache keys (s.now + d) r = true := by simp [Gets, ha]
        refine ⟨{ s with
            now := s.now + d
            calls := (s.calls.set j ⟨true, .sent ((i : Int) - 1) s.cache⟩).set j ⟨true, .ret (some sp) none⟩
            reqs := s.reqs ++ [(j, ifNoneMatch s.cache s.now)], cache := match new with | some t => some t | none => s.cache },
          some sp, none, ?_, ?_, ?_, ?_, ?_, [(j, ifNoneMatch s.cache s.now)], rfl, by simp⟩
        · simp only [callSteps, hd, hr, hg, if_true, List.append_nil]
          simp [fRun, hsend]
          cases new <;> simp [fStep, hc, hlt, hca, hk, ha]
        · simp [retryFrom, timesOf, hd, hr, hg]
        · simp [hlt]
        · simp [retryFrom, timesOf, hd, hr, hg]
        · simp [retryFrom, timesOf, hd, hr, hg, isFetch]
      | err e' =>
        have hg : Gets cfg cache keys (s.now + d) r = false := by simp [Gets, ha]
        obtain ⟨s', sp, err, h1, h2, h3, h4, h5, nw, h6, h7⟩ := ih (i + 1)
          { s with
              now := s.now + d + delay.toNat
              calls := (s.calls.set j ⟨true, .sent ((i : Int) - 1) s.cache⟩).set j ⟨true, .loop ((i : Int) - 1 + 1) (some e')⟩
              reqs := s.reqs ++ [(j, ifNoneMatch s.cache s.now)] } (some e') hc hca hk
          (by simp [hlt]) (by push_cast; omega)
        refine ⟨s', sp, err, ?_, ?_, h3, ?_, ?_, (j, ifNoneMatch s.cache s.now) :: nw, by simp [h6], ?_⟩
        · rw [← h1]
          simp only [callSteps, hd, hr, hg, Bool.false_eq_true, if_false, List.cons_append, List.nil_append]
          simp [fRun, hsend]
          simp [fStep, hc, hlt, hca, hk, ha]
        · rw [h2]; simp [retryFrom, timesOf, hd, hr, hg]
        · rw [h4]; simp [retryFrom, timesOf, hd, hr, hg]
        · have hcount : (retryFrom delay (timesOf cfg cache keys srv) (fuel + 1) i s.now).1.countP isFetch =
              (retryFrom delay (timesOf cfg cache keys srv) fuel (i + 1) (s.now + d + delay.toNat)).1.countP isFetch + 1 := by
            simp [retryFrom, timesOf, hd, hr, hg, isFetch, List.countP_cons]
          rw [h5, hcount]
          simp only [List.length_append, List.length_singleton]
          omega
        · intro x hx
          rcases List.mem_cons.mp hx with rfl | hx
          · rfl
          · exact h7 x hx

end TimedRunP

/-- **C93**, the times are those of the fetcher: a call of `FetchWithRetry` that is made in any state, by the steps of the model of the fetcher
and with no other call in between, ends when the model of times says, with an error just when that says so, and has sent as many requests. -/
theorem C93_agrees (cfg : FetchCfg) (s : FState) (hc : s.crashed = false) (delay : Int) (srv : Server)
    (hp : ∀ i t, (fetchAnswer cfg s.cache s.keys (t + (srv i t).1) (srv i t).2).1 ≠ .panic) :
    let timed := timedFetch delay cfg.retryAttempts (timesOf cfg s.cache s.keys srv) s.now
    ∃ s' sp err new, fRun cfg s (.call true :: callSteps cfg s.cache s.keys delay srv s.calls.length (cfg.retryAttempts + 1).toNat 0 s.now) = some s' ∧
      s'.now = timed.2.1 ∧ s'.calls[s.calls.length]? = some ⟨true, .ret sp err⟩ ∧ (err = none ↔ timed.2.2 = true) ∧
      s'.reqs = s.reqs ++ new ∧ (∀ x ∈ new, x.1 = s.calls.length) ∧ new.length = timed.1.countP isFetch := by
  obtain ⟨s', sp, err, h1, h2, h3, h4, h5, new, h6, h7⟩ := TimedRunP.steps (delay := delay) (j := s.calls.length) hp (cfg.retryAttempts + 1).toNat 0
    { s with calls := s.calls ++ [⟨true, .loop (-1) none⟩] } none hc rfl rfl (by simp) (by simp)
  refine ⟨s', sp, err, new, ?_, h2, h3, h4, h6, h7, ?_⟩
  · rw [← h1]; simp [fRun, fStep, hc]
  · rw [h6, List.length_append] at h5
    exact Nat.add_left_cancel h5

namespace Ex

/-- The server does not answer the first two requests, each for 7, and then answers 304. -/
def trServer : Server := fun i _ => if i < 2 then (7, .fail (.other "timeout")) else (1, .answer 304 [] [])

def trState : FState := { fInit 100 (fun _ _ => none) with cache := some ⟨"t".toList, 1000, ⟨none, [], []⟩⟩ }

def trCfg : FetchCfg := ⟨⟨fun _ => none, fun _ => none, fun _ => none⟩, 0, 3⟩

end Ex

/-- Two requests fail and the third succeeds: with pauses of 10 it ends at 135. -/
example : Ex.trState.crashed = false ∧
    (∀ i t, (fetchAnswer Ex.trCfg Ex.trState.cache Ex.trState.keys (t + (Ex.trServer i t).1) (Ex.trServer i t).2).1 ≠ .panic) ∧
    (timedFetch 10 3 (timesOf Ex.trCfg Ex.trState.cache Ex.trState.keys Ex.trServer) 100).2 = (135, true) := by
  refine ⟨rfl, fun i t => ?_, by decide +kernel⟩
  by_cases h : i < 2 <;> simp [Ex.trServer, h, fetchAnswer, Ex.trState]

/-- If the server never answers, four requests are sent. -/
example : (timedFetch 10 3 (timesOf Ex.trCfg Ex.trState.cache Ex.trState.keys fun _ _ => (7, .fail (.other "timeout"))) 100).2 = (168, false) := by
  decide +kernel

end Athenz
