import Verif.Spec.LoopTime
import Verif.Props.Pace

/-! # C94: the model of when updates are called agrees with the model of the goroutines -/

namespace Athenz
open Spec

namespace LoopTimeP

variable {cfg : PaceCfg} {env : Nat → Int → TFetch} {pick : Nat → Bool}

theorem congr {pick' : Nat → Bool} : ∀ (n : Nat), (∀ i, i < n → pick i = pick' i) → paceState cfg env pick n = paceState cfg env pick' n := by
  intro n
  induction n with
  | zero => intro _; rfl
  | succ n ih =>
    intro h
    simp only [paceState]
    rw [ih fun i hi => h i (by omega), h n (by omega)]

theorem congr_upd {pick' : Nat → Bool} (n : Nat) (h : ∀ i, i < n + 1 → pick i = pick' i) : paceUpd cfg env pick n = paceUpd cfg env pick' n := by
  unfold paceUpd
  rw [congr n fun i hi => h i (by omega), h n (by omega)]

theorem step_keeps (e : Int → TFetch) (b : Bool) (s : PaceSt) :
    (paceStep cfg e b s).2.last = (if (paceStep cfg e b s).1.trig = .retry then s.last else (paceStep cfg e b s).1.start) ∧
    (paceStep cfg e b s).2.fch = (if (paceStep cfg e b s).1.ok then (if (paceStep cfg e b s).1.trig = .retry then false else s.fch) else true) := by
  simp only [paceStep]
  by_cases hpend : ticks cfg s.last < ticks cfg s.now
  · rcases Bool.eq_false_or_eq_true (e s.now).ok with hk | hk <;> rcases Bool.eq_false_or_eq_true s.fch with hf | hf <;> cases b <;>
      simp [hpend, hk, hf]
  · rcases Bool.eq_false_or_eq_true s.fch with hf | hf
    · rcases Bool.eq_false_or_eq_true (e s.now).ok with hk | hk <;> simp [hpend, hk, hf]
    · rcases Bool.eq_false_or_eq_true (e (cfg.t0 + (ticks cfg s.now + 1) * cfg.period)).ok with hk | hk <;> simp [hpend, hk, hf]

theorem step_retry (e : Int → TFetch) (s : PaceSt) (h : s.fch = true) :
    (paceStep cfg e true s).1.trig = .retry ∧ (paceStep cfg e true s).1.start = s.now := by
  simp [paceStep, h]

theorem step_tick (e : Int → TFetch) (s : PaceSt) (h : ticks cfg s.last < ticks cfg s.now) :
    (paceStep cfg e false s).1.trig = .tick ∧ (paceStep cfg e false s).1.start = s.now := by
  simp [paceStep, h]

theorem step_wait (e : Int → TFetch) (b : Bool) (s : PaceSt) (hf : s.fch = false) (h : ¬ ticks cfg s.last < ticks cfg s.now) :
    (paceStep cfg e b s).1.trig = .tick ∧ (paceStep cfg e b s).1.start = cfg.t0 + (ticks cfg s.now + 1) * cfg.period := by
  simp [paceStep, hf, h]

/-- The number of failures in the queue. -/
def room (b : Bool) : Nat := if b then 1 else 0

/-- The goroutine is in or after update `u`, before which there was a failure in the queue as `f` says. -/
def During (k : LKind) (cfg : PaceCfg) (s : TLoop) (f : Bool) (u : PaceUpd) : Prop :=
  s.l.fch = room (if u.trig = .retry then false else f) ∧
  match s.l.pc with
  | .updating r => r = decide (u.trig = .retry) ∧ s.since = u.start ∧ s.now ≤ stops u
  | .report r _ => r = decide (u.trig = .retry) ∧ u.ok = false ∧ s.now = stops u + (if k = .jwkd then cfg.delay.toNat else 0)
  | .sleeping r _ => r = decide (u.trig = .retry) ∧ u.ok = false ∧ s.since = stops u ∧ s.now ≤ stops u + cfg.delay.toNat ∧ (u.trig = .retry ∨ k = .jwkd)
  | .offer => u.ok = false ∧ s.now = stops u + PaceP.pause cfg u
  | _ => False

/-- The goroutine is at its select, for which the model of times has `p`. -/
def Waiting (cfg : PaceCfg) (s : TLoop) (p : PaceSt) : Prop :=
  s.l.fch = room p.fch ∧ p.now ≤ s.now ∧
  (p.now < s.now → p.fch = false ∧ ¬ ticks cfg p.last < ticks cfg p.now ∧ s.now ≤ cfg.t0 + (ticks cfg p.now + 1) * cfg.period)

structure Inv (k : LKind) (cfg : PaceCfg) (env : Nat → Int → TFetch) (pick : Nat → Bool) (s : TLoop) : Prop where
  calls : s.calls = (List.range s.calls.length).map fun i => ((paceUpd cfg env pick i).trig, (paceUpd cfg env pick i).start)
  early : cfg.t0 + s.fired * cfg.period ≤ s.now
  late : s.now ≤ s.due cfg
  seen : ticks cfg (paceState cfg env pick s.calls.length).last ≤ s.fired
  tick : s.l.tick = true ↔ ticks cfg (paceState cfg env pick s.calls.length).last < s.fired
  pc : (s.l.pc = .select ∧ Waiting cfg s (paceState cfg env pick s.calls.length)) ∨
    (s.l.pc ≠ .select ∧ ∃ m, s.calls.length = m + 1 ∧ During k cfg s (paceState cfg env pick m).fch (paceUpd cfg env pick m))
  alive : s.l.cancelled = false

theorem Inv.ticks_now (hp : 0 < cfg.period) {k : LKind} {s : TLoop} (h : Inv k cfg env pick s) (hd : s.now < s.due cfg) : ticks cfg s.now = s.fired := by
  have h1 := h.early
  unfold TLoop.due at hd
  have h2 := PaceP.tick_le hp s.now
  have h3 := PaceP.lt_tick hp s.now
  have a : ¬ (ticks cfg s.now + 1 ≤ (s.fired : Int)) := by
    intro hle
    have := mul_le_mul_of_nonneg_right hle (Int.le_of_lt hp)
    omega
  have b : ¬ ((s.fired : Int) + 1 ≤ ticks cfg s.now) := by
    intro hle
    have := mul_le_mul_of_nonneg_right hle (Int.le_of_lt hp)
    omega
  omega

theorem init_inv (hp : 0 < cfg.period) (k : LKind) : Inv k cfg env (fun _ => false) (tlInit cfg) := by
  have ht : ticks cfg cfg.t0 = 0 := by simp [ticks]
  refine ⟨by simp [tlInit], by simp [tlInit], ?_, by simp [tlInit, paceState, ht], by simp [tlInit, paceState, ht, lInit], ?_, rfl⟩
  · simp [tlInit, TLoop.due]; omega
  · left
    simp [tlInit, lInit, Waiting, paceState, room]

theorem step_inv (hp : 0 < cfg.period) {k : LKind} (hk : cfg.atTick = decide (k = .jwkd)) {ce : Str} {s s' : TLoop} (hs : TlStep k ce cfg env s s')
    (h : Inv k cfg env pick s) : ∃ pick', Inv k cfg env pick' s' ∧ ∀ i, i < s.calls.length → pick i = pick' i := by
  have hnext : ∀ m, s.calls.length = m + 1 →
      (paceState cfg env pick s.calls.length).now = stops (paceUpd cfg env pick m) + PaceP.pause cfg (paceUpd cfg env pick m) ∧
      (paceState cfg env pick s.calls.length).fch = (if (paceUpd cfg env pick m).ok then
        (if (paceUpd cfg env pick m).trig = .retry then false else (paceState cfg env pick m).fch) else true) := by
    intro m hm
    rw [hm]
    exact ⟨(PaceP.step_next (cfg := cfg) (env m) (pick m) (paceState cfg env pick m)).1, (step_keeps (env m) (pick m) (paceState cfg env pick m)).2⟩
  cases hs with
  | pass d hd hidle hdue =>
    refine ⟨pick, ⟨h.calls, ?_, hdue, h.seen, h.tick, ?_, h.alive⟩, fun _ _ => rfl⟩
    · have := h.early; dsimp only; omega
    · rcases h.pc with ⟨hpc, hf, hn, hw⟩ | ⟨hpc, m, hm, hf, hw⟩
      · left
        simp only [NothingToDo, hpc] at hidle
        refine ⟨hpc, hf, by dsimp only; omega, fun _ => ?_⟩
        have hnow : s.now < s.due cfg := by omega
        have ht := h.ticks_now hp hnow
        have hl : ¬ ticks cfg (paceState cfg env pick s.calls.length).last < s.fired := by
          intro hc
          rw [h.tick.mpr hc] at hidle
          exact absurd hidle.2 (by decide)
        have hfch : (paceState cfg env pick s.calls.length).fch = false := by
          have := hidle.1
          rw [hf] at this
          cases hb : (paceState cfg env pick s.calls.length).fch
          · rfl
          · simp [room, hb] at this
        by_cases he : (paceState cfg env pick s.calls.length).now < s.now
        · obtain ⟨_, g2, g3⟩ := hw he
          refine ⟨hfch, g2, ?_⟩
          have hm := PaceP.ticks_mono hp (Int.le_of_lt he)
          have hi := (PaceP.inv (cfg := cfg) (env := env) (pick := pick) hp s.calls.length).2
          have hm' := PaceP.ticks_mono hp hi
          have : ticks cfg (paceState cfg env pick s.calls.length).now = s.fired := by
            have := h.seen
            omega
          rw [this]
          exact hdue
        · have e : (paceState cfg env pick s.calls.length).now = s.now := by omega
          rw [e, ht]
          exact ⟨hfch, hl, hdue⟩
      · right
        refine ⟨hpc, m, hm, hf, ?_⟩
        cases hq : s.l.pc with
        | updating r =>
          simp only [hq] at hw
          simp only [NothingToDo, hq, TLoop.upd, hm, Nat.add_sub_cancel, hw.2.1] at hidle
          rw [← (PaceP.dur_eq (cfg := cfg) (env := env) (pick := pick) m).1] at hidle
          exact ⟨hw.1, hw.2.1, hidle⟩
        | sleeping r e =>
          simp only [hq] at hw
          simp only [NothingToDo, hq, hw.2.2.1] at hidle
          exact ⟨hw.1, hw.2.1, hw.2.2.1, hidle, hw.2.2.2.2⟩
        | select => exact absurd hq hpc
        | report r e => simp [NothingToDo, hq] at hidle
        | offer => simp [NothingToDo, hq] at hidle
        | stopping => simp [NothingToDo, hq] at hidle
        | exited => simp [NothingToDo, hq] at hidle
  | tick l hdue hl =>
    simp only [lStep, Option.some.injEq] at hl
    subst hl
    refine ⟨pick, ⟨h.calls, ?_, ?_, ?_, ?_, ?_, h.alive⟩, fun _ _ => rfl⟩
    · dsimp only; unfold TLoop.due at hdue; push_cast; omega
    · unfold TLoop.due at hdue ⊢
      dsimp only
      push_cast
      rw [hdue]
      have : ((s.fired : Int) + 1 + 1) * cfg.period = ((s.fired : Int) + 1) * cfg.period + cfg.period := by ring
      omega
    · have := h.seen; dsimp only; push_cast; omega
    · have := h.seen
      dsimp only
      push_cast
      constructor
      · intro _; omega
      · intro _; rfl
    · exact h.pc
  | recv l hl =>
    have hl' : l = { s.l with ech := l.ech, read := l.read } := by
      simp only [lStep] at hl
      split at hl
      · cases hl
      · cases hl; rfl
    rw [hl']
    exact ⟨pick, ⟨h.calls, h.early, h.late, h.seen, h.tick, h.pc, h.alive⟩, fun _ _ => rfl⟩
  | call trig l hdue hl =>
    have hpc : s.l.pc = .select := by
      cases trig <;> simp [lStep] at hl <;> exact hl.1.1
    rcases h.pc with ⟨_, hf, hn, hw⟩ | ⟨hne, _⟩
    on_goal 2 => exact absurd hpc hne
    have ht := h.ticks_now hp hdue
    have hi := (PaceP.inv (cfg := cfg) (env := env) (pick := pick) hp s.calls.length).2
    generalize hP : paceState cfg env pick s.calls.length = P at *
    have hstep : ∃ b, (paceStep cfg (env s.calls.length) b P).1.trig = trig ∧ (paceStep cfg (env s.calls.length) b P).1.start = s.now := by
      cases trig with
      | retry =>
        simp [lStep] at hl
        have hfch : P.fch = true := by
          cases hb : P.fch
          · rw [hf] at hl; simp [room, hb] at hl
          · rfl
        have hnow : P.now = s.now := by
          by_cases he : P.now < s.now
          · rw [(hw he).1] at hfch; cases hfch
          · omega
        exact ⟨true, (step_retry _ P hfch).1, by rw [(step_retry _ P hfch).2, hnow]⟩
      | tick =>
        simp [lStep] at hl
        have htick := h.tick.mp hl.1.2
        rw [hP] at htick
        by_cases he : P.now < s.now
        · obtain ⟨g1, g2, g3⟩ := hw he
          refine ⟨false, (step_wait _ false P g1 g2).1, ?_⟩
          rw [(step_wait _ false P g1 g2).2]
          have hm := PaceP.ticks_mono hp hi
          have hle : ticks cfg P.now + 1 ≤ s.fired := by omega
          have := mul_le_mul_of_nonneg_right hle (Int.le_of_lt hp)
          have := h.early
          omega
        · have e : P.now = s.now := by omega
          have hpend : ticks cfg P.last < ticks cfg P.now := by rw [e, ht]; exact htick
          exact ⟨false, (step_tick _ P hpend).1, by rw [(step_tick _ P hpend).2, e]⟩
    obtain ⟨b, hb1, hb2⟩ := hstep
    let pick' : Nat → Bool := fun i => if i < s.calls.length then pick i else b
    have hold : ∀ i, i < s.calls.length → pick i = pick' i := fun i hi => by simp [pick', hi]
    have hP' : paceState cfg env pick' s.calls.length = P := by rw [← hP]; exact (congr _ hold).symm
    have hpk : pick' s.calls.length = b := by simp [pick']
    have hu : paceUpd cfg env pick' s.calls.length = (paceStep cfg (env s.calls.length) b P).1 := by unfold paceUpd; rw [hP', hpk]
    have hlen : (s.calls ++ [(trig, s.now)]).length = s.calls.length + 1 := by simp
    have hlast : (paceState cfg env pick' (s.calls.length + 1)).last = if trig = .retry then P.last else s.now := by
      simp only [paceState]
      rw [hP', hpk, (step_keeps _ _ _).1, hb1, hb2]
    refine ⟨pick', ⟨?_, h.early, h.late, ?_, ?_, ?_, ?_⟩, hold⟩
    · dsimp only
      rw [hlen, List.range_succ, List.map_append, List.map_singleton, hu, hb1, hb2]
      congr 1
      rw [h.calls]
      simp only [List.length_map, List.length_range]
      apply List.map_congr_left
      intro i hi'
      have hlt : i < s.calls.length := List.mem_range.mp hi'
      rw [congr_upd i fun j hj => hold j (by omega)]
    · dsimp only
      rw [hlen, hlast]
      split
      · have := h.seen; rw [hP] at this; exact this
      · rw [ht]
    · dsimp only
      rw [hlen, hlast]
      cases trig with
      | retry =>
        simp [lStep] at hl
        obtain ⟨_, rfl⟩ := hl
        have := h.tick
        rw [hP] at this
        simpa using this
      | tick =>
        simp [lStep] at hl
        obtain ⟨_, rfl⟩ := hl
        simp [ht]
    · right
      cases trig with
      | retry =>
        simp [lStep] at hl
        obtain ⟨hl, rfl⟩ := hl
        refine ⟨by simp, s.calls.length, hlen, ?_, ?_⟩
        · rw [hu, hb1]
          have : s.l.fch ≤ 1 := by rw [hf]; unfold room; split <;> omega
          simp [room]
          omega
        · dsimp only
          rw [hu]
          unfold stops
          rw [hb1, hb2]
          exact ⟨by simp, rfl, by omega⟩
      | tick =>
        simp [lStep] at hl
        obtain ⟨hl, rfl⟩ := hl
        refine ⟨by simp, s.calls.length, hlen, ?_, ?_⟩
        · rw [hu, hb1, hP']
          simpa using hf
        · dsimp only
          rw [hu]
          unfold stops
          rw [hb1, hb2]
          exact ⟨by simp, rfl, by omega⟩
    · dsimp only
      have : l.cancelled = s.l.cancelled := by
        cases trig <;> simp [lStep] at hl <;> obtain ⟨_, rfl⟩ := hl <;> rfl
      rw [this]; exact h.alive
  | ret e l hdue hend hl =>
    rcases h.pc with ⟨hpc, _⟩ | ⟨hne, m, hm, hf, hw⟩
    · cases hok : (s.upd env).ok <;> simp [lStep, hok, hpc] at hl
    · cases hq : s.l.pc with
      | updating r =>
        simp only [hq] at hw
        obtain ⟨hr, hsince, hle⟩ := hw
        have hupd : s.upd env = env m (paceUpd cfg env pick m).start := by simp [TLoop.upd, hm, hsince]
        have hd := PaceP.dur_eq (cfg := cfg) (env := env) (pick := pick) m
        have hstop : s.now = stops (paceUpd cfg env pick m) := by unfold stops; rw [hd.1, ← hupd, ← hsince]; exact hend
        obtain ⟨hn1, hn2⟩ := hnext m hm
        cases hok : (s.upd env).ok with
        | true =>
          have hok' : (paceUpd cfg env pick m).ok = true := by rw [hd.2, ← hupd]; exact hok
          simp [lStep, hok, hq] at hl
          subst hl
          refine ⟨pick, ⟨h.calls, h.early, h.late, h.seen, h.tick, .inl ⟨rfl, ?_, ?_, ?_⟩, h.alive⟩, fun _ _ => rfl⟩
          · dsimp only
            rw [hn2, hok', hf]; rfl
          · dsimp only
            rw [hn1]; simp [PaceP.pause, hok', hstop]
          · dsimp only
            rw [hn1]; simp [PaceP.pause, hok', hstop]
        | false =>
          have hok' : (paceUpd cfg env pick m).ok = false := by rw [hd.2, ← hupd]; exact hok
          simp [lStep, hok, hq] at hl
          subst hl
          refine ⟨pick, ⟨h.calls, h.early, h.late, h.seen, h.tick, .inr ⟨?_, m, hm, hf, ?_⟩, h.alive⟩, fun _ _ => rfl⟩
          · dsimp only; split <;> simp
          · by_cases hj : k = .jwkd
            · simp only [hj, if_true]
              exact ⟨hr, hok', hstop, by omega, .inr trivial⟩
            · simp only [hj, if_false]
              exact ⟨hr, hok', by omega⟩
      | select => exact absurd hq hne
      | report r e => cases hok : (s.upd env).ok <;> simp [lStep, hok, hq] at hl
      | sleeping r e => cases hok : (s.upd env).ok <;> simp [lStep, hok, hq] at hl
      | offer => cases hok : (s.upd env).ok <;> simp [lStep, hok, hq] at hl
      | stopping => cases hok : (s.upd env).ok <;> simp [lStep, hok, hq] at hl
      | exited => cases hok : (s.upd env).ok <;> simp [lStep, hok, hq] at hl
  | send l hdue hl =>
    rcases h.pc with ⟨hpc, _⟩ | ⟨hne, m, hm, hf, hw⟩
    · simp [lStep, hpc] at hl
    · cases hq : s.l.pc with
      | report r e =>
        simp only [hq] at hw
        obtain ⟨hr, hok, hnow⟩ := hw
        by_cases hj : k = .jwkd
        · have hl' : ∃ ech ebuf, l = { s.l with pc := .offer, ech := ech, ebuf := ebuf } := by
            simp only [lStep, hq, hj, if_true] at hl
            split at hl <;> cases hl <;> exact ⟨_, _, rfl⟩
          obtain ⟨_, _, rfl⟩ := hl'
          refine ⟨pick, ⟨h.calls, h.early, h.late, h.seen, h.tick, .inr ⟨by simp, m, hm, hf, ?_⟩, h.alive⟩, fun _ _ => rfl⟩
          simp only [hj, if_true] at hnow
          exact ⟨hok, by simp [hnow, PaceP.pause, hok, hk, hj]⟩
        · have hl' : ∃ ech, l = { s.l with pc := if r then .sleeping r e else .offer, ech := ech } := by
            simp only [lStep, hq, hj, if_false] at hl
            split at hl <;> cases hl
            exact ⟨_, rfl⟩
          obtain ⟨_, rfl⟩ := hl'
          simp only [hj, if_false] at hnow
          refine ⟨pick, ⟨h.calls, h.early, h.late, h.seen, h.tick, .inr ⟨by dsimp only; split <;> simp, m, hm, hf, ?_⟩, h.alive⟩, fun _ _ => rfl⟩
          cases r with
          | true =>
            simp only [if_true]
            exact ⟨hr, hok, by omega, by omega, .inl (of_decide_eq_true hr.symm)⟩
          | false =>
            have htrig : (paceUpd cfg env pick m).trig ≠ .retry := of_decide_eq_false hr.symm
            simp only [Bool.false_eq_true, if_false]
            exact ⟨hok, by simp [hnow, PaceP.pause, hk, hj, htrig]⟩
      | updating r => simp [lStep, hq] at hl
      | select => exact absurd hq hne
      | sleeping r e => simp [lStep, hq] at hl
      | offer => simp [lStep, hq] at hl
      | stopping => simp [lStep, hq] at hl
      | exited => simp [lStep, hq] at hl
  | wake l hdue hend hl =>
    rcases h.pc with ⟨hpc, _⟩ | ⟨hne, m, hm, hf, hw⟩
    · simp [lStep, hpc] at hl
    · cases hq : s.l.pc with
      | sleeping r e =>
        simp only [hq] at hw
        obtain ⟨hr, hok, hsince, hle, hwhy⟩ := hw
        simp [lStep, hq] at hl
        subst hl
        refine ⟨pick, ⟨h.calls, h.early, h.late, h.seen, h.tick, .inr ⟨by dsimp only; split <;> simp, m, hm, hf, ?_⟩, h.alive⟩, fun _ _ => rfl⟩
        by_cases hj : k = .jwkd
        · simp only [hj, if_true]
          exact ⟨hr, hok, by rw [hend, hsince]⟩
        · simp only [hj, if_false]
          have htrig : (paceUpd cfg env pick m).trig = .retry := hwhy.resolve_right hj
          exact ⟨hok, by simp [hend, hsince, PaceP.pause, hok, htrig]⟩
      | updating r => simp [lStep, hq] at hl
      | select => exact absurd hq hne
      | report r e => simp [lStep, hq] at hl
      | offer => simp [lStep, hq] at hl
      | stopping => simp [lStep, hq] at hl
      | exited => simp [lStep, hq] at hl
  | offer l hdue hl =>
    simp only [lStep] at hl
    split at hl
    on_goal 2 => cases hl
    rename_i hq
    cases hl
    rcases h.pc with ⟨hpc, _⟩ | ⟨hne, m, hm, hf, hw⟩
    · rw [hpc] at hq; cases hq
    · simp only [hq] at hw
      obtain ⟨hn1, hn2⟩ := hnext m hm
      rw [hw.1] at hn2
      refine ⟨pick, ⟨h.calls, h.early, h.late, h.seen, h.tick, .inl ⟨rfl, ?_, ?_, ?_⟩, h.alive⟩, fun _ _ => rfl⟩
      · dsimp only
        rw [hn2, hf]
        unfold room
        split <;> rename_i hlt <;> revert hlt <;> split <;> simp
      · dsimp only; rw [hn1, hw.2]
      · dsimp only; rw [hn1, hw.2]; intro hlt; omega

theorem inv_congr {k : LKind} {pick' : Nat → Bool} {s : TLoop} (h : Inv k cfg env pick s) (he : ∀ i, i < s.calls.length → pick i = pick' i) :
    Inv k cfg env pick' s := by
  have e := congr (cfg := cfg) (env := env) _ he
  refine ⟨?_, h.early, h.late, e ▸ h.seen, e ▸ h.tick, ?_, h.alive⟩
  · refine h.calls.trans (List.map_congr_left fun i hi => ?_)
    have := List.mem_range.mp hi
    rw [congr_upd i fun j hj => he j (by omega)]
  · rcases h.pc with ⟨hpc, hw⟩ | ⟨hpc, m, hm, hd⟩
    · exact .inl ⟨hpc, e ▸ hw⟩
    · refine .inr ⟨hpc, m, hm, ?_⟩
      rw [← congr_upd m fun j hj => he j (by omega), ← congr m fun j hj => he j (by omega)]
      exact hd

/-- The next call comes later. -/
theorem inv_next (hp : 0 < cfg.period) {k : LKind} (hk : cfg.atTick = decide (k = .jwkd)) {s : TLoop} (h : Inv k cfg env pick s) :
    s.now ≤ (paceUpd cfg env pick s.calls.length).start := by
  rcases h.pc with ⟨_, _, hn, hw⟩ | ⟨_, m, hm, _, hd⟩
  · unfold paceUpd
    by_cases he : (paceState cfg env pick s.calls.length).now < s.now
    · obtain ⟨g1, g2, g3⟩ := hw he
      rw [(step_wait _ _ _ g1 g2).2]
      exact g3
    · have := (PaceP.step_start hp (env s.calls.length) (pick s.calls.length) _
        (PaceP.inv (cfg := cfg) (env := env) (pick := pick) hp s.calls.length).2).1
      omega
  · have hg := (PaceP.gap (cfg := cfg) (env := env) (pick := pick) hp m).1
    rw [hm]
    split at hd
    · omega
    · rename_i hq
      obtain ⟨_, hok, hnow⟩ := hd
      by_cases hj : k = .jwkd
      · have : PaceP.pause cfg (paceUpd cfg env pick m) = cfg.delay.toNat := by simp [PaceP.pause, hok, hk, hj]
        simp only [hj, if_true] at hnow
        omega
      · simp only [hj, if_false] at hnow
        omega
    · obtain ⟨_, hok, _, hle, hwhy⟩ := hd
      have : PaceP.pause cfg (paceUpd cfg env pick m) = cfg.delay.toNat := by
        rcases hwhy with hw | hw <;> simp [PaceP.pause, hok, hk, hw]
      omega
    · omega
    · exact hd.elim

end LoopTimeP

/-- **C94**, the times are those of the goroutines: whatever steps the goroutine of `Start` of one of the three daemons takes, if it goes on without delay
and its context is not cancelled, it has called `Update` when and why the model of times says, for some choice where both cases are ready. -/
theorem C94_agrees (k : LKind) (ce : Str) (cfg : PaceCfg) (env : Nat → Int → TFetch) (hp : 0 < cfg.period) (hk : cfg.atTick = decide (k = .jwkd))
    (s : TLoop) (hs : TlReach k ce cfg env s) :
    ∃ pick, s.calls = (List.range s.calls.length).map fun i => ((paceUpd cfg env pick i).trig, (paceUpd cfg env pick i).start) := by
  have : ∃ pick, LoopTimeP.Inv k cfg env pick s := by
    induction hs with
    | init => exact ⟨_, LoopTimeP.init_inv hp k⟩
    | step _ h ih =>
      obtain ⟨pick, ih⟩ := ih
      exact (LoopTimeP.step_inv hp hk h ih).imp fun _ h => h.1
  exact this.imp fun _ h => h.calls

namespace Ex

def ltCfg : PaceCfg := ⟨10, 2, false, 100⟩

/-- Updates take 3, and fail. -/
def ltEnv : Nat → Int → TFetch := fun _ _ => ⟨3, false⟩

/-- The ticker begins an update, which fails, and another one is made at once. -/
theorem ltReach : ∃ l, TlReach .policyd [] ltCfg ltEnv ⟨l, 113, 1, 113, [(.tick, 110), (.retry, 113)]⟩ := by
  have h0 : TlReach .policyd [] ltCfg ltEnv (tlInit ltCfg) := .init
  have h1 := TlReach.step h0 (.pass 10 (by decide) ⟨rfl, rfl⟩ (by decide))
  have h2 := TlReach.step h1 (.tick _ (by decide) rfl)
  have h3 := TlReach.step h2 (.call .tick _ (by decide) rfl)
  have h4 := TlReach.step h3 (.pass 3 (by decide) (show (_ : Int) ≤ _ by decide) (by decide))
  have h5 := TlReach.step h4 (.ret [] _ (by decide) (by decide) rfl)
  have h6 := TlReach.step h5 (.send _ (by decide) rfl)
  have h7 := TlReach.step h6 (.offer _ (by decide) rfl)
  have h8 := TlReach.step h7 (.call .retry _ (by decide) rfl)
  exact ⟨_, h8⟩

end Ex

example : 0 < Ex.ltCfg.period ∧ Ex.ltCfg.atTick = decide (LKind.policyd = .jwkd) ∧
    ∃ l, TlReach .policyd [] Ex.ltCfg Ex.ltEnv ⟨l, 113, 1, 113, [(.tick, 110), (.retry, 113)]⟩ := ⟨by decide, by decide, Ex.ltReach⟩

end Athenz
