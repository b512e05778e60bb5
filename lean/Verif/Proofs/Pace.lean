import Verif.Spec.Pace
import Mathlib.Data.Nat.Find
import Mathlib.Tactic.Ring
import Mathlib.Tactic.Linarith

/-! # Lemmas about the pace of updates -/

namespace Athenz.PaceP

variable {cfg : PaceCfg} {env : Nat → Int → TFetch} {pick : Nat → Bool}

theorem ticks_mono (hp : 0 < cfg.period) {a b : Int} (h : a ≤ b) : ticks cfg a ≤ ticks cfg b :=
  Int.ediv_le_ediv hp (by omega)

theorem tick_le (hp : 0 < cfg.period) (a : Int) : cfg.t0 + ticks cfg a * cfg.period ≤ a := by
  have := Int.ediv_mul_le (a - cfg.t0) (Int.ne_of_gt hp)
  unfold ticks; omega

theorem lt_tick (hp : 0 < cfg.period) (a : Int) : a < cfg.t0 + (ticks cfg a + 1) * cfg.period := by
  have := Int.lt_ediv_add_one_mul_self (a - cfg.t0) hp
  unfold ticks; omega

theorem ticks_tick (hp : 0 < cfg.period) (k : Int) : ticks cfg (cfg.t0 + k * cfg.period) = k := by
  unfold ticks
  rw [show cfg.t0 + k * cfg.period - cfg.t0 = k * cfg.period by ring]
  exact Int.mul_ediv_cancel k (Int.ne_of_gt hp)

theorem step_start (hp : 0 < cfg.period) (e : Int → TFetch) (b : Bool) (s : PaceSt) (h : s.last ≤ s.now) :
    s.now ≤ (paceStep cfg e b s).1.start ∧ (paceStep cfg e b s).1.start ≤ max s.now (s.last + cfg.period) ∧
      (s.fch = true → (paceStep cfg e b s).1.start = s.now) := by
  have h1 := lt_tick hp s.now
  have h2 := tick_le hp s.last
  have hm := ticks_mono hp h
  simp only [paceStep]
  by_cases hpend : ticks cfg s.last < ticks cfg s.now
  · simp [hpend]
  · have he : ticks cfg s.last = ticks cfg s.now := by omega
    cases hf : s.fch
    · simp only [he, Int.lt_irrefl, decide_false, Bool.not_false, Bool.true_or, Bool.false_and, Bool.false_or, Bool.false_eq_true, if_false, false_implies, and_true]
      rw [he] at h2
      have : (ticks cfg s.now + 1) * cfg.period = ticks cfg s.now * cfg.period + cfg.period := by ring
      rw [this] at h1 ⊢
      omega
    · simp [he]

theorem step_env (e : Int → TFetch) (b : Bool) (s : PaceSt) :
    (paceStep cfg e b s).1.dur = (e (paceStep cfg e b s).1.start).dur ∧ (paceStep cfg e b s).1.ok = (e (paceStep cfg e b s).1.start).ok := by
  simp [paceStep]

/-- The pause that follows an update that failed. -/
def pause (cfg : PaceCfg) (u : PaceUpd) : Nat :=
  if u.ok = false ∧ (u.trig = .retry ∨ cfg.atTick = true) then cfg.delay.toNat else 0

theorem step_next (e : Int → TFetch) (b : Bool) (s : PaceSt) :
    (paceStep cfg e b s).2.now = Spec.stops (paceStep cfg e b s).1 + pause cfg (paceStep cfg e b s).1 ∧
      ((paceStep cfg e b s).1.ok = false → (paceStep cfg e b s).2.fch = true) := by
  simp only [paceStep, Spec.stops, pause]
  by_cases hpend : ticks cfg s.last < ticks cfg s.now
  · rcases Bool.eq_false_or_eq_true (e s.now).ok with hk | hk <;> rcases Bool.eq_false_or_eq_true s.fch with hf | hf <;> cases b <;>
      rcases Bool.eq_false_or_eq_true cfg.atTick with ha | ha <;> simp [hpend, hk, hf, ha]
  · rcases Bool.eq_false_or_eq_true s.fch with hf | hf
    · rcases Bool.eq_false_or_eq_true (e s.now).ok with hk | hk <;> simp [hpend, hk, hf]
    · rcases Bool.eq_false_or_eq_true (e (cfg.t0 + (ticks cfg s.now + 1) * cfg.period)).ok with hk | hk <;>
        rcases Bool.eq_false_or_eq_true cfg.atTick with ha | ha <;> simp [hpend, hk, hf, ha]

theorem step_last (hp : 0 < cfg.period) (e : Int → TFetch) (b : Bool) (s : PaceSt) (h : s.last ≤ s.now) :
    (paceStep cfg e b s).2.last ≤ (paceStep cfg e b s).1.start := by
  have h0 := (step_start hp e b s h).1
  revert h0
  simp only [paceStep]
  by_cases hpend : ticks cfg s.last < ticks cfg s.now
  · cases hk : (e s.now).ok <;> cases hf : s.fch <;> cases b <;> simp [hpend, hk] <;> omega
  · cases hf : s.fch
    · cases hk : (e (cfg.t0 + (ticks cfg s.now + 1) * cfg.period)).ok <;> simp [hpend, hk]
    · cases hk : (e s.now).ok <;> simp [hpend, hk] <;> omega

theorem inv (hp : 0 < cfg.period) (n : Nat) : cfg.t0 ≤ (paceState cfg env pick n).now ∧ (paceState cfg env pick n).last ≤ (paceState cfg env pick n).now := by
  induction n with
  | zero => simp [paceState]
  | succ n ih =>
    have h1 := step_start hp (env n) (pick n) _ ih.2
    have h2 := step_last hp (env n) (pick n) _ ih.2
    have h3 := (step_next (cfg := cfg) (env n) (pick n) (paceState cfg env pick n)).1
    simp only [paceState]
    rw [h3]
    unfold Spec.stops
    omega

/-- One update after the other, and the next one in time. -/
theorem gap (hp : 0 < cfg.period) (n : Nat) :
    Spec.stops (paceUpd cfg env pick n) + pause cfg (paceUpd cfg env pick n) ≤ (paceUpd cfg env pick (n + 1)).start ∧
    (paceUpd cfg env pick (n + 1)).start
      ≤ max ((paceUpd cfg env pick n).start + cfg.period) (Spec.stops (paceUpd cfg env pick n) + pause cfg (paceUpd cfg env pick n)) ∧
    ((paceUpd cfg env pick n).ok = false →
      (paceUpd cfg env pick (n + 1)).start = Spec.stops (paceUpd cfg env pick n) + pause cfg (paceUpd cfg env pick n)) := by
  have hi := inv (env := env) (pick := pick) hp n
  have hi' := inv (env := env) (pick := pick) hp (n + 1)
  have h1 := step_start hp (env (n + 1)) (pick (n + 1)) _ hi'.2
  have h2 := step_last hp (env n) (pick n) _ hi.2
  obtain ⟨h3, h4⟩ := step_next (cfg := cfg) (env n) (pick n) (paceState cfg env pick n)
  have e : paceState cfg env pick (n + 1) = (paceStep cfg (env n) (pick n) (paceState cfg env pick n)).2 := rfl
  rw [← e] at h2 h3 h4
  unfold paceUpd
  rw [← h3]
  exact ⟨h1.1, by omega, fun hf => h1.2.2 (h4 hf)⟩

theorem first (hp : 0 < cfg.period) :
    cfg.t0 ≤ (paceUpd cfg env pick 0).start ∧ (paceUpd cfg env pick 0).start ≤ cfg.t0 + cfg.period := by
  have := step_start hp (env 0) (pick 0) (paceState cfg env pick 0) (by simp [paceState])
  simp only [paceState] at this
  unfold paceUpd
  simp only [paceState]
  omega

theorem dur_eq (n : Nat) : (paceUpd cfg env pick n).dur = (env n (paceUpd cfg env pick n).start).dur ∧
    (paceUpd cfg env pick n).ok = (env n (paceUpd cfg env pick n).start).ok := step_env _ _ _

theorem pause_le (u : PaceUpd) : pause cfg u ≤ cfg.delay.toNat := by unfold pause; split <;> omega

theorem start_ge {U : Nat} (hp : 0 < cfg.period) (hU : Spec.Takes U env) (n : Nat) : cfg.t0 + n ≤ (paceUpd cfg env pick n).start := by
  induction n with
  | zero => have := (first (env := env) (pick := pick) hp).1; simpa using this
  | succ n ih =>
    have h := (gap (env := env) (pick := pick) hp n).1
    have hd := (hU n (paceUpd cfg env pick n).start).1
    rw [← (dur_eq (cfg := cfg) (env := env) (pick := pick) n).1] at hd
    unfold Spec.stops at h
    push_cast
    omega

theorem start_mono (hp : 0 < cfg.period) {m n : Nat} (h : m ≤ n) : (paceUpd cfg env pick m).start ≤ (paceUpd cfg env pick n).start := by
  induction h with
  | refl => omega
  | step _ ih =>
    rename_i k _
    have h := (gap (env := env) (pick := pick) hp k).1
    unfold Spec.stops at h
    show _ ≤ (paceUpd cfg env pick (k + 1)).start
    omega

/-- After every moment an update begins soon. -/
theorem begins {U : Nat} (hp : 0 < cfg.period) (hU : Spec.Takes U env) (t : Int) (ht : cfg.t0 ≤ t) :
    ∃ i, t ≤ (paceUpd cfg env pick i).start ∧ (paceUpd cfg env pick i).start ≤ t + max cfg.period (U + cfg.delay.toNat) ∧
      Spec.stops (paceUpd cfg env pick i) ≤ (paceUpd cfg env pick i).start + U := by
  have hex : ∃ i, t ≤ (paceUpd cfg env pick i).start :=
    ⟨(t - cfg.t0).toNat, by have := start_ge (pick := pick) hp hU (t - cfg.t0).toNat; omega⟩
  refine ⟨Nat.find hex, Nat.find_spec hex, ?_, ?_⟩
  · cases hk : Nat.find hex with
    | zero => have := (first (env := env) (pick := pick) hp).2; omega
    | succ k =>
      have hlt : ¬ t ≤ (paceUpd cfg env pick k).start := Nat.find_min hex (by omega)
      have h := (gap (env := env) (pick := pick) hp k).2.1
      have hd := (hU k (paceUpd cfg env pick k).start).2
      rw [← (dur_eq (cfg := cfg) (env := env) (pick := pick) k).1] at hd
      have hq := pause_le (cfg := cfg) (paceUpd cfg env pick k)
      unfold Spec.stops at h
      omega
  · have hd := (hU (Nat.find hex) (paceUpd cfg env pick (Nat.find hex)).start).2
    rw [← (dur_eq (cfg := cfg) (env := env) (pick := pick) _).1] at hd
    unfold Spec.stops
    omega

/-- If some update has succeeded until `x`, there is a last one. -/
theorem inForce {U : Nat} (hp : 0 < cfg.period) (hU : Spec.Takes U env) (x : Int) (i : Nat)
    (hi : (paceUpd cfg env pick i).ok = true) (hx : Spec.stops (paceUpd cfg env pick i) ≤ x) :
    ∃ j, i ≤ j ∧ Spec.LastGood (paceUpd cfg env pick) x j := by
  classical
  let N := (x - cfg.t0).toNat + 1
  have hb : ∀ j, Spec.stops (paceUpd cfg env pick j) ≤ x → j ≤ N := by
    intro j hj
    have := start_ge (pick := pick) hp hU j
    unfold Spec.stops at hj
    show j ≤ (x - cfg.t0).toNat + 1
    omega
  have : ∀ d j, j + d = N + 1 → i ≤ j → (paceUpd cfg env pick j).ok = true → Spec.stops (paceUpd cfg env pick j) ≤ x →
      ∃ k, i ≤ k ∧ Spec.LastGood (paceUpd cfg env pick) x k := by
    intro d
    induction d using Nat.strongRecOn with
    | _ d ih =>
      intro j hj hij hok hs
      by_cases hl : ∀ k, (paceUpd cfg env pick k).ok = true → Spec.stops (paceUpd cfg env pick k) ≤ x → k ≤ j
      · exact ⟨j, hij, hok, hs, hl⟩
      · simp only [not_forall] at hl
        obtain ⟨k, hk1, hk2, hk3⟩ := hl
        have := hb k hk2
        exact ih (N + 1 - k) (by omega) k (by omega) (by omega) hk1 hk2
  have hi' := hb i hx
  exact this (N + 1 - i) i (by omega) (Nat.le_refl _) hi hx

/-- Ticks used and failures repaid. -/
theorem rate (hp : 0 < cfg.period) (n : Nat) :
    (n : Int) + (paceState cfg env pick n).fch.toNat ≤ ticks cfg (paceState cfg env pick n).last + Spec.failedUpdates (paceUpd cfg env pick) n := by
  induction n with
  | zero => simp [paceState, ticks, Spec.failedUpdates]
  | succ n ih =>
    have hi := inv (env := env) (pick := pick) hp n
    have hm := ticks_mono hp hi.2
    have hf : Spec.failedUpdates (paceUpd cfg env pick) (n + 1) = Spec.failedUpdates (paceUpd cfg env pick) n + (if (paceUpd cfg env pick n).ok then 0 else 1) := by
      unfold Spec.failedUpdates
      rw [List.range_succ, List.countP_append]
      cases h : (paceUpd cfg env pick n).ok <;> simp [h]
    rw [hf]
    generalize Spec.failedUpdates (paceUpd cfg env pick) n = F at ih
    unfold paceUpd
    simp only [paceState]
    generalize paceState cfg env pick n = s at ih hi hm
    have htt := ticks_tick (cfg := cfg) hp (ticks cfg s.now + 1)
    simp only [paceStep]
    by_cases hpend : ticks cfg s.last < ticks cfg s.now
    · rcases Bool.eq_false_or_eq_true (env n s.now).ok with hk | hk <;> rcases Bool.eq_false_or_eq_true s.fch with hf | hf <;>
        rcases Bool.eq_false_or_eq_true (pick n) with hq | hq <;> simp [hpend, hk, hf, hq] at ih ⊢ <;> omega
    · rcases Bool.eq_false_or_eq_true s.fch with hf | hf
      · rcases Bool.eq_false_or_eq_true (env n s.now).ok with hk | hk <;> simp [hpend, hk, hf] at ih ⊢ <;> omega
      · rcases Bool.eq_false_or_eq_true (env n (cfg.t0 + (ticks cfg s.now + 1) * cfg.period)).ok with hk | hk <;>
          simp [hpend, hk, hf, htt] at ih ⊢ <;> omega

theorem now_eq (n : Nat) : (paceState cfg env pick n).now = Spec.readyAt cfg (paceUpd cfg env pick) n := by
  cases n with
  | zero => rfl
  | succ n => exact (step_next (cfg := cfg) (env n) (pick n) (paceState cfg env pick n)).1

theorem step_fch (e : Int → TFetch) (b : Bool) (s : PaceSt) :
    ((paceStep cfg e b s).2.fch = true ↔ (paceStep cfg e b s).1.ok = false ∨ (s.fch = true ∧ (paceStep cfg e b s).1.trig ≠ .retry)) := by
  simp only [paceStep]
  by_cases hpend : ticks cfg s.last < ticks cfg s.now
  · rcases Bool.eq_false_or_eq_true (e s.now).ok with hk | hk <;> rcases Bool.eq_false_or_eq_true s.fch with hf | hf <;> cases b <;>
      simp [hpend, hk, hf]
  · rcases Bool.eq_false_or_eq_true s.fch with hf | hf
    · rcases Bool.eq_false_or_eq_true (e s.now).ok with hk | hk <;> simp [hpend, hk, hf]
    · rcases Bool.eq_false_or_eq_true (e (cfg.t0 + (ticks cfg s.now + 1) * cfg.period)).ok with hk | hk <;> simp [hpend, hk, hf]

theorem fch_eq (n : Nat) : (paceState cfg env pick n).fch = true ↔ Spec.Owed (paceUpd cfg env pick) n := by
  induction n with
  | zero => simp [paceState, Spec.Owed]
  | succ n ih =>
    have h := step_fch (cfg := cfg) (env n) (pick n) (paceState cfg env pick n)
    rw [ih] at h
    refine Iff.trans h ⟨?_, ?_⟩
    · rintro (h | ⟨⟨i, hi, hf, hj⟩, hr⟩)
      · exact ⟨n, by omega, h, fun j h1 h2 => by omega⟩
      · refine ⟨i, by omega, hf, fun j h1 h2 => ?_⟩
        by_cases e : j = n
        · subst e; exact hr
        · exact hj j h1 (by omega)
    · rintro ⟨i, hi, hf, hj⟩
      by_cases e : i = n
      · subst e; exact Or.inl hf
      · exact Or.inr ⟨⟨i, by omega, hf, fun j h1 h2 => hj j h1 (by omega)⟩, hj n (by omega) (by omega)⟩

theorem step_last_eq (e : Int → TFetch) (b : Bool) (s : PaceSt) :
    (paceStep cfg e b s).2.last = if (paceStep cfg e b s).1.trig = .tick then (paceStep cfg e b s).1.start else s.last := by
  simp only [paceStep]
  by_cases hpend : ticks cfg s.last < ticks cfg s.now
  · rcases Bool.eq_false_or_eq_true (e s.now).ok with hk | hk <;> rcases Bool.eq_false_or_eq_true s.fch with hf | hf <;> cases b <;>
      simp [hpend, hk, hf]
  · rcases Bool.eq_false_or_eq_true s.fch with hf | hf
    · rcases Bool.eq_false_or_eq_true (e s.now).ok with hk | hk <;> simp [hpend, hk, hf]
    · rcases Bool.eq_false_or_eq_true (e (cfg.t0 + (ticks cfg s.now + 1) * cfg.period)).ok with hk | hk <;> simp [hpend, hk, hf]

theorem last_eq (hp : 0 < cfg.period) (n : Nat) :
    cfg.t0 ≤ (paceState cfg env pick n).last ∧
    (∀ j, j < n → (paceUpd cfg env pick j).trig = .tick → (paceUpd cfg env pick j).start ≤ (paceState cfg env pick n).last) ∧
    ((paceState cfg env pick n).last = cfg.t0 ∨
      ∃ j, j < n ∧ (paceUpd cfg env pick j).trig = .tick ∧ (paceUpd cfg env pick j).start = (paceState cfg env pick n).last) := by
  induction n with
  | zero => simp [paceState]
  | succ n ih =>
    have h : (paceState cfg env pick (n + 1)).last
        = if (paceUpd cfg env pick n).trig = .tick then (paceUpd cfg env pick n).start else (paceState cfg env pick n).last :=
      step_last_eq (cfg := cfg) (env n) (pick n) (paceState cfg env pick n)
    have hi := inv (env := env) (pick := pick) hp n
    have hs : (paceState cfg env pick n).now ≤ (paceUpd cfg env pick n).start := (step_start hp (env n) (pick n) _ hi.2).1
    by_cases ht : (paceUpd cfg env pick n).trig = .tick
    · rw [if_pos ht] at h
      rw [h]
      refine ⟨by omega, fun j hj hjt => ?_, Or.inr ⟨n, by omega, ht, rfl⟩⟩
      by_cases e : j = n
      · subst e; omega
      · have := ih.2.1 j (by omega) hjt
        omega
    · rw [if_neg ht] at h
      rw [h]
      refine ⟨ih.1, fun j hj hjt => ?_, ?_⟩
      · by_cases e : j = n
        · subst e; exact absurd hjt ht
        · exact ih.2.1 j (by omega) hjt
      · rcases ih.2.2 with h' | ⟨j, h1, h2, h3⟩
        · exact Or.inl h'
        · exact Or.inr ⟨j, by omega, h2, h3⟩

theorem unseen_eq (hp : 0 < cfg.period) (n : Nat) :
    ticks cfg (paceState cfg env pick n).last < ticks cfg (paceState cfg env pick n).now ↔
      Spec.Unseen cfg (paceUpd cfg env pick) n (paceState cfg env pick n).now := by
  obtain ⟨h0, h1, h2⟩ := last_eq (env := env) (pick := pick) hp n
  generalize (paceState cfg env pick n).now = x
  generalize (paceState cfg env pick n).last = l at *
  constructor
  · intro h
    have hl := lt_tick hp l
    have hx := tick_le hp x
    have h3 : (ticks cfg l + 1) * cfg.period ≤ ticks cfg x * cfg.period := Int.mul_le_mul_of_nonneg_right (by omega) (by omega)
    have h4 : 0 ≤ ticks cfg l := by
      have := ticks_mono (cfg := cfg) hp h0
      have h5 := ticks_tick (cfg := cfg) hp 0
      rw [Int.zero_mul, Int.add_zero] at h5
      omega
    exact ⟨ticks cfg x, by omega, hx, fun j hj ht => by have := h1 j hj ht; omega⟩
  · rintro ⟨k, hk, hx, hj⟩
    have hk' : l < cfg.t0 + k * cfg.period := by
      rcases h2 with h2 | ⟨j, hj1, hj2, hj3⟩
      · have := Int.mul_pos hk hp
        omega
      · have := hj j hj1 hj2
        omega
    have a := ticks_mono hp hx
    rw [ticks_tick hp] at a
    have b := tick_le hp l
    have c : ticks cfg l * cfg.period < k * cfg.period := by omega
    have := Int.lt_of_mul_lt_mul_right c (by omega)
    omega

end Athenz.PaceP
