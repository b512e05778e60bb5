import Verif.Proofs.Pace
import Verif.Props.Timing

/-! # C94: how old the policies and keys in use can be; C95: how long a daemon pauses after an update that failed -/

namespace Athenz

namespace Ex

/-- Period 100, pause 10, as in policy/daemon.go. -/
def pcCfg : PaceCfg := ⟨100, 10, false, 0⟩

/-- Updates take 7; number 1 fails. -/
def pcEnv : Nat → Int → TFetch := fun i _ => ⟨7, decide (i ≠ 1)⟩

theorem pcEnv_takes : Spec.Takes 7 pcEnv := fun _ _ => ⟨by show 1 ≤ 7; omega, Nat.le_refl _⟩

/-- From 150 on every update succeeds. -/
theorem pcEnv_ok : ∀ i t, pcEnv i t = ⟨7, true⟩ ∨ i = 1 := by
  intro i t
  by_cases h : i = 1
  · exact Or.inr h
  · left; simp [pcEnv, h]

end Ex

/-- **C94**, one after the other and in time: an update begins when the one before, and the pause after it, is over, and at most the refresh
period after that one began or then; the first at most the period after `Start`. -/
theorem C94_gap (cfg : PaceCfg) (env : Nat → Int → TFetch) (pick : Nat → Bool) (hp : 0 < cfg.period) :
    (cfg.t0 ≤ (paceUpd cfg env pick 0).start ∧ (paceUpd cfg env pick 0).start ≤ cfg.t0 + cfg.period) ∧
    ∀ n, Spec.stops (paceUpd cfg env pick n) ≤ (paceUpd cfg env pick (n + 1)).start ∧
      (paceUpd cfg env pick (n + 1)).start
        ≤ max ((paceUpd cfg env pick n).start + cfg.period) (Spec.stops (paceUpd cfg env pick n) + cfg.delay.toNat) := by
  refine ⟨PaceP.first hp, fun n => ?_⟩
  have h := PaceP.gap (env := env) (pick := pick) hp n
  have := PaceP.pause_le (cfg := cfg) (paceUpd cfg env pick n)
  omega

example : 0 < Ex.pcCfg.period ∧ (List.range 4).map (fun n => (paceUpd Ex.pcCfg Ex.pcEnv (fun _ => true) n).start) = [100, 200, 207, 300] := by
  decide +kernel

/-- **C94**, after every moment an update begins, and ends, within a time that depends on the settings only: the period, or the longest update
and a pause, whichever is longer; and the time of one update more until it is over. -/
theorem C94_begins (cfg : PaceCfg) (env : Nat → Int → TFetch) (pick : Nat → Bool) (U : Nat) (hp : 0 < cfg.period) (hU : Spec.Takes U env)
    (t : Int) (ht : cfg.t0 ≤ t) :
    ∃ i, t ≤ (paceUpd cfg env pick i).start ∧ (paceUpd cfg env pick i).start ≤ t + max cfg.period (U + cfg.delay.toNat) ∧
      Spec.stops (paceUpd cfg env pick i) ≤ t + max cfg.period (U + cfg.delay.toNat) + U := by
  obtain ⟨i, h1, h2, h3⟩ := PaceP.begins (pick := pick) hp hU t ht
  exact ⟨i, h1, h2, by omega⟩

example : Spec.Takes 7 Ex.pcEnv ∧ Ex.pcCfg.t0 ≤ 150 := ⟨Ex.pcEnv_takes, by decide⟩

/-- **C94**, how old what is in force can be: if every update that begins from `t` on succeeds, then from `t`, the period (or an update and a
pause) and an update on, what is in force was got by an update that began at most that long ago. -/
theorem C94_fresh (cfg : PaceCfg) (env : Nat → Int → TFetch) (pick : Nat → Bool) (U : Nat) (hp : 0 < cfg.period) (hU : Spec.Takes U env)
    (t : Int) (ht : cfg.t0 ≤ t) (hok : ∀ i, t ≤ (paceUpd cfg env pick i).start → (paceUpd cfg env pick i).ok = true)
    (x : Int) (hx : t + max cfg.period (U + cfg.delay.toNat) + U ≤ x) :
    ∃ i, Spec.LastGood (paceUpd cfg env pick) x i ∧ x - (max cfg.period (U + cfg.delay.toNat) + U) ≤ (paceUpd cfg env pick i).start := by
  obtain ⟨i, h1, _, h3⟩ := C94_begins cfg env pick U hp hU (x - (max cfg.period (U + cfg.delay.toNat) + U)) (by omega)
  obtain ⟨j, hj, hf⟩ := PaceP.inForce (pick := pick) hp hU x i (hok i (by omega)) (by omega)
  have := PaceP.start_mono (env := env) (pick := pick) hp hj
  exact ⟨j, hf, by omega⟩

/-- **C94**, changes: `doc` is what the server has at a time, and an update that succeeds gets what it has at some moment during the update.
If the server has `d` from `t` on, and updates that begin from `t` on succeed, then from `t`, the period (or an update and a pause) and an
update on, `d` is in force and nothing else. -/
theorem C94_change {α : Type} (cfg : PaceCfg) (env : Nat → Int → TFetch) (pick : Nat → Bool) (U : Nat) (hp : 0 < cfg.period)
    (hU : Spec.Takes U env) (doc : Int → α) (got : Nat → Int)
    (hgot : ∀ i, (paceUpd cfg env pick i).start ≤ got i ∧ got i ≤ Spec.stops (paceUpd cfg env pick i))
    (t : Int) (ht : cfg.t0 ≤ t) (d : α) (hd : ∀ x, t ≤ x → doc x = d)
    (hok : ∀ i, t ≤ (paceUpd cfg env pick i).start → (paceUpd cfg env pick i).ok = true)
    (x : Int) (hx : t + max cfg.period (U + cfg.delay.toNat) + U ≤ x) :
    (∃ i, Spec.LastGood (paceUpd cfg env pick) x i) ∧ ∀ i, Spec.LastGood (paceUpd cfg env pick) x i → doc (got i) = d := by
  obtain ⟨i, hf, hs⟩ := C94_fresh cfg env pick U hp hU t ht hok x hx
  refine ⟨⟨i, hf⟩, fun j hj => hd _ ?_⟩
  have hij : i = j := Nat.le_antisymm (hj.2.2 i hf.1 hf.2.1) (hf.2.2 j hj.1 hj.2.1)
  subst hij
  have := (hgot i).1
  omega

namespace Ex

theorem pc_ok : ∀ i, (205 : Int) ≤ (paceUpd pcCfg pcEnv (fun _ => true) i).start → (paceUpd pcCfg pcEnv (fun _ => true) i).ok = true := by
  intro i h
  rw [(PaceP.dur_eq i).2]
  rcases pcEnv_ok i (paceUpd pcCfg pcEnv (fun _ => true) i).start with h' | h'
  · rw [h']
  · subst h'
    exact absurd h (by decide +kernel)

end Ex

/-- The hypotheses of `C94_fresh` and `C94_change` hold from 205 on, after the failure; the second update that is in force then began at 207. -/
example : (∀ i, (205 : Int) ≤ (paceUpd Ex.pcCfg Ex.pcEnv (fun _ => true) i).start → (paceUpd Ex.pcCfg Ex.pcEnv (fun _ => true) i).ok = true) ∧
    (∀ i, (paceUpd Ex.pcCfg Ex.pcEnv (fun _ => true) i).start ≤ (paceUpd Ex.pcCfg Ex.pcEnv (fun _ => true) i).start ∧
      (paceUpd Ex.pcCfg Ex.pcEnv (fun _ => true) i).start ≤ Spec.stops (paceUpd Ex.pcCfg Ex.pcEnv (fun _ => true) i)) ∧
    (paceUpd Ex.pcCfg Ex.pcEnv (fun _ => true) 2).start = 207 :=
  ⟨Ex.pc_ok, fun i => ⟨Int.le_refl _, by unfold Spec.stops; omega⟩, by decide +kernel⟩

/-- policy/daemon.go:156-186, C93.  The updates of a policy daemon whose requests behave like `doms`; `good` says which succeed. -/
def policyPace (delay retryAttempts : Int) (doms : Nat → List TServer) (good : Nat → Int → Bool) : Nat → Int → TFetch :=
  fun i t => ⟨(timedUpdate delay retryAttempts none (doms i) t - t).toNat, good i t⟩

/-- **C94** for the policy daemon: if every request takes some time and at most `D`, its updates take at most
`(retryAttempts + 1) * (D + retryDelay)`.  With `C94_change` this bounds how long withdrawn policies stay in force. -/
theorem C94_policy (delay retryAttempts : Int) (D : Nat) (doms : Nat → List TServer) (good : Nat → Int → Bool) (hn : 0 ≤ retryAttempts)
    (hne : ∀ i, doms i ≠ []) (hD : ∀ i, ∀ env ∈ doms i, Spec.AtMost D env ∧ ∀ k t, 1 ≤ (env k t).dur) :
    Spec.Takes ((retryAttempts + 1).toNat * (D + delay.toNat)) (policyPace delay retryAttempts doms good) := by
  intro i t
  have hb := C93_bound delay retryAttempts t D none (doms i) fun env he => (hD i env he).1
  have hw := (C93_waits delay retryAttempts t none (doms i) (by intro t h; cases h)).1
  refine ⟨?_, ?_⟩
  · show 1 ≤ (timedUpdate delay retryAttempts none (doms i) t - t).toNat
    cases hd : doms i with
    | nil => exact absurd hd (hne i)
    | cons env rest =>
      rw [hd] at hw
      have h1 := hw env (by simp)
      have h2 := (hD i env (by rw [hd]; simp)).2 0 t
      have e : (retryAttempts + 1).toNat = retryAttempts.toNat + 1 := by omega
      have h3 : t + (env 0 t).dur ≤ (timedFetch delay retryAttempts env t).2.1 := by
        unfold timedFetch
        rw [e, retryFrom]
        simp only
        split
        · exact Int.le_refl _
        · have := TimingP.mono (delay := delay) (env := env) retryAttempts.toNat (0 + 1) (t + (env 0 t).dur + delay.toNat)
          refine Int.le_trans ?_ this
          omega
      omega
  · show (timedUpdate delay retryAttempts none (doms i) t - t).toNat ≤ (retryAttempts + 1).toNat * (D + delay.toNat)
    have : (((retryAttempts + 1).toNat * (D + delay.toNat) : Nat) : Int) = (retryAttempts + 1).toNat * ((D : Int) + delay.toNat) := by push_cast; ring
    omega

example : (0 : Int) ≤ 1 ∧ (∀ _ : Nat, [Ex.tmFlaky] ≠ []) ∧ ∀ _ : Nat, ∀ env ∈ [Ex.tmFlaky], Spec.AtMost 5 env ∧ ∀ k t, 1 ≤ (env k t).dur := by
  refine ⟨by omega, by simp, fun _ env he => ?_⟩
  cases List.mem_singleton.mp he
  exact ⟨Ex.tmFlaky_atMost, fun _ _ => by show 1 ≤ 5; omega⟩

/-- **C94**, how often servers are asked: an update begins only because the ticker has fired or because an earlier one failed, and each tick and each
failure is used at most once. -/
theorem C94_rate (cfg : PaceCfg) (env : Nat → Int → TFetch) (pick : Nat → Bool) (hp : 0 < cfg.period) (n : Nat) :
    (n : Int) + 1 ≤ ticks cfg (paceUpd cfg env pick n).start + Spec.failedUpdates (paceUpd cfg env pick) n := by
  have h := PaceP.rate (env := env) (pick := pick) hp n
  have hi := PaceP.inv (env := env) (pick := pick) hp n
  have hs := PaceP.step_start hp (env n) (pick n) _ hi.2
  have hm := PaceP.ticks_mono hp hi.2
  have hm' := PaceP.ticks_mono hp hs.1
  rcases Bool.eq_false_or_eq_true (paceState cfg env pick n).fch with hf | hf
  · rw [hf] at h
    simp only [Bool.toNat_true] at h
    unfold paceUpd at h ⊢
    omega
  · rw [hf] at h
    simp only [Bool.toNat_false] at h
    have : ticks cfg (paceState cfg env pick n).last + 1 ≤ ticks cfg (paceUpd cfg env pick n).start := by
      unfold paceUpd paceStep
      simp only [hf, Bool.false_and, Bool.false_or]
      by_cases hpend : ticks cfg (paceState cfg env pick n).last < ticks cfg (paceState cfg env pick n).now
      · simp [hpend]; omega
      · simp [hpend, PaceP.ticks_tick hp]; omega
    unfold paceUpd at this h ⊢
    omega

example : ticks Ex.pcCfg (paceUpd Ex.pcCfg Ex.pcEnv (fun _ => true) 2).start + Spec.failedUpdates (paceUpd Ex.pcCfg Ex.pcEnv (fun _ => true)) 2 = 2 + 1 := by
  decide +kernel

/-- **C94**, exactly when and why: an update begins at once when the goroutine is ready if there is a failure to make up for or a tick that
was not yet received, and else at the next tick.  It is made because of a failure if there is one to make up for and either no tick is waiting or the
`select` chooses so; otherwise it is made because of a tick.  So no failure and no tick is forgotten. -/
theorem C94_exact (cfg : PaceCfg) (env : Nat → Int → TFetch) (pick : Nat → Bool) (hp : 0 < cfg.period) (n : Nat) :
    ((paceUpd cfg env pick n).trig = .retry ↔ Spec.Owed (paceUpd cfg env pick) n ∧
      (¬ Spec.Unseen cfg (paceUpd cfg env pick) n (Spec.readyAt cfg (paceUpd cfg env pick) n) ∨ pick n = true)) ∧
    (Spec.Owed (paceUpd cfg env pick) n ∨ Spec.Unseen cfg (paceUpd cfg env pick) n (Spec.readyAt cfg (paceUpd cfg env pick) n) →
      (paceUpd cfg env pick n).start = Spec.readyAt cfg (paceUpd cfg env pick) n) ∧
    (¬ Spec.Owed (paceUpd cfg env pick) n → ¬ Spec.Unseen cfg (paceUpd cfg env pick) n (Spec.readyAt cfg (paceUpd cfg env pick) n) →
      Spec.readyAt cfg (paceUpd cfg env pick) n < (paceUpd cfg env pick n).start ∧
      (∃ k : Int, (paceUpd cfg env pick n).start = cfg.t0 + k * cfg.period) ∧
      ∀ k : Int, Spec.readyAt cfg (paceUpd cfg env pick) n < cfg.t0 + k * cfg.period → (paceUpd cfg env pick n).start ≤ cfg.t0 + k * cfg.period) := by
  rw [← PaceP.now_eq, ← PaceP.unseen_eq hp, ← PaceP.fch_eq]
  have hl := PaceP.lt_tick hp (paceState cfg env pick n).now
  rw [paceUpd]
  generalize paceState cfg env pick n = s at *
  simp only [paceStep]
  refine ⟨?_, ?_, ?_⟩
  · by_cases hpend : ticks cfg s.last < ticks cfg s.now <;> rcases Bool.eq_false_or_eq_true s.fch with hf | hf <;> simp [hpend, hf]
  · rintro (h | h)
    · by_cases hpend : ticks cfg s.last < ticks cfg s.now <;> simp [hpend, h]
    · simp [h]
  · intro h1 h2
    have hf : s.fch = false := by simpa using h1
    simp only [hf, h2, Bool.false_and, Bool.false_or, decide_false, Bool.false_eq_true, if_false]
    refine ⟨hl, ⟨_, rfl⟩, fun k hk => ?_⟩
    have := PaceP.ticks_mono hp (Int.le_of_lt hk)
    rw [PaceP.ticks_tick hp] at this
    have hb := PaceP.tick_le hp s.now
    have c : ticks cfg s.now * cfg.period < k * cfg.period := by omega
    have := Int.lt_of_mul_lt_mul_right c (by omega)
    have := Int.mul_le_mul_of_nonneg_right (show ticks cfg s.now + 1 ≤ k by omega) (Int.le_of_lt hp)
    omega

/-- All cases occur: number 1 fails and number 2 makes up for it, number 3 is at the next tick. -/
example : Spec.Owed (paceUpd Ex.pcCfg Ex.pcEnv (fun _ => true)) 2 ∧ (paceUpd Ex.pcCfg Ex.pcEnv (fun _ => true) 2).trig = .retry ∧
    (paceUpd Ex.pcCfg Ex.pcEnv (fun _ => true) 3).trig = .tick ∧ Spec.readyAt Ex.pcCfg (paceUpd Ex.pcCfg Ex.pcEnv (fun _ => true)) 3 = 214 ∧
    (paceUpd Ex.pcCfg Ex.pcEnv (fun _ => true) 3).start = 300 :=
  ⟨⟨1, by omega, by decide +kernel, fun j h1 h2 => by omega⟩, by decide +kernel, by decide +kernel, by decide +kernel, by decide +kernel⟩

/-- **C95**, the full statement: after an update that failed the next one begins exactly `retryDelay` later. -/
def C95_statement : Prop :=
  ∀ (cfg : PaceCfg) (env : Nat → Int → TFetch) (pick : Nat → Bool) (n : Nat), 0 < cfg.period → (paceUpd cfg env pick n).ok = false →
    (paceUpd cfg env pick (n + 1)).start = Spec.stops (paceUpd cfg env pick n) + cfg.delay.toNat

/-- **C95**, as far as it holds: it does for the JWK daemon (`atTick`), and for the policy and key daemons if the update that failed was itself such
a second attempt.  Missing: the pause after an update that the ticker began. -/
theorem C95_pause_partial (cfg : PaceCfg) (env : Nat → Int → TFetch) (pick : Nat → Bool) (n : Nat) (hp : 0 < cfg.period)
    (hf : (paceUpd cfg env pick n).ok = false) (h : cfg.atTick = true ∨ (paceUpd cfg env pick n).trig = .retry) :
    (paceUpd cfg env pick (n + 1)).start = Spec.stops (paceUpd cfg env pick n) + cfg.delay.toNat := by
  rw [(PaceP.gap (env := env) (pick := pick) hp n).2.2 hf]
  unfold PaceP.pause
  rw [if_pos ⟨hf, h.symm⟩]

namespace Ex

/-- Updates take 7, and fail. -/
def pcBad : Nat → Int → TFetch := fun _ _ => ⟨7, false⟩

end Ex

example : (paceUpd Ex.pcCfg Ex.pcBad (fun _ => true) 1).ok = false ∧ (paceUpd Ex.pcCfg Ex.pcBad (fun _ => true) 1).trig = .retry := by decide +kernel

/-- **C95**, otherwise: the policy and key daemons try again at once after an update that the ticker began. -/
theorem C95_atOnce (cfg : PaceCfg) (env : Nat → Int → TFetch) (pick : Nat → Bool) (n : Nat) (hp : 0 < cfg.period)
    (hf : (paceUpd cfg env pick n).ok = false) (ha : cfg.atTick = false) (h : (paceUpd cfg env pick n).trig = .tick) :
    (paceUpd cfg env pick (n + 1)).start = Spec.stops (paceUpd cfg env pick n) := by
  rw [(PaceP.gap (env := env) (pick := pick) hp n).2.2 hf]
  unfold PaceP.pause
  rw [if_neg (by rw [ha, h]; simp)]
  simp

example : (paceUpd Ex.pcCfg Ex.pcBad (fun _ => true) 0).ok = false ∧ (paceUpd Ex.pcCfg Ex.pcBad (fun _ => true) 0).trig = .tick := by decide +kernel

/-- **C95** is false. -/
theorem C95_refuted : ¬ C95_statement := by
  intro h
  have := h Ex.pcCfg Ex.pcBad (fun _ => true) 0 (by decide) (by decide +kernel)
  exact absurd this (by decide +kernel)

/-- **C95** for requests of the policy daemon: as `FetchWithRetry` pauses after its last attempt, too, the next update begins no sooner than
`retryDelay` after the last request for a domain whose fetch failed, whatever began the update. -/
theorem C95_policy (cfg : PaceCfg) (retryAttempts : Int) (doms : Nat → List TServer) (good : Nat → Int → Bool) (pick : Nat → Bool) (n : Nat)
    (hp : 0 < cfg.period) (hn : 0 ≤ retryAttempts) (env : TServer)
    (he : env ∈ doms n)
    (hf : (timedFetch cfg.delay retryAttempts env (paceUpd cfg (policyPace cfg.delay retryAttempts doms good) pick n).start).2.2 = false) :
    ∃ t, (timedFetch cfg.delay retryAttempts env (paceUpd cfg (policyPace cfg.delay retryAttempts doms good) pick n).start).1.getLast?
        = some (.sleep t cfg.delay.toNat) ∧
      t + cfg.delay.toNat ≤ (paceUpd cfg (policyPace cfg.delay retryAttempts doms good) pick (n + 1)).start := by
  obtain ⟨_, t, ht⟩ := C93_failure cfg.delay retryAttempts _ env hn hf
  refine ⟨t, ht, ?_⟩
  have h1 := (C94_gap cfg (policyPace cfg.delay retryAttempts doms good) pick hp).2 n
  have h2 := (PaceP.dur_eq (cfg := cfg) (env := policyPace cfg.delay retryAttempts doms good) (pick := pick) n).1
  generalize (paceUpd cfg (policyPace cfg.delay retryAttempts doms good) pick n) = u at *
  have h3 := (C93_waits cfg.delay retryAttempts u.start none (doms n) (by intro t h; cases h)).1 env he
  have h4 := (C93_fetch cfg.delay retryAttempts u.start env).1
  have h5 : t + cfg.delay.toNat = (timedFetch cfg.delay retryAttempts env u.start).2.1 := TimingP.follows_last h4 ht
  have h6 : u.dur = (timedUpdate cfg.delay retryAttempts none (doms n) u.start - u.start).toNat := h2
  unfold Spec.stops at h1
  omega

example : (0 : Int) ≤ 1 ∧ Ex.tmFlaky ∈ [Ex.tmFlaky] ∧
    (timedFetch Ex.pcCfg.delay 1 Ex.tmFlaky (paceUpd Ex.pcCfg (policyPace Ex.pcCfg.delay 1 (fun _ => [Ex.tmFlaky]) (fun _ _ => false)) (fun _ => true) 0).start).2.2
      = false := ⟨by omega, by simp, by decide +kernel⟩

end Athenz
