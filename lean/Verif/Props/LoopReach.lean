import Verif.Props.LoopTime

/-! # C94: everything that the model of when updates are called allows is done by the model of the goroutines -/

namespace Athenz
open Spec

namespace LoopReachP
open LoopTimeP

variable {k : LKind} {ce : Str} {cfg : PaceCfg} {env : Nat → Int → TFetch} {pick : Nat → Bool}

/-- The choice matters only for the reason of the update. -/
theorem step_trig (e : Int → TFetch) (b b' : Bool) (p : PaceSt) (h : (paceStep cfg e b p).1.trig = (paceStep cfg e b' p).1.trig) :
    paceStep cfg e b p = paceStep cfg e b' p := by
  have key : (p.fch && (!decide (ticks cfg p.last < ticks cfg p.now) || b)) = (p.fch && (!decide (ticks cfg p.last < ticks cfg p.now) || b')) := by
    simp only [paceStep] at h
    revert h
    generalize (p.fch && (!decide (ticks cfg p.last < ticks cfg p.now) || b)) = x
    generalize (p.fch && (!decide (ticks cfg p.last < ticks cfg p.now) || b')) = x'
    cases x <;> cases x' <;> simp
  simp only [paceStep]
  rw [key]

/-- A step that is no call keeps the choice. -/
theorem go (hp : 0 < cfg.period) (hk : cfg.atTick = decide (k = .jwkd)) {s s' : TLoop} (hs : TlReach k ce cfg env s ∧ Inv k cfg env pick s)
    (st : TlStep k ce cfg env s s') (hc : s'.calls = s.calls) : TlReach k ce cfg env s' ∧ Inv k cfg env pick s' := by
  obtain ⟨pick', hi, he⟩ := step_inv hp hk st hs.2
  exact ⟨.step hs.1 st, inv_congr hi fun i hi => (he i (by rw [← hc]; exact hi)).symm⟩

/-- A call for the reason that the choice says. -/
theorem goCall (hp : 0 < cfg.period) (hk : cfg.atTick = decide (k = .jwkd)) {s s' : TLoop} {trig : Trig} {t : Int}
    (hs : TlReach k ce cfg env s ∧ Inv k cfg env pick s)
    (st : TlStep k ce cfg env s s') (hc : s'.calls = s.calls ++ [(trig, t)]) (ht : (paceUpd cfg env pick s.calls.length).trig = trig) :
    TlReach k ce cfg env s' ∧ Inv k cfg env pick s' := by
  obtain ⟨pick', hi, he⟩ := step_inv hp hk st hs.2
  refine ⟨.step hs.1 st, ?_⟩
  have hlen : s'.calls.length = s.calls.length + 1 := by rw [hc]; simp
  have hP := congr (cfg := cfg) (env := env) _ he
  have ht' : (paceUpd cfg env pick' s.calls.length).trig = trig := by
    have e1 : s'.calls[s.calls.length]? = some (trig, t) := by rw [hc]; simp
    rw [hi.calls, hlen] at e1
    simp at e1
    exact e1.1
  have hstep : paceStep cfg (env s.calls.length) (pick' s.calls.length) (paceState cfg env pick' s.calls.length) =
      paceStep cfg (env s.calls.length) (pick s.calls.length) (paceState cfg env pick s.calls.length) := by
    rw [← hP]
    apply step_trig
    unfold paceUpd at ht ht'
    rw [ht, hP, ht']
  have hS : paceState cfg env pick' s'.calls.length = paceState cfg env pick s'.calls.length := by
    rw [hlen]; simp only [paceState]; rw [hstep]
  have hU : ∀ i, i < s'.calls.length → paceUpd cfg env pick' i = paceUpd cfg env pick i := by
    intro i hi
    by_cases h : i < s.calls.length
    · exact (congr_upd i fun j hj => he j (by omega)).symm
    · have : i = s.calls.length := by omega
      rw [this]; unfold paceUpd; rw [hstep]
  refine ⟨?_, hi.early, hi.late, hS ▸ hi.seen, hS ▸ hi.tick, ?_, hi.alive⟩
  · refine hi.calls.trans (List.map_congr_left fun i h => ?_)
    rw [hU i (List.mem_range.mp h)]
  · rcases hi.pc with ⟨hpc, hw⟩ | ⟨hpc, m, hm, hd⟩
    · exact .inl ⟨hpc, hS ▸ hw⟩
    · refine .inr ⟨hpc, m, hm, ?_⟩
      have : m = s.calls.length := by omega
      rw [← hU m (by omega), this, hP, ← this]
      exact hd

/-- Only the ticker has done something. -/
structure Same (s s' : TLoop) : Prop where
  calls : s'.calls = s.calls
  since : s'.since = s.since
  pc : s'.l.pc = s.l.pc
  ech : s'.l.ech = s.l.ech

theorem fire (hp : 0 < cfg.period) (hk : cfg.atTick = decide (k = .jwkd)) {s : TLoop} (hs : TlReach k ce cfg env s ∧ Inv k cfg env pick s) :
    ∃ s', (TlReach k ce cfg env s' ∧ Inv k cfg env pick s') ∧ Same s s' ∧ s'.now = s.now ∧ s'.now < s'.due cfg := by
  by_cases h : s.now < s.due cfg
  · exact ⟨s, hs, ⟨rfl, rfl, rfl, rfl⟩, rfl, h⟩
  · have hd : s.now = s.due cfg := by have := hs.2.late; omega
    refine ⟨{ s with l := { s.l with tick := true }, fired := s.fired + 1 }, go hp hk hs (.tick _ hd rfl) rfl, ⟨rfl, rfl, rfl, rfl⟩, rfl, ?_⟩
    unfold TLoop.due at hd ⊢
    dsimp only
    push_cast
    have : ((s.fired : Int) + 1 + 1) * cfg.period = ((s.fired : Int) + 1) * cfg.period + cfg.period := by ring
    omega

/-- In `Update` or in a pause, for at least the time `D`. -/
def Flight (cfg : PaceCfg) (env : Nat → Int → TFetch) (s : TLoop) (D : Nat) : Prop :=
  (∃ r, s.l.pc = .updating r ∧ s.now + D ≤ s.since + (s.upd env).dur) ∨ ∃ r e, s.l.pc = .sleeping r e ∧ s.now + D ≤ s.since + cfg.delay.toNat

theorem fly (hp : 0 < cfg.period) (hk : cfg.atTick = decide (k = .jwkd)) : ∀ (D : Nat) (s : TLoop), TlReach k ce cfg env s ∧ Inv k cfg env pick s →
    Flight cfg env s D →
    ∃ s', (TlReach k ce cfg env s' ∧ Inv k cfg env pick s') ∧ Same s s' ∧ s'.now = s.now + D ∧ s'.now < s'.due cfg := by
  intro D
  induction D using Nat.strongRecOn with
  | ind D ih =>
    intro s hs hf
    obtain ⟨s1, h1, hsame, hnow, hdue⟩ := fire hp hk hs
    by_cases hD : D = 0
    · subst hD
      exact ⟨s1, h1, hsame, by simpa using hnow, hdue⟩
    · obtain ⟨d, hd0, hdD, hdd⟩ : ∃ d : Nat, 0 < d ∧ d ≤ D ∧ s1.now + d ≤ s1.due cfg :=
        ⟨min D (s1.due cfg - s1.now).toNat, by omega, by omega, by omega⟩
      have hupd : s1.upd env = s.upd env := by unfold TLoop.upd; rw [hsame.calls, hsame.since]
      have hidle : NothingToDo cfg env s1 d := by
        unfold NothingToDo
        rw [hsame.pc]
        rcases hf with ⟨r, h, g⟩ | ⟨r, e, h, g⟩
        · rw [h]; dsimp only; rw [hupd, hsame.since]; omega
        · rw [h]; dsimp only; rw [hsame.since]; omega
      have h2 := go hp hk h1 (.pass d hd0 hidle hdd) rfl
      have hf2 : Flight cfg env { s1 with now := s1.now + d } (D - d) := by
        rcases hf with ⟨r, h, g⟩ | ⟨r, e, h, g⟩
        · refine .inl ⟨r, by dsimp only; rw [hsame.pc]; exact h, ?_⟩
          have : TLoop.upd env { s1 with now := s1.now + d } = s.upd env := hupd
          rw [this]
          dsimp only
          rw [hsame.since]
          omega
        · refine .inr ⟨r, e, by dsimp only; rw [hsame.pc]; exact h, ?_⟩
          dsimp only
          rw [hsame.since]
          omega
      obtain ⟨s3, h3, hsame3, hnow3, hdue3⟩ := ih (D - d) (by omega) _ h2 hf2
      refine ⟨s3, h3, ⟨hsame3.calls.trans hsame.calls, hsame3.since.trans hsame.since, hsame3.pc.trans hsame.pc, hsame3.ech.trans hsame.ech⟩, ?_, hdue3⟩
      rw [hnow3]
      dsimp only
      omega

/-- From the select to the next call. -/
theorem calls (hp : 0 < cfg.period) (hk : cfg.atTick = decide (k = .jwkd)) {s : TLoop} (hs : TlReach k ce cfg env s ∧ Inv k cfg env pick s)
    (hpc : s.l.pc = .select) (hech : s.l.ech = []) (hnow : s.now = (paceState cfg env pick s.calls.length).now) :
    ∃ s', (TlReach k ce cfg env s' ∧ Inv k cfg env pick s') ∧
      s'.calls = s.calls ++ [((paceUpd cfg env pick s.calls.length).trig, (paceUpd cfg env pick s.calls.length).start)] ∧
      s'.l.pc = .updating (decide ((paceUpd cfg env pick s.calls.length).trig = .retry)) ∧ s'.l.ech = [] ∧
      s'.now = (paceUpd cfg env pick s.calls.length).start ∧ s'.since = s'.now := by
  obtain ⟨s1, h1, hsame, hnow1, hdue⟩ := fire hp hk hs
  have hpc1 : s1.l.pc = .select := hsame.pc.trans hpc
  have hech1 : s1.l.ech = [] := hsame.ech.trans hech
  have ht := h1.2.ticks_now hp hdue
  have hlen : s1.calls.length = s.calls.length := by rw [hsame.calls]
  have hfch : s1.l.fch = room (paceState cfg env pick s.calls.length).fch := by
    rcases h1.2.pc with ⟨_, hw⟩ | ⟨hne, _⟩
    · rw [← hlen]; exact hw.1
    · exact absurd hpc1 hne
  have htick := h1.2.tick
  rw [hlen] at htick
  have hi := (PaceP.inv (cfg := cfg) (env := env) (pick := pick) hp s.calls.length).2
  have hcallTick : ∀ s2 : TLoop, TlReach k ce cfg env s2 ∧ Inv k cfg env pick s2 → s2.calls = s.calls → s2.l.pc = .select → s2.l.ech = [] →
      s2.l.tick = true → s2.now < s2.due cfg → (paceUpd cfg env pick s.calls.length).trig = .tick →
      (paceUpd cfg env pick s.calls.length).start = s2.now →
      ∃ s', (TlReach k ce cfg env s' ∧ Inv k cfg env pick s') ∧
      s'.calls = s.calls ++ [((paceUpd cfg env pick s.calls.length).trig, (paceUpd cfg env pick s.calls.length).start)] ∧
      s'.l.pc = .updating (decide ((paceUpd cfg env pick s.calls.length).trig = .retry)) ∧ s'.l.ech = [] ∧
      s'.now = (paceUpd cfg env pick s.calls.length).start ∧ s'.since = s'.now := by
    intro s2 h2 hc2 hp2 he2 ht2 hd2 htr hst
    have hl : lStep k ce s2.l (if Trig.tick = .retry then .selRetry else .selTick) = some { s2.l with pc := .updating false, tick := false } := by
      simp [lStep, hp2, ht2]
    refine ⟨_, goCall hp hk h2 (.call .tick _ hd2 hl) rfl (by rw [hc2]; exact htr), ?_, ?_, he2, hst.symm, rfl⟩
    · dsimp only; rw [hc2, htr, hst]
    · dsimp only; rw [htr]; rfl
  by_cases hpend : ticks cfg (paceState cfg env pick s.calls.length).last < ticks cfg (paceState cfg env pick s.calls.length).now
  · have htk : s1.l.tick = true := htick.mpr (by rw [← ht, hnow1, hnow]; exact hpend)
    cases htr : (paceUpd cfg env pick s.calls.length).trig with
    | tick =>
      have hst : (paceUpd cfg env pick s.calls.length).start = s1.now := by
        rw [hnow1, hnow]
        unfold paceUpd
        simp [paceStep, hpend]
      have := hcallTick s1 h1 hsame.calls hpc1 hech1 htk hdue htr hst
      rw [htr] at this
      exact this
    | retry =>
      have hf : (paceState cfg env pick s.calls.length).fch = true := by
        cases hb : (paceState cfg env pick s.calls.length).fch
        · unfold paceUpd at htr
          simp [paceStep, hb] at htr
        · rfl
      have hst : (paceUpd cfg env pick s.calls.length).start = s1.now := by
        rw [hnow1, hnow]
        unfold paceUpd
        simp [paceStep, hpend]
      have hl : lStep k ce s1.l (if Trig.retry = .retry then .selRetry else .selTick) = some { s1.l with pc := .updating true, fch := s1.l.fch - 1 } := by
        simp [lStep, hpc1, hfch, hf, room]
      refine ⟨_, goCall hp hk h1 (.call .retry _ hdue hl) rfl (by rw [hlen]; exact htr), ?_, rfl, hech1, hst.symm, rfl⟩
      dsimp only; rw [hsame.calls, hst]
  · cases hf : (paceState cfg env pick s.calls.length).fch with
    | true =>
      have htr : (paceUpd cfg env pick s.calls.length).trig = .retry := by unfold paceUpd; simp [paceStep, hpend, hf]
      have hst : (paceUpd cfg env pick s.calls.length).start = s1.now := by
        rw [hnow1, hnow]
        unfold paceUpd
        simp [paceStep, hpend, hf]
      have hl : lStep k ce s1.l (if Trig.retry = .retry then .selRetry else .selTick) = some { s1.l with pc := .updating true, fch := s1.l.fch - 1 } := by
        simp [lStep, hpc1, hfch, hf, room]
      refine ⟨_, goCall hp hk h1 (.call .retry _ hdue hl) rfl (by rw [hlen]; exact htr), ?_, ?_, hech1, hst.symm, rfl⟩
      · dsimp only; rw [hsame.calls, hst, htr]
      · dsimp only; rw [htr]; rfl
    | false =>
      have hw := step_wait (env s.calls.length) (pick s.calls.length) _ hf hpend
      have htk : s1.l.tick = false := by
        cases hb : s1.l.tick
        · rfl
        · have h2 := htick.mp hb
          rw [← ht, hnow1, hnow] at h2
          exact absurd h2 hpend
      have hdue' : s1.due cfg = (paceUpd cfg env pick s.calls.length).start := by
        unfold paceUpd
        rw [hw.2, ← hnow, ← hnow1, ht]
        rfl
      obtain ⟨d, hd⟩ : ∃ d : Nat, s1.now + d = s1.due cfg := ⟨(s1.due cfg - s1.now).toNat, by omega⟩
      have hidle : NothingToDo cfg env s1 d := by
        unfold NothingToDo
        rw [hpc1]
        exact ⟨by rw [hfch, hf]; rfl, htk⟩
      have h2 := go hp hk h1 (.pass d (by omega) hidle (by omega)) rfl
      have h3 := go hp hk h2 (.tick { s1.l with tick := true } hd rfl) rfl
      refine hcallTick _ h3 hsame.calls hpc1 hech1 rfl ?_ hw.1 (by rw [← hdue']; exact hd.symm)
      unfold TLoop.due at hd ⊢
      dsimp only
      push_cast
      have : ((s1.fired : Int) + 1 + 1) * cfg.period = ((s1.fired : Int) + 1) * cfg.period + cfg.period := by ring
      omega

/-- The error is sent, and somebody reads it. -/
theorem sends (hp : 0 < cfg.period) (hk : cfg.atTick = decide (k = .jwkd)) {s : TLoop} (hs : TlReach k ce cfg env s ∧ Inv k cfg env pick s)
    (hdue : s.now < s.due cfg) {r : Bool} {e : Str} (hpc : s.l.pc = .report r e) (hech : s.l.ech = []) :
    ∃ s', (TlReach k ce cfg env s' ∧ Inv k cfg env pick s') ∧ s'.calls = s.calls ∧ s'.now = s.now ∧ s'.since = s.now ∧ s'.now < s'.due cfg ∧
      s'.l.ech = [] ∧ s'.l.pc = if k ≠ .jwkd ∧ r = true then .sleeping r e else .offer := by
  have hl : ∃ l x, lStep k ce s.l .send = some l ∧ l.ech = [x] ∧ l.pc = if k ≠ .jwkd ∧ r = true then .sleeping r e else .offer := by
    by_cases hj : k = .jwkd
    · exact ⟨_, _, by simp [lStep, hpc, hj, hech, echCap]; rfl, rfl, by simp [hj]⟩
    · exact ⟨_, _, by simp [lStep, hpc, hj, hech, echCap]; rfl, rfl, by simp [hj]⟩
  obtain ⟨l, x, hl, he, hq⟩ := hl
  have h1 := go hp hk hs (.send l hdue hl) rfl
  have hl2 : lStep k ce l .recv = some { l with ech := [], read := l.read ++ [x] } := by simp [lStep, he]
  have h2 := go hp hk h1 (.recv _ hl2) rfl
  exact ⟨_, h2, rfl, rfl, rfl, hdue, rfl, hq⟩

/-- The failure is put into the queue. -/
theorem offers (hp : 0 < cfg.period) (hk : cfg.atTick = decide (k = .jwkd)) {s : TLoop} (hs : TlReach k ce cfg env s ∧ Inv k cfg env pick s)
    (hdue : s.now < s.due cfg) (hpc : s.l.pc = .offer) (hech : s.l.ech = []) :
    ∃ s', (TlReach k ce cfg env s' ∧ Inv k cfg env pick s') ∧ s'.calls = s.calls ∧ s'.now = s.now ∧ s'.l.ech = [] ∧ s'.l.pc = .select :=
  ⟨_, go hp hk hs (.offer { s.l with pc := .select, fch := if s.l.fch < 1 then s.l.fch + 1 else s.l.fch } hdue (by simp [lStep, hpc])) rfl,
    rfl, rfl, hech, rfl⟩

/-- A pause. -/
theorem sleeps (hp : 0 < cfg.period) (hk : cfg.atTick = decide (k = .jwkd)) {s : TLoop} (hs : TlReach k ce cfg env s ∧ Inv k cfg env pick s)
    {r : Bool} {e : Str} (hpc : s.l.pc = .sleeping r e) (hech : s.l.ech = []) (hsince : s.since = s.now) :
    ∃ s', (TlReach k ce cfg env s' ∧ Inv k cfg env pick s') ∧ s'.calls = s.calls ∧ s'.now = s.now + cfg.delay.toNat ∧ s'.now < s'.due cfg ∧
      s'.l.ech = [] ∧ s'.l.pc = if k = .jwkd then .report r e else .offer := by
  obtain ⟨s1, h1, hsame, hnow, hdue⟩ := fly hp hk cfg.delay.toNat s hs (.inr ⟨r, e, hpc, by omega⟩)
  have hpc1 := hsame.pc.trans hpc
  have hl : lStep k ce s1.l .wake = some { s1.l with pc := if k = .jwkd then .report r e else .offer } := by simp [lStep, hpc1]
  exact ⟨_, go hp hk h1 (.wake _ hdue (by rw [hsame.since, hsince]; exact hnow) hl) rfl, hsame.calls, hnow, hdue, hsame.ech.trans hech, rfl⟩

theorem round (hp : 0 < cfg.period) (hk : cfg.atTick = decide (k = .jwkd)) {s : TLoop} (hs : TlReach k ce cfg env s ∧ Inv k cfg env pick s)
    (hpc : s.l.pc = .select) (hech : s.l.ech = []) (hnow : s.now = (paceState cfg env pick s.calls.length).now) :
    ∃ s', (TlReach k ce cfg env s' ∧ Inv k cfg env pick s') ∧ s'.l.pc = .select ∧ s'.l.ech = [] ∧ s'.calls.length = s.calls.length + 1 ∧
      s'.now = (paceState cfg env pick s'.calls.length).now := by
  obtain ⟨s1, h1, hc1, hp1, he1, hn1, hs1⟩ := calls hp hk hs hpc hech hnow
  have hlen : s1.calls.length = s.calls.length + 1 := by rw [hc1]; simp
  have hd := PaceP.dur_eq (cfg := cfg) (env := env) (pick := pick) s.calls.length
  have hend := (PaceP.step_next (cfg := cfg) (env s.calls.length) (pick s.calls.length) (paceState cfg env pick s.calls.length)).1
  have hend : (paceState cfg env pick (s.calls.length + 1)).now =
    stops (paceUpd cfg env pick s.calls.length) + PaceP.pause cfg (paceUpd cfg env pick s.calls.length) := hend
  generalize hu : paceUpd cfg env pick s.calls.length = u at *
  have hupd : ∀ s2 : TLoop, s2.calls = s1.calls → s2.since = s1.since → s2.upd env = env s.calls.length u.start := by
    intro s2 a b
    unfold TLoop.upd
    rw [a, b, hlen, hs1, hn1, Nat.add_sub_cancel]
  obtain ⟨s2, h2, hsame, hn2, hdue2⟩ := fly hp hk u.dur s1 h1 (.inl ⟨_, hp1, by rw [hs1, hupd s1 rfl rfl, hd.1]⟩)
  have hp2 := hsame.pc.trans hp1
  have he2 := hsame.ech.trans he1
  have hu2 := hupd s2 hsame.calls hsame.since
  have hstop : s2.now = stops u := by rw [hn2, hn1]; rfl
  have hret : s2.now = s2.since + (s2.upd env).dur := by rw [hu2, ← hd.1, hsame.since, hs1, hn2]
  cases hok : u.ok with
  | true =>
    have hl : lStep k ce s2.l (if (s2.upd env).ok then .updOk else .updFail []) = some { s2.l with pc := .select } := by
      rw [hu2, ← hd.2, hok]; simp [lStep, hp2]
    refine ⟨_, go hp hk h2 (.ret [] _ hdue2 hret hl) rfl, rfl, he2, by dsimp only; rw [hsame.calls, hlen], ?_⟩
    dsimp only
    rw [hsame.calls, hlen, hend, hstop]
    simp [PaceP.pause, hok]
  | false =>
    by_cases hj : k = .jwkd
    · have hl : lStep k ce s2.l (if (s2.upd env).ok then .updOk else .updFail []) = some { s2.l with pc := .sleeping (decide (u.trig = .retry)) [] } := by
        rw [hu2, ← hd.2, hok]; simp [lStep, hp2, hj]
      have h3 := go hp hk h2 (.ret [] _ hdue2 hret hl) rfl
      obtain ⟨s4, h4, hc4, hn4, hd4, he4, hp4⟩ := sleeps hp hk h3 rfl he2 rfl
      rw [if_pos hj] at hp4
      obtain ⟨s5, h5, hc5, hn5, _, hd5, he5, hp5⟩ := sends hp hk h4 hd4 hp4 he4
      rw [if_neg (by simp [hj])] at hp5
      obtain ⟨s6, h6, hc6, hn6, he6, hp6⟩ := offers hp hk h5 hd5 hp5 he5
      have hc : s6.calls = s1.calls := by rw [hc6, hc5, hc4]; exact hsame.calls
      refine ⟨s6, h6, hp6, he6, by rw [hc, hlen], ?_⟩
      rw [hc, hlen, hend, hn6, hn5, hn4]
      dsimp only
      rw [hstop]
      simp [PaceP.pause, hok, hk, hj]
    · have hl : lStep k ce s2.l (if (s2.upd env).ok then .updOk else .updFail []) = some { s2.l with pc := .report (decide (u.trig = .retry)) [] } := by
        rw [hu2, ← hd.2, hok]; simp [lStep, hp2, hj]
      have h3 := go hp hk h2 (.ret [] _ hdue2 hret hl) rfl
      obtain ⟨s4, h4, hc4, hn4, hsi4, hd4, he4, hp4⟩ := sends hp hk h3 hdue2 rfl he2
      dsimp only at hc4 hn4 hsi4
      by_cases hr : u.trig = .retry
      · rw [if_pos ⟨hj, by simp [hr]⟩] at hp4
        obtain ⟨s5, h5, hc5, hn5, hd5, he5, hp5⟩ := sleeps hp hk h4 hp4 he4 (by rw [hsi4, hn4])
        rw [if_neg hj] at hp5
        obtain ⟨s6, h6, hc6, hn6, he6, hp6⟩ := offers hp hk h5 hd5 hp5 he5
        have hc : s6.calls = s1.calls := by rw [hc6, hc5, hc4]; exact hsame.calls
        refine ⟨s6, h6, hp6, he6, by rw [hc, hlen], ?_⟩
        rw [hc, hlen, hend, hn6, hn5, hn4, hstop]
        simp [PaceP.pause, hok, hr]
      · rw [if_neg (by simp [hr])] at hp4
        obtain ⟨s6, h6, hc6, hn6, he6, hp6⟩ := offers hp hk h4 hd4 hp4 he4
        have hc : s6.calls = s1.calls := by rw [hc6, hc4]; exact hsame.calls
        refine ⟨s6, h6, hp6, he6, by rw [hc, hlen], ?_⟩
        rw [hc, hlen, hend, hn6, hn4, hstop]
        simp [PaceP.pause, hk, hj, hr]

end LoopReachP

/-- **C94**, the converse of `C94_agrees`: for every choice, the goroutine of each of the three daemons has a run in which it goes on without delay and
makes the calls of `Update` that the model of times says, as many as one wants. -/
theorem C94_reached (k : LKind) (ce : Str) (cfg : PaceCfg) (env : Nat → Int → TFetch) (hp : 0 < cfg.period) (hk : cfg.atTick = decide (k = .jwkd))
    (pick : Nat → Bool) (n : Nat) :
    ∃ s, TlReach k ce cfg env s ∧ s.calls = (List.range n).map fun i => ((paceUpd cfg env pick i).trig, (paceUpd cfg env pick i).start) := by
  have : ∃ s, (TlReach k ce cfg env s ∧ LoopTimeP.Inv k cfg env pick s) ∧ s.l.pc = .select ∧ s.l.ech = [] ∧ s.calls.length = n ∧
      s.now = (paceState cfg env pick s.calls.length).now := by
    induction n with
    | zero => exact ⟨_, ⟨.init, LoopTimeP.inv_congr (LoopTimeP.init_inv hp k) fun i hi => by simp [tlInit] at hi⟩, rfl, rfl, rfl, rfl⟩
    | succ n ih =>
      obtain ⟨s, h1, h2, h3, h4, h5⟩ := ih
      obtain ⟨s', g1, g2, g3, g4, g5⟩ := LoopReachP.round hp hk h1 h2 h3 h5
      exact ⟨s', g1, g2, g3, by omega, g5⟩
  obtain ⟨s, ⟨h1, h2⟩, _, _, h4, _⟩ := this
  refine ⟨s, h1, ?_⟩
  rw [← h4]
  exact h2.calls

/-- Failing updates that take 3, every 10: the second one is a retry at 113. -/
example : 0 < Ex.ltCfg.period ∧ Ex.ltCfg.atTick = decide (LKind.policyd = .jwkd) ∧
    (List.range 2).map (fun i => ((paceUpd Ex.ltCfg Ex.ltEnv (fun _ => true) i).trig, (paceUpd Ex.ltCfg Ex.ltEnv (fun _ => true) i).start))
      = [(.tick, 110), (.retry, 113)] := ⟨by decide, by decide, by decide +kernel⟩

end Athenz
