import Verif.Proofs.Loop
import Verif.Props.Examples

/-! # C51 to C53: the background updaters -/

namespace Athenz
open Spec

/-! ## C51 a failed refresh is always retried -/

/-- **C51**.  After any history, if the last update that returned has failed and the goroutine is at the select, an entry is in the failure queue,
and the case of the retry is ready: without a tick, an update begins that counts as retry. -/
theorem C51_pending (k : LKind) (ce : Str) (acts : List LAct) (s : LState) (hr : lRun k ce lInit acts = some s) (hf : LastFailed acts)
    (hp : s.pc = .select) : s.fch = 1 ∧ ∃ s', lStep k ce s .selRetry = some s' ∧ s'.pc = .updating true := by
  have h := fch_failed acts s hr hf hp
  exact ⟨h, { s with pc := .updating true, fch := s.fch - 1 }, by simp [lStep, hp, h], rfl⟩

/-- **C51**.  The failure queue never holds more than one entry, and offering a retry never blocks and leaves exactly one entry. -/
theorem C51_bounded (k : LKind) (ce : Str) (acts : List LAct) (s : LState) (hr : lRun k ce lInit acts = some s) :
    s.fch ≤ 1 ∧ (s.pc = .offer → ∃ s', lStep k ce s .offer = some s' ∧ s'.pc = .select ∧ s'.fch = 1) := by
  have h := fch_le acts s hr
  refine ⟨h, fun hp => ⟨{ s with pc := .select, fch := if s.fch < 1 then s.fch + 1 else s.fch }, by simp only [lStep, hp, if_true], rfl, ?_⟩⟩
  simp only
  split <;> omega

/-- **C51**.  Retries do not come from nothing: there are never more of them than failures. -/
theorem C51_caused (k : LKind) (ce : Str) (acts : List LAct) (s : LState) (hr : lRun k ce lInit acts = some s) :
    acts.count .selRetry + s.fch ≤ (failures acts).length := by
  have key : ∀ as s, lRun k ce lInit as = some s → as.count .selRetry + s.fch +
      (match s.pc with | .report _ _ => 1 | .sleeping _ _ => 1 | .offer => 1 | _ => 0) ≤ (failures as).length := by
    refine lRun_hist (by simp [lInit, failures]) ?_
    intro as s a s' _ hi he
    cases he <;> simp_all [failures_append, failures, List.count_append] <;> (try split) <;> omega
  have := key acts s hr
  omega

/-- **C51**.  In every fair execution a failed update is followed by a retry, unless the context is done.  Policyd and pubkeyd need somebody who
reads their error channel for this, jwkd does not. -/
theorem C51_fair {k : LKind} {ce : Str} (x : LExec k ce) (f : LFair (k ≠ .jwkd) x) (n : Nat) (e : Str) (hn : x.act n = .updFail e) :
    ∃ m, n < m ∧ (x.act m = .selRetry ∨ x.act m = .selDone) := by
  apply Classical.byContradiction
  intro hno
  have hno' : ∀ m, n < m → x.act m ≠ .selRetry ∧ x.act m ≠ .selDone :=
    fun m hm => ⟨fun hc => hno ⟨m, hm, .inl hc⟩, fun hc => hno ⟨m, hm, .inr hc⟩⟩
  -- the failure is not forgotten
  have keep : ∀ d, ((x.state (n + 1 + d)).pc ≠ .stopping ∧ (x.state (n + 1 + d)).pc ≠ .exited) ∧
      ((match (x.state (n + 1 + d)).pc with | .report _ _ => True | .sleeping _ _ => True | .offer => True | _ => False) ∨
        0 < (x.state (n + 1 + d)).fch) := by
    intro d
    induction d with
    | zero =>
      have he := x.effect n
      rw [hn] at he
      simp only [Nat.add_zero]
      revert he
      generalize x.state (n + 1) = s'
      intro he
      cases he <;> simp
    | succ d ih =>
      have he := x.effect (n + 1 + d)
      have h1 := hno' (n + 1 + d) (by omega)
      rw [show n + 1 + (d + 1) = n + 1 + d + 1 by omega]
      revert he h1 ih
      generalize x.state (n + 1 + d + 1) = s'
      generalize x.act (n + 1 + d) = a
      intro ih he h1
      cases he <;> simp_all
      split <;> omega
  have hsel : ∀ N, ∃ m, N ≤ m ∧ (x.state m).pc = .select ∧ 0 < (x.state m).fch := by
    intro N
    obtain ⟨m, hm, hp⟩ := f.select (fun h => h) (max N (n + 1)) (fun m hm => by
      obtain ⟨d, rfl⟩ := Nat.exists_eq_add_of_le (show n + 1 ≤ m by omega)
      exact (keep d).1)
    refine ⟨m, by omega, hp, ?_⟩
    obtain ⟨d, rfl⟩ := Nat.exists_eq_add_of_le (show n + 1 ≤ m by omega)
    rcases (keep d).2 with h | h
    · rw [hp] at h; exact h.elim
    · exact h
  obtain ⟨m, hm, ha⟩ := f.choice hsel (n + 1)
  exact (hno' m (by omega)).1 ha

namespace Ex

/-- A refresh that fails, and a retry that succeeds. -/
def loopActs : List LAct := [.tick, .selTick, .updFail "boom".toList, .wake, .send, .offer, .selRetry, .updOk, .tick]

/-- The state after the first `n` steps. -/
def loopState (n : Nat) : LState := ((lRun .jwkd "ctx".toList lInit (loopActs.take n)).getD lInit)

/-- The execution goes on with ticks for ever; the select is not seen doing anything more. -/
def loopExec : LExec .jwkd "ctx".toList where
  state := fun n => loopState n
  act := fun n => loopActs.getD n .tick
  init := rfl
  next := by
    intro n
    by_cases h : n < 9
    · have : ∀ i : Fin 9, lStep .jwkd "ctx".toList (loopState i) (loopActs.getD i .tick) = some (loopState (i + 1)) := by decide +kernel
      exact this ⟨n, h⟩
    · have e1 : loopState n = loopState 9 := by
        unfold loopState
        rw [List.take_of_length_le (by show 9 ≤ n; omega), List.take_of_length_le (by decide)]
      have e2 : loopState (n + 1) = loopState 9 := by
        unfold loopState
        rw [List.take_of_length_le (by show 9 ≤ n + 1; omega), List.take_of_length_le (by decide)]
      have e3 : loopActs.getD n .tick = .tick := by
        rw [List.getD_eq_getElem?_getD, List.getElem?_eq_none (by show 9 ≤ n; omega)]; rfl
      rw [e1, e2, e3]
      decide +kernel

theorem loopState_late (n : Nat) (h : 9 ≤ n) : loopState n = loopState 9 := by
  unfold loopState
  rw [List.take_of_length_le (by show 9 ≤ n; omega), List.take_of_length_le (by decide)]

theorem loopExec_fair : LFair False loopExec where
  updates := fun n => ⟨max n 9, by omega, fun r => by
    show (loopState (max n 9)).pc ≠ _
    rw [loopState_late _ (by omega)]
    cases r <;> decide +kernel⟩
  steps := fun a ha n h => by
    have h1 := h (max n 9) (by omega)
    change (lStep .jwkd "ctx".toList (loopState (max n 9)) a).isSome = true at h1
    rw [loopState_late _ (by omega)] at h1
    simp only [List.mem_cons, List.not_mem_nil, or_false] at ha
    rcases ha with rfl | rfl | rfl <;> exact absurd h1 (by decide +kernel)
  reads := fun h => h.elim
  choice := fun h => by
    obtain ⟨m, hm, h1, h2⟩ := h 9
    change 0 < (loopState m).fch at h2
    rw [loopState_late m hm] at h2
    exact absurd h2 (by decide +kernel)

end Ex

/-- A fair execution of jwkd with a failure, for which nobody reads the channel: the retry follows. -/
example : LFair (LKind.jwkd ≠ .jwkd) Ex.loopExec ∧ Ex.loopExec.act 2 = .updFail "boom".toList ∧ Ex.loopExec.act 6 = .selRetry := by
  refine ⟨?_, by decide +kernel, by decide +kernel⟩
  have h := Ex.loopExec_fair
  exact ⟨h.updates, h.steps, fun hc => absurd rfl hc, h.choice⟩

/-- The hypotheses of `C51_pending`: the state after a failure, at the select. -/
example : ∃ s, lRun .policyd "ctx".toList lInit [.tick, .selTick, .updFail "boom".toList, .send, .offer, .tick] = some s ∧ s.pc = .select ∧
    LastFailed [.tick, .selTick, .updFail "boom".toList, .send, .offer, .tick] := by
  obtain ⟨s, h1, h2⟩ := Ex.exists_of_map (o := lRun .policyd "ctx".toList lInit [.tick, .selTick, .updFail "boom".toList, .send, .offer, .tick])
    (p := fun s => decide (s.pc = .select)) (by decide +kernel)
  exact ⟨s, h1, by simpa using h2, [.tick, .selTick], _, [.send, .offer, .tick], rfl, by decide⟩

/-! ## C52 refreshing does not depend on somebody reading the error channel -/

/-- Without reader, and without cancellation, there is always a way to the next update. -/
def Spec.Refreshes (k : LKind) : Prop :=
  ∀ (ce : Str) (acts : List LAct) (s : LState), LAct.recv ∉ acts → lRun k ce lInit acts = some s → s.pc ≠ .stopping → s.pc ≠ .exited →
    ∃ acts' s' r, LAct.recv ∉ acts' ∧ LAct.cancel ∉ acts' ∧ lRun k ce s acts' = some s' ∧ s'.pc = .updating r

/-- Without reader, the goroutine of a cancelled context can return. -/
def Spec.Stops (k : LKind) : Prop :=
  ∀ (ce : Str) (acts : List LAct) (s : LState), LAct.recv ∉ acts → lRun k ce lInit acts = some s → s.cancelled = true →
    ∃ acts' s', LAct.recv ∉ acts' ∧ lRun k ce s acts' = some s' ∧ s'.pc = .exited

/-- The full statement of C52. -/
def C52_statement : Prop := ∀ k, Refreshes k ∧ Stops k

/-- The goroutine waits for room in the error channel. -/
def Spec.Waiting (k : LKind) (s : LState) : Prop :=
  s.ech.length = 100 ∧ ((k ≠ .jwkd ∧ ∃ r e, s.pc = .report r e) ∨ s.pc = .stopping)

/-- Whatever happens, other than reading from the error channel, the goroutine does not move. -/
def Spec.Stuck (k : LKind) (ce : Str) (s : LState) : Prop :=
  ∀ acts s', LAct.recv ∉ acts → lRun k ce s acts = some s' → s'.pc = s.pc

theorem waiting_stuck {k : LKind} {ce : Str} {s : LState} (h : Waiting k s) : Stuck k ce s := by
  intro acts
  induction acts generalizing s with
  | nil => intro s' _ hr; cases hr; rfl
  | cons a acts ih =>
    intro s' hn hr
    simp only [lRun] at hr
    split at hr
    · rename_i s1 h1
      have hn' : LAct.recv ∉ acts := fun hc => hn (List.mem_cons_of_mem _ hc)
      have ha : a ≠ .recv := fun hc => hn (hc ▸ List.mem_cons_self)
      have hcap : echCap = 100 := rfl
      have : s1.pc = s.pc ∧ Waiting k s1 := by
        obtain ⟨hl, hw⟩ := h
        cases lStep_effect h1 <;> simp_all [Waiting]
      rw [ih this.2 s' hn' hr, this.1]
    · cases hr

/-- **C52**, exactly when it fails: a goroutine that has not returned is stuck until somebody reads if and only if it wants to send to a full
channel of 100 errors, which for jwkd only happens at the end. -/
theorem C52_exact (k : LKind) (ce : Str) (acts : List LAct) (s : LState) (hr : lRun k ce lInit acts = some s) (hx : s.pc ≠ .exited) :
    Stuck k ce s ↔ Waiting k s := by
  constructor
  · intro hs
    have hle : s.ech.length ≤ 100 := ech_le acts s hr
    have one : ∀ a s', a ≠ .recv → lStep k ce s a = some s' → s'.pc ≠ s.pc → False := fun a s' ha h1 hne =>
      hne (hs [a] s' (by simpa using fun hc => ha hc.symm) (by simp [lRun, h1]))
    have hcap : echCap = 100 := rfl
    cases hp : s.pc with
    | select =>
      exfalso
      have := hs [.tick, .selTick] { s with pc := .updating false, tick := false } (by simp) (by simp [lRun, lStep, hp])
      rw [hp] at this
      cases this
    | updating r => exact (one .updOk { s with pc := .select } (by simp) (by simp [lStep, hp]) (by simp [hp])).elim
    | report r e =>
      by_cases hk : k = .jwkd
      · exfalso
        by_cases hl : s.ech.length < echCap
        · exact one .send { s with pc := .offer, ech := s.ech ++ [wrapMsg (wrapMsg k.msg e) s.ebuf], ebuf := [] } (by simp)
            (by simp only [lStep, hp, hk, if_true, if_pos hl]) (by simp [hp])
        · exact one .send { s with pc := .offer, ebuf := wrapMsg (wrapMsg k.msg e) s.ebuf } (by simp)
            (by simp only [lStep, hp, hk, if_true, if_neg hl]) (by simp [hp])
      · by_cases hl : s.ech.length < echCap
        · exfalso
          refine one .send { s with pc := if r then .sleeping r e else .offer, ech := s.ech ++ [wrapMsg k.msg e] } (by simp)
            (by simp only [lStep, hp, if_neg hk, if_pos hl]) ?_
          simp only [hp]
          cases r <;> simp
        · exact ⟨by omega, .inl ⟨hk, r, e, hp⟩⟩
    | sleeping r e =>
      exfalso
      refine one .wake { s with pc := if k = .jwkd then .report r e else .offer } (by simp) (by simp only [lStep, hp]) ?_
      simp only [hp]
      split <;> simp
    | offer => exact (one .offer _ (by simp) (by simp only [lStep, hp, if_true]; rfl) (by simp [hp])).elim
    | stopping =>
      by_cases hl : s.ech.length < echCap
      · exact (one .stop { s with pc := .exited, ech := s.ech ++ [if k = .jwkd then lastItem ce s.ebuf else ce] } (by simp)
          (by simp only [lStep, hp, hl, and_self, if_true]) (by simp [hp])).elim
      · exact ⟨by omega, .inr hp⟩
    | exited => exact absurd hp hx
  · exact waiting_stuck

/-- **C52**, how much it takes: before 100 updates have failed, no goroutine is stuck.  Missing: more failures than that. -/
theorem C52_room_partial (k : LKind) (ce : Str) (acts : List LAct) (s : LState) (hr : lRun k ce lInit acts = some s) (hx : s.pc ≠ .exited)
    (hf : (failures acts).length < 100) : ¬ Stuck k ce s := by
  intro hs
  obtain ⟨hl, _⟩ := (C52_exact k ce acts s hr hx).mp hs
  by_cases hk : k = .jwkd
  · subst hk
    obtain ⟨groups, held, h1, h2, h3, h4⟩ := items_jwkd acts s hr
    rw [if_neg hx] at h4
    have h5 := congrArg List.length h4
    have h6 := congrArg List.length h3
    have h7 : groups.length ≤ groups.flatten.length := by
      clear h3 h4 h5 h6
      induction groups with
      | nil => simp
      | cons g gs ih =>
        have := ih (fun g hg => h1 g (List.mem_cons_of_mem _ hg))
        have h8 : 0 < g.length := List.length_pos_iff.mpr (h1 g List.mem_cons_self)
        simp only [List.flatten_cons, List.length_append, List.length_cons]
        omega
    simp only [List.length_append, List.length_map, List.append_nil] at h5 h6
    omega
  · have h5 := congrArg List.length (items_plain hk acts s hr)
    simp only [if_neg hx, List.length_append, List.length_map, List.append_nil] at h5
    omega

/-- **C52**, jwkd: it goes on refreshing without reader, also after any number of failures.  Missing: that it can return. -/
theorem C52_jwkd_partial : Refreshes .jwkd := by
  intro ce acts s _ hr h1 h2
  have fromSelect : ∀ s : LState, s.pc = .select →
      lRun .jwkd ce s [.tick, .selTick] = some { s with pc := .updating false, tick := false } := by
    intro s hp; simp [lRun, lStep, hp]
  have fromOffer : ∀ s : LState, s.pc = .offer → ∃ s', lRun .jwkd ce s [.offer, .tick, .selTick] = some s' ∧ s'.pc = .updating false := by
    intro s hp
    exact ⟨{ s with pc := .updating false, fch := if s.fch < 1 then s.fch + 1 else s.fch, tick := false }, by simp [lRun, lStep, hp], rfl⟩
  have fromReport : ∀ (s : LState) (r : Bool) (e : Str), s.pc = .report r e →
      ∃ s', lRun .jwkd ce s [.send, .offer, .tick, .selTick] = some s' ∧ s'.pc = .updating false := by
    intro s r e hp
    by_cases hl : s.ech.length < echCap
    · obtain ⟨s', h3, h4⟩ := fromOffer { s with pc := .offer, ech := s.ech ++ [wrapMsg (wrapMsg (LKind.msg .jwkd) e) s.ebuf], ebuf := [] } rfl
      refine ⟨s', ?_, h4⟩
      rw [lRun]
      simp only [lStep, hp, if_true, if_pos hl]
      exact h3
    · obtain ⟨s', h3, h4⟩ := fromOffer { s with pc := .offer, ebuf := wrapMsg (wrapMsg (LKind.msg .jwkd) e) s.ebuf } rfl
      refine ⟨s', ?_, h4⟩
      rw [lRun]
      simp only [lStep, hp, if_true, if_neg hl]
      exact h3
  cases hp : s.pc with
  | select => exact ⟨_, _, false, by simp, by simp, fromSelect s hp, rfl⟩
  | updating r => exact ⟨[], s, r, by simp, by simp, rfl, hp⟩
  | offer =>
    obtain ⟨s', h3, h4⟩ := fromOffer s hp
    exact ⟨_, s', false, by simp, by simp, h3, h4⟩
  | report r e =>
    obtain ⟨s', h3, h4⟩ := fromReport s r e hp
    exact ⟨_, s', false, by simp, by simp, h3, h4⟩
  | sleeping r e =>
    obtain ⟨s', h3, h4⟩ := fromReport { s with pc := .report r e } r e rfl
    refine ⟨.wake :: [.send, .offer, .tick, .selTick], s', false, by simp, by simp, ?_, h4⟩
    rw [lRun]
    simp only [lStep, hp, if_true]
    exact h3
  | stopping => exact absurd hp h1
  | exited => exact absurd hp h2

/-- **C52**, jwkd in fair executions without reader: as long as the context is not seen to be done, it comes back to its select, where it can
begin an update, again and again.  Missing: that it can return. -/
theorem C52_jwkd_fair_partial {ce : Str} (x : LExec .jwkd ce) (f : LFair False x) (n : Nat)
    (hlive : ∀ m, n ≤ m → (x.state m).pc ≠ .stopping ∧ (x.state m).pc ≠ .exited) : ∃ m, n ≤ m ∧ (x.state m).pc = .select :=
  f.select (fun h => absurd rfl h) n hlive

namespace Ex

/-- The updates of policyd and pubkeyd fail `n + 1` times in a row; `n` errors are sent. -/
def failing : Nat → List LAct
  | 0 => [.tick, .selTick, .updFail [], .send, .offer]
  | n + 1 => failing n ++ [.selRetry, .updFail [], .send, .wake, .offer]

/-- The same for jwkd. -/
def failingJwk : Nat → List LAct
  | 0 => [.tick, .selTick, .updFail [], .wake, .send, .offer]
  | n + 1 => failingJwk n ++ [.selRetry, .updFail [], .wake, .send, .offer]

/-- The 101st error finds the channel full. -/
def block : List LAct := failing 99 ++ [.selRetry, .updFail []]

/-- The cancellation finds the channel full. -/
def blockStop : List LAct := failing 99 ++ [.cancel, .selDone]

def blockStopJwk : List LAct := failingJwk 99 ++ [.cancel, .selDone]

end Ex

theorem waiting_no_update {k : LKind} {ce : Str} {s : LState} (h : Waiting k s) (acts' : List LAct) (s' : LState) (h1 : LAct.recv ∉ acts')
    (h2 : lRun k ce s acts' = some s') : (∀ r, s'.pc ≠ .updating r) ∧ s'.pc ≠ .exited := by
  have hp := waiting_stuck h acts' s' h1 h2
  rcases h.2 with ⟨_, r, e, h3⟩ | h3 <;> rw [hp, h3] <;> simp

/-- Policyd and pubkeyd stop refreshing after 101 failures that nobody has read. -/
theorem C52_refresh_refuted (k : LKind) (hk : k ≠ .jwkd) : ¬ Refreshes k := by
  intro h
  obtain ⟨s, hs, hp⟩ := Ex.exists_of_map (o := lRun k [] lInit Ex.block)
    (p := fun s => decide (s.ech.length = 100) && decide (s.pc = .report true [])) (by
      cases k with
      | policyd => decide +kernel
      | pubkeyd => decide +kernel
      | jwkd => exact absurd rfl hk)
  simp only [Bool.and_eq_true, decide_eq_true_eq] at hp
  obtain ⟨acts', s', r, h1, _, h2, h3⟩ := h [] Ex.block s (by decide +kernel) hs (by simp [hp.2]) (by simp [hp.2])
  exact (waiting_no_update ⟨hp.1, .inl ⟨hk, _, _, hp.2⟩⟩ acts' s' h1 h2).1 r h3

/-- None of the three can return on cancellation if 100 errors are unread. -/
theorem C52_stop_refuted (k : LKind) : ¬ Stops k := by
  intro h
  obtain ⟨acts, s, hn, hs, hc, hw⟩ : ∃ acts s, LAct.recv ∉ acts ∧ lRun k [] lInit acts = some s ∧ s.cancelled = true ∧ Waiting k s := by
    have main : ∀ acts, LAct.recv ∉ acts →
        ((lRun k [] lInit acts).map fun s => decide (s.ech.length = 100) && decide (s.pc = .stopping) && s.cancelled) = some true →
        ∃ acts s, LAct.recv ∉ acts ∧ lRun k [] lInit acts = some s ∧ s.cancelled = true ∧ Waiting k s := by
      intro acts hn h
      obtain ⟨s, hs, hp⟩ := Ex.exists_of_map h
      simp only [Bool.and_eq_true, decide_eq_true_eq] at hp
      exact ⟨acts, s, hn, hs, hp.2, hp.1.1, .inr hp.1.2⟩
    cases k with
    | policyd => exact main Ex.blockStop (by decide +kernel) (by decide +kernel)
    | pubkeyd => exact main Ex.blockStop (by decide +kernel) (by decide +kernel)
    | jwkd => exact main Ex.blockStopJwk (by decide +kernel) (by decide +kernel)
  obtain ⟨acts', s', h1, h2, h3⟩ := h [] acts s hn hs hc
  exact (waiting_no_update hw acts' s' h1 h2).2 h3

/-- The full statement is false. -/
theorem C52_refuted : ¬ C52_statement := fun h => C52_refresh_refuted .policyd (by decide) (h .policyd).1

/-- The hypotheses of the partial theorems: an unread failure, at the select. -/
example : ∃ s, lRun .jwkd "ctx".toList lInit [.tick, .selTick, .updFail "boom".toList, .wake, .send, .offer] = some s ∧ s.pc = .select ∧
    s.ech = ["error update athenz json web key: boom: ".toList] := by
  obtain ⟨s, h1, h2⟩ := Ex.exists_of_map (o := lRun .jwkd "ctx".toList lInit [.tick, .selTick, .updFail "boom".toList, .wake, .send, .offer])
    (p := fun s => decide (s.pc = .select) && decide (s.ech = ["error update athenz json web key: boom: ".toList])) (by decide +kernel)
  simp only [Bool.and_eq_true, decide_eq_true_eq] at h2
  exact ⟨s, h1, h2.1, h2.2⟩

/-! ## C53 the JWK updater reports every failure -/

/-- **C53**.  Whenever the goroutine is at its select or has returned: the failures so far, in their order, are cut into groups that are not empty,
and a rest.  The items that were or can be read are the texts of the groups, one for each, in order; the rest is held back.  After the return
the last item is the error of the context, with the text of the rest in front if there is one. -/
theorem C53_reported (ce : Str) (acts : List LAct) (s : LState) (hr : lRun .jwkd ce lInit acts = some s) (hp : s.pc = .select ∨ s.pc = .exited) :
    ∃ (groups : List (List Str)) (held : List Str), (∀ g ∈ groups, g ≠ []) ∧ groups.flatten ++ held = failures acts ∧
      s.read ++ s.ech = groups.map (batchText "error update athenz json web key".toList) ++
        (if s.pc = .exited then
          [if held = [] then ce else batchText "error update athenz json web key".toList held ++ ": ".toList ++ ce] else []) ∧
      s.ebuf = batchText "error update athenz json web key".toList held := by
  obtain ⟨groups, held, h1, h2, h3, h4⟩ := items_jwkd acts s hr
  have ho : s.pc.owed .jwkd = [] := by rcases hp with h | h <;> rw [h] <;> rfl
  rw [ho, List.append_nil] at h3
  refine ⟨groups, held, h1, h3, ?_, h2⟩
  rw [h4]
  have : lastItem ce s.ebuf = if held = [] then ce else batchText "error update athenz json web key".toList held ++ ": ".toList ++ ce := by
    unfold lastItem
    rw [h2]
    by_cases hh : held = []
    · rw [if_pos hh, if_pos ((batchText_nil_iff _ held).mpr hh)]
    · rw [if_neg hh, if_neg (fun hc => hh ((batchText_nil_iff _ held).mp hc))]; rfl
  rw [this]
  rfl

/-- **C53**, at any other moment: one failure, the last, may be in neither place, while the goroutine sleeps before it reports it. -/
theorem C53_always (ce : Str) (acts : List LAct) (s : LState) (hr : lRun .jwkd ce lInit acts = some s) :
    ∃ (groups : List (List Str)) (held owed : List Str), (∀ g ∈ groups, g ≠ []) ∧ groups.flatten ++ held ++ owed = failures acts ∧ owed.length ≤ 1 ∧
      (owed ≠ [] → ∃ r e, s.pc = .sleeping r e ∨ s.pc = .report r e) ∧
      (s.pc ≠ .exited → s.read ++ s.ech = groups.map (batchText "error update athenz json web key".toList)) ∧ s.ebuf = batchText "error update athenz json web key".toList held := by
  obtain ⟨groups, held, h1, h2, h3, h4⟩ := items_jwkd acts s hr
  refine ⟨groups, held, s.pc.owed .jwkd, h1, h3, ?_, ?_, fun hx => by rw [if_neg hx, List.append_nil] at h4; exact h4, h2⟩
  · cases s.pc <;> simp [LPc.owed]
  · cases s.pc <;> simp [LPc.owed]

/-- **C53**, a failure is held back only if the channel was full, and is sent with the next failure when there is room again. -/
theorem C53_room (ce : Str) (s s' : LState) (hs : lStep .jwkd ce s .send = some s') :
    (s.ech.length < 100 → s'.ebuf = [] ∧ ∃ t, s'.ech = s.ech ++ [t]) ∧ (s'.ebuf ≠ [] → s.ech.length ≥ 100 ∧ s'.ech = s.ech) := by
  have hcap : echCap = 100 := rfl
  cases lStep_effect hs with
  | sendJwk r' e' h1 h2 h3 => exact ⟨fun _ => ⟨rfl, _, rfl⟩, fun h => absurd rfl h⟩
  | holdJwk r' e' h1 h2 h3 => exact ⟨fun h => absurd (hcap ▸ h) h3, fun _ => ⟨by omega, rfl⟩⟩
  | sendRetry e' h1 h2 h3 => exact absurd rfl h2
  | sendTick e' h1 h2 h3 => exact absurd rfl h2

/-- **C53** for the others: the items of policyd and pubkeyd are the failures, each once and in order, and the error of the context last. -/
theorem C53_others (k : LKind) (hk : k ≠ .jwkd) (ce : Str) (acts : List LAct) (s : LState) (hr : lRun k ce lInit acts = some s)
    (hp : s.pc = .select ∨ s.pc = .exited) :
    s.read ++ s.ech = (failures acts).map (fun e => failText k ++ ": ".toList ++ e) ++ (if s.pc = .exited then [ce] else []) := by
  have h := items_plain hk acts s hr
  have ho : s.pc.owed k = [] := by rcases hp with h | h <;> rw [h] <;> rfl
  rw [ho, List.map_nil, List.append_nil] at h
  exact h

/-- Two failures with a full channel are held back and come with the error of the context. -/
example : ∃ s, lRun .jwkd "ctx".toList lInit (Ex.failingJwk 99 ++ [.selRetry, .updFail "a".toList, .wake, .send, .offer, .selRetry, .updFail "b".toList, .wake,
      .send, .offer, .recv, .cancel, .selDone, .stop]) = some s ∧ s.pc = .exited ∧
    s.ech.getLast? = some "error update athenz json web key: b: error update athenz json web key: a: : ctx".toList := by
  obtain ⟨s, h1, h2⟩ := Ex.exists_of_map (o := lRun .jwkd "ctx".toList lInit (Ex.failingJwk 99 ++ [.selRetry, .updFail "a".toList, .wake, .send, .offer,
      .selRetry, .updFail "b".toList, .wake, .send, .offer, .recv, .cancel, .selDone, .stop]))
    (p := fun s => decide (s.pc = .exited) &&
      decide (s.ech.getLast? = some "error update athenz json web key: b: error update athenz json web key: a: : ctx".toList)) (by decide +kernel)
  simp only [Bool.and_eq_true, decide_eq_true_eq] at h2
  exact ⟨s, h1, h2.1, h2.2⟩

end Athenz
