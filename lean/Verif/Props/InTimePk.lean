import Verif.Props.PacedPk
import Verif.Props.InTimeJwk

/-! # C103, from the goroutine: its updates come when the model of times says -/

namespace Athenz
open Spec

namespace InTimePkP

open InTimeP (busy)

variable {cfg : SysCfg} {ce : Str} {now : Int} {on : LKind → Bool}

/-- Where the goroutine comes into `Update`, it calls it. -/
theorem act_call (y : RsExec cfg ce now on) (hon : on .pubkeyd = true) {n : Nat} (h1 : (y.loop .pubkeyd n).pc = .select)
    (h2 : busy (y.loop .pubkeyd (n + 1))) : ∃ r fetch, y.act n = .call .pubkeyd r fetch := by
  obtain ⟨_, _, he⟩ := rs_loop y hon n
  obtain ⟨r, h2⟩ := h2
  generalize y.loop .pubkeyd (n + 1) = c' at he h2
  generalize y.loop .pubkeyd n = c at he h1
  generalize y.act n = a at he
  generalize y.state (n + 1) = s' at he
  have own : ∀ a, a.own = true → lStep .pubkeyd ce c a = some c' → False := by
    intro a ho hl
    have := lStep_effect hl
    cases this <;> simp_all [LAct.own]
  cases he with
  | idle a g1 g2 g0 g3 g4 => subst g3; rw [h1] at h2; cases h2
  | own a g1 g2 g3 g4 g5 => exact (own a g1 g4).elim
  | cancel g1 g2 => exact (own _ rfl g1).elim
  | take g1 g2 => exact (own _ rfl g1).elim
  | closed g1 g3 g4 => subst g3; rw [h1] at h2; cases h2
  | call retry fetch g1 g2 => exact ⟨retry, fetch, rfl⟩
  | ret e i ok g1 g2 g3 g4 => cases ok <;> simp [lStep, h1] at g3

/-- Where it calls `Update`, it comes from its select. -/
theorem call_act (y : RsExec cfg ce now on) (hon : on .pubkeyd = true) {n : Nat} {r : Bool} {fetch : List (Option PolicyDoc)}
    (h : y.act n = .call .pubkeyd r fetch) : (y.loop .pubkeyd n).pc = .select ∧ busy (y.loop .pubkeyd (n + 1)) ∧
      (y.state (n + 1)).cur .pubkeyd = some (y.state n).sys.pk.jobs.length := by
  have he := (rs_loop y hon n).2.2
  rw [h] at he
  generalize y.loop .pubkeyd (n + 1) = c' at he
  generalize y.state (n + 1) = s' at he
  cases he with
  | idle a g1 g2 g0 g3 g4 => exact absurd rfl g1
  | call retry fetch g1 g2 =>
    obtain ⟨k1, k2, _⟩ := lStep_sel g1
    exact ⟨k1, ⟨_, k2⟩, g2⟩

/-- `Update` has returned when both goroutines are over. -/
theorem both {s : Sys} {i : Nat} {ok : Bool} (h : s.updateRet i .pubkeyd = some ok) : ∀ d, d < 2 → ∃ b r, s.pk.jobs[i + d]? = some b ∧ b.pc = .done r := by
  simp only [Sys.updateRet] at h
  split at h
  · rename_i a b g1 g2
    intro d hd
    have : d = 0 ∨ d = 1 := by omega
    rcases this with rfl | rfl
    · exact ⟨_, _, g1, rfl⟩
    · exact ⟨_, _, g2, rfl⟩
  · cases h

/-- As long as it has not returned, the goroutine is in this call. -/
theorem call_held (y : RsExec cfg ce now on) (hon : on .pubkeyd = true) {n : Nat} {r : Bool} {fetch : List (Option PolicyDoc)}
    (hn : y.act n = .call .pubkeyd r fetch) (d : Nat) :
    (y.state (n + 1 + d)).cur .pubkeyd = some (y.state n).sys.pk.jobs.length ∨ PkReturned y.sys n (y.state (n + 1 + d)).sys := by
  induction d with
  | zero => exact .inl (call_act y hon hn).2.2
  | succ d ih =>
    rw [show n + 1 + (d + 1) = n + 1 + d + 1 by omega]
    have hst : PkReturned y.sys n (y.state (n + 1 + d)).sys → PkReturned y.sys n (y.state (n + 1 + d + 1)).sys :=
      PacedPkP.ret_stays (x := y.sys) (a := n + 1 + d) (b := n + 1 + d + 1) (Nat.le_succ _)
    rcases ih with hc | hr
    · obtain ⟨_, hinv, he⟩ := rs_loop y hon (n + 1 + d)
      obtain ⟨r0, hpc⟩ := hinv.cur _ hc
      revert he hst
      generalize y.act (n + 1 + d) = a
      generalize y.loop .pubkeyd (n + 1 + d + 1) = c'
      generalize y.state (n + 1 + d + 1) = s'
      intro hst he
      cases he with
      | idle a g1 g2 g0 g3 g4 => exact .inl (g4.trans hc)
      | own a g1 g2 g3 g4 g5 => exact .inl (g5.trans hc)
      | cancel g1 g2 => exact .inl (g2.trans hc)
      | take g1 g2 => exact .inl (g2.trans hc)
      | closed g1 g3 g4 => exact .inl (g4.trans hc)
      | call retry fetch g1 g2 =>
        rw [(lStep_sel g1).1] at hpc
        cases hpc
      | ret e i ok g1 g2 g3 g4 =>
        rw [hc] at g1
        obtain rfl := Option.some.inj g1
        exact .inr (hst (both g2))
    · exact .inr (hst hr)

theorem returned (y : RsExec cfg ce now on) (hon : on .pubkeyd = true) {n m : Nat} {r : Bool} {fetch : List (Option PolicyDoc)}
    (hn : y.act n = .call .pubkeyd r fetch) (hm : n < m) (hq : ¬ busy (y.loop .pubkeyd m)) : PkReturned y.sys n (y.state m).sys := by
  obtain ⟨d, rfl⟩ := Nat.exists_eq_add_of_le (show n + 1 ≤ m by omega)
  rcases call_held y hon hn d with hc | h
  · exact absurd ((rs_loop y hon (n + 1 + d)).2.1.cur _ hc) hq
  · exact h

/-- Calls of `Init` have returned when all goroutines of updates are over. -/
theorem idle_returned (y : RsExec cfg ce now on) {n B : Nat} (hact : y.sys.act n = .pk .update) (hn : n < B) (hi : KeysIdle (y.state B).sys.pk) :
    PkReturned y.sys n (y.sys.state B) := by
  intro d hd
  have hstep := (pkExecOf y.sys).next n
  change pkStep cfg.pk (y.sys.state n).pk (pkActOf (y.sys.act n)) = some (y.sys.state (n + 1)).pk at hstep
  rw [hact] at hstep
  have hlen : (y.sys.state (n + 1)).pk.jobs.length = (y.sys.state n).pk.jobs.length + 2 := by
    have he := pkStep_effect hstep
    generalize (y.sys.state (n + 1)).pk = s' at he
    cases he with
    | update => simp
  have hmono := (pkExecOf y.sys).jobs_mono (show n + 1 ≤ B by omega)
  change (y.sys.state (n + 1)).pk.jobs.length ≤ (y.sys.state B).pk.jobs.length at hmono
  have hlt : (y.sys.state n).pk.jobs.length + d < (y.sys.state B).pk.jobs.length := by omega
  have hb := List.getElem?_eq_getElem hlt
  obtain ⟨r, hr⟩ := hi _ _ hb
  exact ⟨_, r, hb, hr⟩

end InTimePkP

/-- **C103**, the hypothesis about the updates: if `Init` is over when the ticker is created, and the goroutine of the public key daemon goes on without
delay, then until every time `T` that is reached its updates are called and return at the times of the model of times, for some choice where a
retry and a tick are both ready. -/
theorem C103_paced (cfg : SysCfg) (ce : Str) (now : Int) (on : LKind → Bool) (hon : on .pubkeyd = true) (y : RsExec cfg ce now on) (pace : PaceCfg)
    (env : Nat → Int → TFetch) (B : Nat) (c : Nat → TLoop) (hf : InitFirst y B) (h : PkInTime y pace env B c) (hp : 0 < pace.period)
    (hat : pace.atTick = false) (T : Int) (N : Nat) (hBN : B ≤ N) (hN : T < (y.state N).sys.auth.now) :
    ∃ pick call done, PkPacedUntil y.sys (paceUpd pace env pick) T call done := by
  obtain ⟨pick, call, done, hB, hcall, hdone, hnext, honly⟩ := PromptP.schedule hp (by simp [hat]) h.prompt T N hBN (by rw [h.clock N hBN]; exact hN)
  have hloop : ∀ n, B ≤ n → (c n).l = y.loop .pubkeyd n := by
    intro n hn
    have h1 := (rs_loop y hon n).1
    rw [h.loop n hn] at h1
    exact Option.some.inj h1
  have at_call : ∀ k, (paceUpd pace env pick k).start ≤ T → ∃ r f, y.act (call k) = .call .pubkeyd r f := by
    intro k hk
    obtain ⟨_, a1, a2, _⟩ := hcall k hk
    rw [hloop _ (hB k)] at a1
    rw [hloop _ (Nat.le_succ_of_le (hB k))] at a2
    exact InTimePkP.act_call y hon a1 a2
  refine ⟨pick, call, done, fun k hk => Nat.le_of_lt (hdone k hk).1, hnext, ?_, ?_, ?_⟩
  · intro k hk
    obtain ⟨r, f, ha⟩ := at_call k hk
    refine ⟨by show (y.act (call k)).proj = _; rw [ha]; rfl, ?_⟩
    rw [← (hcall k hk).2.2.2, h.clock _ (hB k)]
    rfl
  · intro k hk
    obtain ⟨d1, d2, d3, d5⟩ := hdone k hk
    have := hB k
    obtain ⟨r, f, ha⟩ := at_call k (by unfold stops at hk; omega)
    refine ⟨?_, ?_⟩
    · rw [← d5, h.clock _ (by omega)]; rfl
    · rw [hloop _ (by omega)] at d3
      exact InTimePkP.returned y hon ha d1 d3
  · intro n ha hn
    have ha' : (y.act n).proj = .pk .update := ha
    cases hact : y.act n with
    | sys a =>
      rw [hact] at ha'
      have : a = .pk .update := ha'
      rw [this] at hact
      have hlt : n < B := by
        refine Classical.byContradiction fun hge => ?_
        exact hf.after n (by omega) hact
      exact .inr (PacedPkP.ret_stays (x := y.sys) (hB 0) (InTimePkP.idle_returned y ha hlt hf.over))
    | fwd a => rw [hact] at ha'; cases ha'
    | ret k e => rw [hact] at ha'; cases ha'
    | call k r f =>
      rw [hact] at ha'
      cases k with
      | policyd => cases ha'
      | jwkd => cases ha'
      | pubkeyd =>
        left
        have hBn : B ≤ n := by
          refine Classical.byContradiction fun hlt => ?_
          exact hf.before n (by omega) r f hact
        have hn' : (y.sys.state n).auth.now ≤ T := hn
        have hnN : n < N := by
          refine Classical.byContradiction fun hge => ?_
          have := PacedP.now_mono y.sys (show N ≤ n by omega)
          have hN' : T < (y.sys.state N).auth.now := hN
          omega
        obtain ⟨c1, c2, _⟩ := InTimePkP.call_act y hon hact
        rw [← hloop n hBn] at c1
        rw [← hloop (n + 1) (by omega)] at c2
        obtain ⟨k, hk, e⟩ := honly n hBn hnN c1 c2
        refine ⟨k, ?_, e⟩
        rw [hk, h.clock n hBn]
        exact hn

theorem InTimePkP.started {cfg : SysCfg} {ce : Str} {now : Int} {on : LKind → Bool} {y : RsExec cfg ce now on} {pace : PaceCfg}
    {env : Nat → Int → TFetch} {B : Nat} {c : Nat → TLoop} (h : PkInTime y pace env B c) {m : Nat} (hm : pace.t0 < (y.state m).sys.auth.now) : B ≤ m := by
  have hB := h.clock B (Nat.le_refl B)
  rw [h.prompt.init] at hB
  refine PacedP.later (x := y.sys) ?_
  show (y.state B).sys.auth.now < (y.state m).sys.auth.now
  rw [← hB]
  exact hm

/-- **C103**, of the goroutine: in a started authorizer whose public key daemon goes on without delay, and whose updates take at most `U`, exactly the
keys `K` that the server of `e` has from `t` on are in use, later than the longer of a period and an update with its pause, and another update,
after `t`. -/
theorem C103_goroutine (cfg : SysCfg) (ce : Str) (now : Int) (on : LKind → Bool) (hon : on .pubkeyd = true) (y : RsExec cfg ce now on) (pace : PaceCfg)
    (env : Nat → Int → TFetch) (B : Nat) (c : Nat → TLoop) (hf : InitFirst y B) (h : PkInTime y pace env B c) (hp : 0 < pace.period)
    (hat : pace.atTick = false) (U : Nat) (hU : Takes U env) (N : Nat) (e : Env) (V : Str) (K : Str → Option SigVerifier)
    (hk : ServesKeys (pkExecOf y.sys) N e V K) (hans : Answers (pkExecOf y.sys) N e) (hv : Versioned (pkExecOf y.sys) e V K) (t : Int)
    (ht : pace.t0 ≤ t) (hN : ∀ n, t ≤ (y.state n).sys.auth.now → N ≤ n) (m : Nat)
    (hm : t + max pace.period (U + pace.delay.toNat) + U < (y.state m).sys.auth.now) (id : Str) : (y.state m).sys.pk.provider e id = K id := by
  obtain ⟨pick, call, done, hx⟩ := C103_paced cfg ce now on hon y pace env B c hf h hp hat _ m (InTimePkP.started h (by omega)) hm
  exact C103_in_use cfg now y.sys N e V K hk hans hv (C79_serial cfg ce now on y hon B hf e) t hN pace env pick U hp ht hU _ call done hx
    (Int.le_refl _) m hm id

/-- **C103**, of the goroutine: a call that begins when also the time in which calls store their results and the lifetime of cached results have passed
is granted only if a token with the same cache key is signed with a key that `K` gives for the key id it names (or is an access token). -/
theorem C103_goroutine_role (cfg : SysCfg) (ce : Str) (now : Int) (h0 : 0 ≤ now) (hexp : 0 < cfg.auth.cacheExp) (on : LKind → Bool)
    (hon : on .pubkeyd = true) (y : RsExec cfg ce now on) (pace : PaceCfg) (env : Nat → Int → TFetch) (B : Nat) (c : Nat → TLoop)
    (hf : InitFirst y B) (h : PkInTime y pace env B c) (hp : 0 < pace.period) (hat : pace.atTick = false) (U : Nat) (hU : Takes U env) (N : Nat)
    (V : Str) (K : Str → Option SigVerifier) (hk : ServesKeys (pkExecOf y.sys) N .zts V K) (hans : Answers (pkExecOf y.sys) N .zts)
    (hv : Versioned (pkExecOf y.sys) .zts V K) (t : Int) (ht : pace.t0 ≤ t) (hN : ∀ n, t ≤ (y.state n).sys.auth.now → N ≤ n) (m : Nat) (L : Nat)
    (hL : StoresWithin L (y.state m).sys.auth.log) (hbig : (y.state m).sys.auth.now + cfg.auth.cacheExp < 2 ^ 63) (i : Nat) (q : AReq) (p : Principal)
    (hlate : ∀ tb, .begun i tb ∈ (y.state m).sys.auth.log → t + max pace.period (U + pace.delay.toNat) + U + L + cfg.auth.cacheExp < tb)
    (hc : (y.state m).sys.auth.calls i = some ⟨q, .done (.ok p)⟩) :
    ∃ q', cacheKey cfg.auth q' = cacheKey cfg.auth q ∧ SignedBy cfg (fun id ver => K id = some ver) (fun _ _ _ => True) q' := by
  obtain ⟨tb, hb, hb'⟩ := PacedP.begun_of_call (SysExec.run y.sys m) hc
  have hl := hlate tb hb
  have hb' : tb ≤ (y.state m).sys.auth.now := hb'
  have hm : t + max pace.period (U + pace.delay.toNat) + U < (y.state m).sys.auth.now := by omega
  obtain ⟨pick, call, done, hx⟩ := C103_paced cfg ce now on hon y pace env B c hf h hp hat _ m (InTimePkP.started h (by omega)) hm
  exact C103_role cfg now h0 hexp y.sys N V K hk hans hv (C79_serial cfg ce now on y hon B hf .zts) t hN pace env pick U hp ht hU _ call done hx
    (Int.le_refl _) m L hL hbig i q p hlate hc

end Athenz
