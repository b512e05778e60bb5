import Verif.Spec.InTimeJwk
import Verif.Props.InTime
import Verif.Props.PacedJwk
import Verif.Props.Running

/-! # C102, from the goroutine: its updates come when the model of times says -/

namespace Athenz
open Spec

namespace PromptP

variable {ce : Str} {pace : PaceCfg} {env : Nat → Int → TFetch} {B : Nat} {c : Nat → TLoop} {kd : LKind}

open InTimeP (busy tl_cases)

/-- The calls of a step. -/
theorem grows (h : Prompt kd ce pace env B c) {n : Nat} (hn : B ≤ n) :
    (∃ trig, (c n).l.pc = .select ∧ busy (c (n + 1)).l ∧ (c (n + 1)).calls = (c n).calls ++ [(trig, (c n).now)]) ∨
    ((c (n + 1)).calls = (c n).calls ∧ ((busy (c n).l ↔ busy (c (n + 1)).l) ∨
      (busy (c n).l ∧ ¬ busy (c (n + 1)).l ∧ (c n).now = (c n).since + ((c n).upd env).dur ∧ (c (n + 1)).now = (c n).now))) := by
  rcases h.step n hn with he | hs
  · rw [he]; exact .inr ⟨rfl, .inl Iff.rfl⟩
  · rcases tl_cases hs with ⟨trig, h1, h2, h3, _⟩ | h
    · exact .inl ⟨trig, h1, h2, h3⟩
    · exact .inr h

theorem len_mono (h : Prompt kd ce pace env B c) {n m : Nat} (hn : B ≤ n) (hm : n ≤ m) : (c n).calls.length ≤ (c m).calls.length := by
  induction hm with
  | refl => omega
  | step hle ih =>
    rename_i m
    rcases grows h (show B ≤ m by have : n ≤ m := hle; omega) with ⟨_, _, _, h3⟩ | ⟨h3, _⟩ <;> rw [h3]
    · simp; omega
    · exact ih

/-- One choice for all times. -/
theorem inv (hp : 0 < pace.period) (hk : pace.atTick = decide (kd = .jwkd)) (h : Prompt kd ce pace env B c) (N : Nat) (hN : B ≤ N) :
    ∃ pick, ∀ n, B ≤ n → n ≤ N → LoopTimeP.Inv kd pace env pick (c n) := by
  induction hN with
  | refl =>
    refine ⟨fun _ => false, fun n h1 h2 => ?_⟩
    have : n = B := by omega
    rw [this, h.init]
    exact LoopTimeP.init_inv hp _
  | step hle ih =>
    rename_i N
    have hle : B ≤ N := hle
    obtain ⟨pick, ih⟩ := ih
    rcases h.step N hle with he | hs
    · refine ⟨pick, fun n h1 h2 => ?_⟩
      by_cases hn : n ≤ N
      · exact ih n h1 hn
      · have : n = N + 1 := by omega
        rw [this, he]
        exact ih N hle (Nat.le_refl N)
    · obtain ⟨pick', hi, hsame⟩ := LoopTimeP.step_inv hp hk hs (ih N hle (Nat.le_refl N))
      refine ⟨pick', fun n h1 h2 => ?_⟩
      by_cases hn : n ≤ N
      · have := len_mono h h1 hn
        exact LoopTimeP.inv_congr (ih n h1 hn) fun i hi => hsame i (by omega)
      · have : n = N + 1 := by omega
        rw [this]
        exact hi

/-- The step of call number `k`. -/
theorem crossing (h : Prompt kd ce pace env B c) (k N : Nat) (hN : B ≤ N) (hk : k < (c N).calls.length) :
    ∃ n, B ≤ n ∧ n < N ∧ (c n).calls.length = k ∧ (c (n + 1)).calls.length = k + 1 := by
  induction hN with
  | refl => rw [h.init] at hk; simp [tlInit] at hk
  | step hle ih =>
    rename_i N
    have hle : B ≤ N := hle
    by_cases hk' : k < (c N).calls.length
    · obtain ⟨n, h1, h2, h3⟩ := ih hk'
      exact ⟨n, h1, by omega, h3⟩
    · refine ⟨N, hle, by omega, ?_⟩
      rcases grows h hle with ⟨_, _, _, h3⟩ | ⟨h3, _⟩
      · rw [h3] at hk ⊢
        simp at hk ⊢
        omega
      · rw [h3] at hk; omega

/-- The update ends. -/
theorem ending (h : Prompt kd ce pace env B c) {n : Nat} (hn : B ≤ n) (k : Nat) (hk : (c (n + 1)).calls.length = k + 1) (hb : busy (c (n + 1)).l) (N : Nat)
    (hN : n < N) (hq : (c N).calls.length = k + 1 → ¬ busy (c N).l) :
    ∃ m, n < m ∧ m < N ∧ (c m).calls.length = k + 1 ∧ busy (c m).l ∧ (c (m + 1)).calls.length = k + 1 ∧ ¬ busy (c (m + 1)).l ∧
      (c m).now = (c m).since + ((c m).upd env).dur ∧ (c (m + 1)).now = (c m).now := by
  have key : ∀ d, ((c (n + 1 + d)).calls.length = k + 1 ∧ busy (c (n + 1 + d)).l) ∨
      ∃ m, n < m ∧ m < n + 1 + d ∧ (c m).calls.length = k + 1 ∧ busy (c m).l ∧ (c (m + 1)).calls.length = k + 1 ∧ ¬ busy (c (m + 1)).l ∧
        (c m).now = (c m).since + ((c m).upd env).dur ∧ (c (m + 1)).now = (c m).now := by
    intro d
    induction d with
    | zero => exact .inl ⟨hk, hb⟩
    | succ d ih =>
      rcases ih with ⟨h1, h2⟩ | ⟨m, g1, g2, g3⟩
      · rw [show n + 1 + (d + 1) = n + 1 + d + 1 by omega]
        rcases grows h (show B ≤ n + 1 + d by omega) with ⟨_, hs, _, _⟩ | ⟨hcs, hb' | ⟨_, hnb, ht, ht'⟩⟩
        · obtain ⟨r, h2⟩ := h2
          rw [h2] at hs
          cases hs
        · exact .inl ⟨by rw [hcs]; exact h1, hb'.mp h2⟩
        · exact .inr ⟨n + 1 + d, by omega, by omega, h1, h2, by rw [hcs]; exact h1, hnb, ht, ht'⟩
      · exact .inr ⟨m, g1, by omega, g3⟩
  obtain ⟨d, rfl⟩ := Nat.exists_eq_add_of_le (show n + 1 ≤ N by omega)
  rcases key d with ⟨h1, h2⟩ | h
  · exact absurd h2 (hq h1)
  · exact h

/-- The calls of a goroutine that goes on without delay, until a time `T` that is reached. -/
theorem schedule (hp : 0 < pace.period) (hkd : pace.atTick = decide (kd = .jwkd)) (h : Prompt kd ce pace env B c) (T : Int) (N : Nat) (hBN : B ≤ N)
    (hNT : T < (c N).now) :
    ∃ (pick : Nat → Bool) (call done : Nat → Nat), (∀ k : Nat, B ≤ call k) ∧
      (∀ k : Nat, (paceUpd pace env pick k).start ≤ T → call k < N ∧ (c (call k)).l.pc = .select ∧ busy (c (call k + 1)).l ∧
        (c (call k)).now = (paceUpd pace env pick k).start) ∧
      (∀ k : Nat, stops (paceUpd pace env pick k) ≤ T → call k < done k ∧ done k ≤ N ∧ ¬ busy (c (done k)).l ∧
        (c (done k)).now = stops (paceUpd pace env pick k)) ∧
      (∀ k : Nat, (paceUpd pace env pick (k + 1)).start ≤ T → done k ≤ call (k + 1)) ∧
      ∀ n, B ≤ n → n < N → (c n).l.pc = .select → busy (c (n + 1)).l → ∃ k : Nat, (paceUpd pace env pick k).start = (c n).now ∧ n = call k := by
  obtain ⟨pick, hinv⟩ := inv hp hkd h N hBN
  have made : ∀ k, (paceUpd pace env pick k).start ≤ T → k < (c N).calls.length := by
    intro k hk
    refine Classical.byContradiction fun hlt => ?_
    have h1 := LoopTimeP.inv_next hp hkd (hinv N hBN (Nat.le_refl N))
    have h2 := PaceP.start_mono (cfg := pace) (env := env) (pick := pick) hp (show (c N).calls.length ≤ k by omega)
    omega
  have hcall : ∀ k, ∃ n, B ≤ n ∧ (k < (c N).calls.length → n < N ∧ (c n).calls.length = k ∧ (c (n + 1)).calls.length = k + 1) := by
    intro k
    by_cases hk : k < (c N).calls.length
    · obtain ⟨n, h1, h2⟩ := crossing h k N hBN hk
      exact ⟨n, h1, fun _ => h2⟩
    · exact ⟨N, hBN, fun hk' => absurd hk' hk⟩
  obtain ⟨call, hcall⟩ := Classical.axiomOfChoice hcall
  have at_call : ∀ k, k < (c N).calls.length → (c (call k)).l.pc = .select ∧ busy (c (call k + 1)).l ∧
      (c (call k)).now = (paceUpd pace env pick k).start := by
    intro k hk
    obtain ⟨hB, hc⟩ := hcall k
    obtain ⟨h1, h2, h3⟩ := hc hk
    rcases grows h hB with ⟨trig, g1, g2, g3⟩ | ⟨g3, _⟩
    · refine ⟨g1, g2, ?_⟩
      have hi := (hinv (call k + 1) (by omega) (by omega)).calls
      have e1 : (c (call k + 1)).calls[k]? = some (trig, (c (call k)).now) := by
        rw [g3, List.getElem?_append_right (by omega)]; simp [h2]
      rw [hi, h3] at e1
      simp at e1
      exact e1.2.symm
    · rw [g3] at h3; omega
  have hdone : ∀ k, ∃ m, stops (paceUpd pace env pick k) ≤ T → call k < m ∧ m ≤ N ∧ ¬ busy (c m).l ∧ (c m).calls.length = k + 1 ∧
      (c m).now = stops (paceUpd pace env pick k) := by
    intro k
    by_cases hT : stops (paceUpd pace env pick k) ≤ T
    · have hk : k < (c N).calls.length := made k (by unfold stops at hT; omega)
      obtain ⟨hB, hc⟩ := hcall k
      obtain ⟨h1, h2, h3⟩ := hc hk
      obtain ⟨_, a2, a3⟩ := at_call k hk
      obtain ⟨m, g1, g2, g3, g4, g5, g6, g7, g8⟩ := ending h hB k h3 a2 N h1 (by
        intro hlen hb
        obtain ⟨r, hb⟩ := hb
        rcases (hinv N hBN (Nat.le_refl N)).pc with ⟨hs, _⟩ | ⟨_, m, hm, _, hd⟩
        · rw [hs] at hb; cases hb
        · have : m = k := by omega
          subst this
          rw [hb] at hd
          have := hd.2.2
          omega)
      refine ⟨m + 1, fun _ => ⟨by omega, by omega, g6, g5, ?_⟩⟩
      obtain ⟨r, hb⟩ := g4
      rcases (hinv m (by omega) (by omega)).pc with ⟨hs, _⟩ | ⟨_, m', hm, _, hd⟩
      · rw [hs] at hb; cases hb
      · have : m' = k := by omega
        subst this
        rw [hb] at hd
        have e := (PaceP.dur_eq (cfg := pace) (env := env) (pick := pick) m').1
        rw [g8, g7]
        unfold stops TLoop.upd
        rw [e, hm, hd.2.1, Nat.add_sub_cancel]
    · exact ⟨0, fun h => absurd h hT⟩
  obtain ⟨done, hdone⟩ := Classical.axiomOfChoice hdone
  have first : ∀ n, B ≤ n → (c n).calls.length < (c (n + 1)).calls.length → n < N → n = call (c n).calls.length := by
    intro n hBn hlt hnN
    have hk : (c n).calls.length < (c N).calls.length := by
      have := len_mono h (show B ≤ n + 1 by omega) (show n + 1 ≤ N by omega)
      omega
    obtain ⟨hB, hc⟩ := hcall (c n).calls.length
    obtain ⟨_, h2, h3⟩ := hc hk
    rcases Nat.lt_trichotomy n (call (c n).calls.length) with g | g | g
    · have := len_mono h (show B ≤ n + 1 by omega) (show n + 1 ≤ call (c n).calls.length by omega)
      omega
    · exact g
    · have := len_mono h (show B ≤ call (c n).calls.length + 1 by omega) (show call (c n).calls.length + 1 ≤ n by omega)
      omega
  refine ⟨pick, call, done, fun k => (hcall k).1, ?_, ?_, ?_, ?_⟩
  · intro k hk
    obtain ⟨a1, a2, a3⟩ := at_call k (made k hk)
    exact ⟨((hcall k).2 (made k hk)).1, a1, a2, a3⟩
  · intro k hk
    obtain ⟨d1, d2, d3, _, d5⟩ := hdone k hk
    exact ⟨d1, d2, d3, d5⟩
  · intro k hk
    have hk' := made (k + 1) hk
    have hg := (PaceP.gap (cfg := pace) (env := env) (pick := pick) hp k).1
    obtain ⟨d1, d2, d3, d4, d5⟩ := hdone k (by omega)
    obtain ⟨hB, hc⟩ := hcall (k + 1)
    obtain ⟨_, h2, h3⟩ := hc hk'
    refine Classical.byContradiction fun hlt => ?_
    have := len_mono h (show B ≤ call (k + 1) + 1 by omega) (show call (k + 1) + 1 ≤ done k by omega)
    omega
  · intro n hBn hnN c1 c2
    rcases grows h hBn with ⟨trig, g1, g2, g3⟩ | ⟨_, hb | ⟨⟨r, hb⟩, _⟩⟩
    · have hlt : (c n).calls.length < (c (n + 1)).calls.length := by rw [g3]; simp
      have e := first n hBn hlt hnN
      refine ⟨(c n).calls.length, ?_, e⟩
      have hk : (c n).calls.length < (c N).calls.length := by
        have := len_mono h (show B ≤ n + 1 by omega) (show n + 1 ≤ N by omega)
        omega
      have := (at_call _ hk).2.2
      rw [← e] at this
      exact this.symm
    · obtain ⟨r, hr⟩ := hb.mpr c2
      rw [c1] at hr; cases hr
    · rw [c1] at hb; cases hb

end PromptP

namespace InTimeJwkP

open InTimeP (busy)

variable {cfg : SysCfg} {ce : Str} {now : Int} {on : LKind → Bool}

/-- Where the goroutine comes into `Update`, it calls it. -/
theorem act_call (y : RsExec cfg ce now on) (hon : on .jwkd = true) {n : Nat} (h1 : (y.loop .jwkd n).pc = .select) (h2 : busy (y.loop .jwkd (n + 1))) :
    ∃ r fetch, y.act n = .call .jwkd r fetch := by
  obtain ⟨_, _, he⟩ := rs_loop y hon n
  obtain ⟨r, h2⟩ := h2
  generalize y.loop .jwkd (n + 1) = c' at he h2
  generalize y.loop .jwkd n = c at he h1
  generalize y.act n = a at he
  generalize y.state (n + 1) = s' at he
  have own : ∀ a, a.own = true → lStep .jwkd ce c a = some c' → False := by
    intro a ho hl
    have := lStep_effect hl
    cases this <;> simp_all [LAct.own]
  cases he with
  | idle a g1 g2 g0 g3 g4 => subst g3; rw [h1] at h2; cases h2
  | own a g1 g2 g3 g4 g5 => exact (own a g1 g4).elim
  | cancel g1 g2 => exact (own _ rfl g1).elim
  | take g1 g2 => exact (own _ rfl g1).elim
  | closed g1 g3 g4 => subst g3; rw [h1] at h2; cases h2
  | call retry fetch g1 g2 => exact ⟨retry, fetch, rfl⟩
  | ret e i ok g1 g2 g3 g4 => cases ok <;> simp [lStep, h1] at g3

/-- Where it calls `Update`, it comes from its select. -/
theorem call_act (y : RsExec cfg ce now on) (hon : on .jwkd = true) {n : Nat} {r : Bool} {fetch : List (Option PolicyDoc)}
    (h : y.act n = .call .jwkd r fetch) : (y.loop .jwkd n).pc = .select ∧ busy (y.loop .jwkd (n + 1)) ∧
      (y.state (n + 1)).cur .jwkd = some (y.state n).sys.jwk.jobs.length := by
  obtain ⟨hc, _, _⟩ := rs_loop y hon n
  obtain ⟨hc', _, _⟩ := rs_loop y hon (n + 1)
  have he := (rs_loop y hon n).2.2
  rw [h] at he
  generalize y.loop .jwkd (n + 1) = c' at he
  generalize y.state (n + 1) = s' at he
  cases he with
  | idle a g1 g2 g0 g3 g4 => exact absurd rfl g1
  | call retry fetch g1 g2 =>
    obtain ⟨k1, k2, _⟩ := lStep_sel g1
    exact ⟨k1, ⟨_, k2⟩, g2⟩

/-- As long as it has not returned, the goroutine is in this call. -/
theorem call_held (y : RsExec cfg ce now on) (hon : on .jwkd = true) {n : Nat} {r : Bool} {fetch : List (Option PolicyDoc)}
    (hn : y.act n = .call .jwkd r fetch) (d : Nat) :
    (y.state (n + 1 + d)).cur .jwkd = some (y.state n).sys.jwk.jobs.length ∨ JwkReturned y.sys n (y.state (n + 1 + d)).sys := by
  induction d with
  | zero => exact .inl (call_act y hon hn).2.2
  | succ d ih =>
    rw [show n + 1 + (d + 1) = n + 1 + d + 1 by omega]
    have hst : JwkReturned y.sys n (y.state (n + 1 + d)).sys → JwkReturned y.sys n (y.state (n + 1 + d + 1)).sys := by
      rintro ⟨b, e, h1, h2⟩
      exact ⟨b, e, jwk_nil_from (jwkExecOf y.sys) h1 (PacedJwkP.result_nil h2) (Nat.le_succ _), h2⟩
    rcases ih with hc | hr
    · obtain ⟨_, hinv, he⟩ := rs_loop y hon (n + 1 + d)
      obtain ⟨r0, hpc⟩ := hinv.cur _ hc
      revert he hst
      generalize y.act (n + 1 + d) = a
      generalize y.loop .jwkd (n + 1 + d + 1) = c'
      generalize y.state (n + 1 + d + 1) = s'
      intro hst he
      cases he with
      | idle a g1 g2 g0 g3 g4 => exact .inl (g4.trans hc)
      | own a g1 g2 g3 g4 g5 => exact .inl (g5.trans hc)
      | cancel g1 g2 => exact .inl (g2.trans hc)
      | take g1 g2 => exact .inl (g2.trans hc)
      | closed g1 g3 g4 => exact .inl (g4.trans hc)
      | call retry fetch g1 g2 =>
        rw [(lStep_sel g1).1] at hpc
        cases hpc
      | ret e i ok g1 g2 g3 g4 =>
        rw [hc] at g1
        obtain rfl := Option.some.inj g1
        right
        refine hst ?_
        simp only [Sys.updateRet, Option.map_eq_some_iff, Option.bind_eq_some_iff] at g2
        obtain ⟨e', ⟨b, hb, hbr⟩, _⟩ := g2
        exact ⟨b, e', hb, hbr⟩
    · exact .inr (hst hr)

theorem returned (y : RsExec cfg ce now on) (hon : on .jwkd = true) {n m : Nat} {r : Bool} {fetch : List (Option PolicyDoc)}
    (hn : y.act n = .call .jwkd r fetch) (hm : n < m) (hq : ¬ busy (y.loop .jwkd m)) : JwkReturned y.sys n (y.state m).sys := by
  obtain ⟨d, rfl⟩ := Nat.exists_eq_add_of_le (show n + 1 ≤ m by omega)
  rcases call_held y hon hn d with hc | h
  · exact absurd ((rs_loop y hon (n + 1 + d)).2.1.cur _ hc) hq
  · exact h

end InTimeJwkP

/-- **C102**, the hypothesis about the updates: if the goroutine of the JWK daemon goes on without delay, then until every time `T` that is reached its
updates are called and return at the times of the model of times, for some choice where a retry and a tick are both ready. -/
theorem C102_paced (cfg : SysCfg) (ce : Str) (now : Int) (on : LKind → Bool) (hon : on .jwkd = true) (y : RsExec cfg ce now on) (pace : PaceCfg)
    (env : Nat → Int → TFetch) (B : Nat) (c : Nat → TLoop) (h : JwkInTime y pace env B c) (hp : 0 < pace.period) (hat : pace.atTick = true) (T : Int)
    (N : Nat) (hBN : B ≤ N) (hN : T < (y.state N).sys.auth.now) :
    ∃ pick call done, JwkPacedUntil y.sys (paceUpd pace env pick) T call done := by
  obtain ⟨pick, call, done, hB, hcall, hdone, hnext, honly⟩ := PromptP.schedule hp (by simp [hat]) h.prompt T N hBN (by rw [h.clock N hBN]; exact hN)
  have hloop : ∀ n, B ≤ n → (c n).l = y.loop .jwkd n := by
    intro n hn
    have h1 := (rs_loop y hon n).1
    rw [h.loop n hn] at h1
    exact Option.some.inj h1
  have at_call : ∀ k, (paceUpd pace env pick k).start ≤ T → ∃ r f, y.act (call k) = .call .jwkd r f := by
    intro k hk
    obtain ⟨_, a1, a2, _⟩ := hcall k hk
    rw [hloop _ (hB k)] at a1
    rw [hloop _ (Nat.le_succ_of_le (hB k))] at a2
    exact InTimeJwkP.act_call y hon a1 a2
  refine ⟨pick, call, done, fun k hk => Nat.le_of_lt (hdone k hk).1, hnext, ?_, ?_, ?_⟩
  · intro k hk
    obtain ⟨r, f, ha⟩ := at_call k hk
    refine ⟨by show (y.act (call k)).proj = _; rw [ha]; rfl, ?_⟩
    rw [← (hcall k hk).2.2.2, h.clock _ (hB k)]
    rfl
  · intro k hk
    obtain ⟨d1, d2, d3, d5⟩ := hdone k hk
    have := hB k
    obtain ⟨r, f, ha⟩ := at_call k (by unfold stops at hk; omega)
    refine ⟨?_, ?_⟩
    · rw [← d5, h.clock _ (by omega)]; rfl
    · rw [hloop _ (by omega)] at d3
      exact InTimeJwkP.returned y hon ha d1 d3
  · intro n ha hn
    have ha' : (y.act n).proj = .jwk .update := ha
    cases hact : y.act n with
    | sys a =>
      rw [hact] at ha'
      have : a = .jwk .update := ha'
      rw [this] at hact
      obtain ⟨_, b, e, hb, he⟩ := h.others n hact
      exact .inr ⟨b, e, jwk_nil_from (jwkExecOf y.sys) hb (PacedJwkP.result_nil he) (hB 0), he⟩
    | fwd a => rw [hact] at ha'; cases ha'
    | ret k e => rw [hact] at ha'; cases ha'
    | call k r f =>
      rw [hact] at ha'
      cases k with
      | policyd => cases ha'
      | pubkeyd => cases ha'
      | jwkd =>
        left
        have hBn : B ≤ n := by
          refine Classical.byContradiction fun hlt => ?_
          exact h.before n r f (by omega) hact
        have hn' : (y.sys.state n).auth.now ≤ T := hn
        have hnN : n < N := by
          refine Classical.byContradiction fun hge => ?_
          have := PacedP.now_mono y.sys (show N ≤ n by omega)
          have hN' : T < (y.sys.state N).auth.now := hN
          omega
        obtain ⟨c1, c2, _⟩ := InTimeJwkP.call_act y hon hact
        rw [← hloop n hBn] at c1
        rw [← hloop (n + 1) (by omega)] at c2
        obtain ⟨k, hk, e⟩ := honly n hBn hnN c1 c2
        refine ⟨k, ?_, e⟩
        rw [hk, h.clock n hBn]
        exact hn

theorem InTimeJwkP.started {cfg : SysCfg} {ce : Str} {now : Int} {on : LKind → Bool} {y : RsExec cfg ce now on} {pace : PaceCfg}
    {env : Nat → Int → TFetch} {B : Nat} {c : Nat → TLoop} (h : JwkInTime y pace env B c) {m : Nat} (hm : pace.t0 < (y.state m).sys.auth.now) : B ≤ m := by
  have hB := h.clock B (Nat.le_refl B)
  rw [h.prompt.init] at hB
  refine PacedP.later (x := y.sys) ?_
  show (y.state B).sys.auth.now < (y.state m).sys.auth.now
  rw [← hB]
  exact hm

/-- **C102**, of the goroutine: in a started authorizer whose JWK daemon goes on without delay, and whose updates take at most `U`, exactly the keys of
the sets that the servers give from `t` on are in use, later than the longer of a period and an update with its pause, and another update, after
`t`. -/
theorem C102_goroutine (cfg : SysCfg) (ce : Str) (now : Int) (on : LKind → Bool) (hon : on .jwkd = true) (y : RsExec cfg ce now on) (pace : PaceCfg)
    (env : Nat → Int → TFetch) (B : Nat) (c : Nat → TLoop) (h : JwkInTime y pace env B c) (hp : 0 < pace.period) (hat : pace.atTick = true)
    (U : Nat) (hU : Takes U env) (N : Nat) (S : Str → JwkSet) (hg : ∀ url, ConfiguredURL cfg.jwk url → GivesSet y.sys N url (S url)) (t : Int)
    (ht : pace.t0 ≤ t) (hN : ∀ n, t ≤ (y.state n).sys.auth.now → N ≤ n) (m : Nat)
    (hm : t + max pace.period (U + pace.delay.toNat) + U < (y.state m).sys.auth.now) (kid jku : Str) (key : JKey) :
    getKey cfg.jwk (y.state m).sys.jwk kid jku = some key ↔
      kid ≠ [] ∧ ConfiguredURL cfg.jwk (lookupURL cfg.jwk jku) ∧ KeyIn (S (lookupURL cfg.jwk jku)) kid key := by
  obtain ⟨pick, call, done, hx⟩ := C102_paced cfg ce now on hon y pace env B c h hp hat _ m (InTimeJwkP.started h (by omega)) hm
  exact C102_in_use cfg now y.sys N S hg t hN pace env pick U hp ht hU _ call done hx (Int.le_refl _) m hm kid jku key

/-- **C102**, of the goroutine: a call that begins when also the time in which calls store their results and the lifetime of cached results have passed
is granted only if a token with the same cache key is signed with a key of the sets `S` (or is a role token). -/
theorem C102_goroutine_access (cfg : SysCfg) (ce : Str) (now : Int) (h0 : 0 ≤ now) (hexp : 0 < cfg.auth.cacheExp) (on : LKind → Bool)
    (hon : on .jwkd = true) (y : RsExec cfg ce now on) (pace : PaceCfg) (env : Nat → Int → TFetch) (B : Nat) (c : Nat → TLoop)
    (h : JwkInTime y pace env B c) (hp : 0 < pace.period) (hat : pace.atTick = true) (U : Nat) (hU : Takes U env) (N : Nat) (S : Str → JwkSet)
    (hg : ∀ url, ConfiguredURL cfg.jwk url → GivesSet y.sys N url (S url)) (t : Int) (ht : pace.t0 ≤ t)
    (hN : ∀ n, t ≤ (y.state n).sys.auth.now → N ≤ n) (m : Nat) (L : Nat) (hL : StoresWithin L (y.state m).sys.auth.log)
    (hbig : (y.state m).sys.auth.now + cfg.auth.cacheExp < 2 ^ 63) (i : Nat) (q : AReq) (p : Principal)
    (hlate : ∀ tb, .begun i tb ∈ (y.state m).sys.auth.log → t + max pace.period (U + pace.delay.toNat) + U + L + cfg.auth.cacheExp < tb)
    (hc : (y.state m).sys.auth.calls i = some ⟨q, .done (.ok p)⟩) :
    ∃ q', cacheKey cfg.auth q' = cacheKey cfg.auth q ∧
      SignedBy cfg (fun _ _ => True) (fun url kid k => ConfiguredURL cfg.jwk url ∧ KeyIn (S url) kid k) q' := by
  obtain ⟨tb, hb, hb'⟩ := PacedP.begun_of_call (SysExec.run y.sys m) hc
  have hl := hlate tb hb
  have hb' : tb ≤ (y.state m).sys.auth.now := hb'
  have hm : t + max pace.period (U + pace.delay.toNat) + U < (y.state m).sys.auth.now := by omega
  obtain ⟨pick, call, done, hx⟩ := C102_paced cfg ce now on hon y pace env B c h hp hat _ m (InTimeJwkP.started h (by omega)) hm
  exact C102_access cfg now h0 hexp y.sys N S hg t hN pace env pick U hp ht hU _ call done hx (Int.le_refl _) m L hL hbig i q p hlate hc

end Athenz
