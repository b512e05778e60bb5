import Verif.Spec.InTime
import Verif.Props.LoopTime
import Verif.Props.SystemLoop
import Verif.Props.PacedRequests

/-! # C101, from the goroutine: its updates come when the model of times says -/

namespace Athenz
open Spec

namespace InTimeP

variable {cfg : SysCfg} {ce : Str} {now : Int} {y : LsExec cfg ce now} {pace : PaceCfg} {env : Nat → Int → TFetch} {B : Nat} {c : Nat → TLoop}

/-- In `Update`. -/
def busy (s : LState) : Prop := ∃ r, s.pc = .updating r

/-- What a step in time does. -/
theorem tl_cases {k : LKind} {s s' : TLoop} (h : TlStep k ce pace env s s') :
    (∃ trig, s.l.pc = .select ∧ busy s'.l ∧ s'.calls = s.calls ++ [(trig, s.now)] ∧ s'.now = s.now) ∨
    (s'.calls = s.calls ∧ ((busy s.l ↔ busy s'.l) ∨ (busy s.l ∧ ¬ busy s'.l ∧ s.now = s.since + (s.upd env).dur ∧ s'.now = s.now))) := by
  cases h with
  | pass d _ _ _ => exact .inr ⟨rfl, .inl Iff.rfl⟩
  | tick l _ hl =>
    have := lStep_effect hl
    cases this
    exact .inr ⟨rfl, .inl Iff.rfl⟩
  | recv l hl =>
    have := lStep_effect hl
    cases this
    exact .inr ⟨rfl, .inl Iff.rfl⟩
  | call trig l _ hl =>
    left
    refine ⟨trig, ?_⟩
    cases trig with
    | retry =>
      have := lStep_effect (a := .selRetry) hl
      cases this with
      | selRetry h1 h2 => exact ⟨h1, ⟨_, rfl⟩, rfl, rfl⟩
    | tick =>
      have := lStep_effect (a := .selTick) hl
      cases this with
      | selTick h1 h2 => exact ⟨h1, ⟨_, rfl⟩, rfl, rfl⟩
  | ret e l _ hend hl =>
    refine .inr ⟨rfl, .inr ?_⟩
    cases hok : (s.upd env).ok with
    | true =>
      rw [hok] at hl
      have := lStep_effect (a := .updOk) hl
      cases this with
      | updOk r h1 => exact ⟨⟨r, h1⟩, fun ⟨_, h⟩ => by simp at h, hend, rfl⟩
    | false =>
      rw [hok] at hl
      have := lStep_effect (a := .updFail e) hl
      cases this with
      | failJwk r _ h1 => exact ⟨⟨r, h1⟩, fun ⟨_, h⟩ => by simp at h, hend, rfl⟩
      | fail r _ h1 => exact ⟨⟨r, h1⟩, fun ⟨_, h⟩ => by simp at h, hend, rfl⟩
  | send l _ hl =>
    refine .inr ⟨rfl, .inl ?_⟩
    have := lStep_effect hl
    generalize hlst : s.l = ls at this
    cases this <;> simp_all [busy]
  | wake l _ _ hl =>
    refine .inr ⟨rfl, .inl ?_⟩
    have := lStep_effect hl
    generalize hlst : s.l = ls at this
    cases this <;> simp_all [busy]
  | offer l _ hl =>
    refine .inr ⟨rfl, .inl ?_⟩
    have := lStep_effect hl
    generalize hlst : s.l = ls at this
    cases this
    simp_all [busy]

/-- The calls of a step. -/
theorem grows (h : InTime y pace env B c) {n : Nat} (hn : B ≤ n) :
    (∃ trig, (c n).l.pc = .select ∧ busy (c (n + 1)).l ∧ (c (n + 1)).calls = (c n).calls ++ [(trig, (c n).now)]) ∨
    ((c (n + 1)).calls = (c n).calls ∧ ((busy (c n).l ↔ busy (c (n + 1)).l) ∨
      (busy (c n).l ∧ ¬ busy (c (n + 1)).l ∧ (c n).now = (c n).since + ((c n).upd env).dur ∧ (c (n + 1)).now = (c n).now))) := by
  rcases h.step n hn with he | hs
  · rw [he]; exact .inr ⟨rfl, .inl Iff.rfl⟩
  · rcases tl_cases hs with ⟨trig, h1, h2, h3, _⟩ | h
    · exact .inl ⟨trig, h1, h2, h3⟩
    · exact .inr h

theorem len_mono (h : InTime y pace env B c) {n m : Nat} (hn : B ≤ n) (hm : n ≤ m) : (c n).calls.length ≤ (c m).calls.length := by
  induction hm with
  | refl => omega
  | step hle ih =>
    rename_i m
    rcases grows h (show B ≤ m by have : n ≤ m := hle; omega) with ⟨_, _, _, h3⟩ | ⟨h3, _⟩ <;> rw [h3]
    · simp; omega
    · exact ih

/-- One choice for all times. -/
theorem inv (hp : 0 < pace.period) (hat : pace.atTick = false) (h : InTime y pace env B c) (N : Nat) (hN : B ≤ N) :
    ∃ pick, ∀ n, B ≤ n → n ≤ N → LoopTimeP.Inv .policyd pace env pick (c n) := by
  induction hN with
  | refl =>
    refine ⟨fun _ => false, fun n h1 h2 => ?_⟩
    have : n = B := by omega
    rw [this, h.init]
    exact LoopTimeP.init_inv hp _
  | step hle ih =>
    rename_i N
    have hle : B ≤ N := hle
    obtain ⟨pick, ih⟩ := ih
    rcases h.step N hle with he | hs
    · refine ⟨pick, fun n h1 h2 => ?_⟩
      by_cases hn : n ≤ N
      · exact ih n h1 hn
      · have : n = N + 1 := by omega
        rw [this, he]
        exact ih N hle (Nat.le_refl N)
    · obtain ⟨pick', hi, hsame⟩ := LoopTimeP.step_inv hp (by simp [hat]) hs (ih N hle (Nat.le_refl N))
      refine ⟨pick', fun n h1 h2 => ?_⟩
      by_cases hn : n ≤ N
      · have := len_mono h h1 hn
        exact LoopTimeP.inv_congr (ih n h1 hn) fun i hi => hsame i (by omega)
      · have : n = N + 1 := by omega
        rw [this]
        exact hi

/-- Where the goroutine comes into `Update`, it calls it. -/
theorem act_call (y : LsExec cfg ce now) {n : Nat} (h1 : (y.state n).loop.pc = .select) (h2 : busy (y.state (n + 1)).loop) :
    ∃ r fetch, y.act n = .call r fetch := by
  have he := lsStep_effect (y.next n)
  generalize y.act n = a at he
  generalize y.state (n + 1) = s' at he h2
  obtain ⟨r, h2⟩ := h2
  cases he with
  | sys a sys' => simp only [h1] at h2; cases h2
  | loop a l ho hl =>
    have := lStep_effect hl
    generalize hlst : (y.state n).loop = ls at this h1
    cases this <;> simp_all [LAct.own]
  | call r f l sys' hl => exact ⟨r, f, rfl⟩
  | ret e i t ok l hi ht hr hl =>
    cases ok <;> simp [lStep, h1] at hl

/-- Where it calls `Update`, it comes from its select. -/
theorem call_act (y : LsExec cfg ce now) {n : Nat} {r : Bool} {fetch : List (Option PolicyDoc)} (h : y.act n = .call r fetch) :
    (y.state n).loop.pc = .select ∧ busy (y.state (n + 1)).loop ∧ (y.state (n + 1)).cur = some (y.state n).sys.pd.tasks.length := by
  have he := lsStep_effect (y.next n)
  rw [h] at he
  generalize y.state (n + 1) = s' at he
  cases he with
  | call _ _ l sys' hl =>
    cases r with
    | true =>
      have := lStep_effect (a := .selRetry) hl
      cases this with
      | selRetry h1 h2 => exact ⟨h1, ⟨_, rfl⟩, rfl⟩
    | false =>
      have := lStep_effect (a := .selTick) hl
      cases this with
      | selTick h1 h2 => exact ⟨h1, ⟨_, rfl⟩, rfl⟩

/-- As long as it has not returned, the goroutine is in this call. -/
theorem call_held (y : LsExec cfg ce now) {n : Nat} {r : Bool} {fetch : List (Option PolicyDoc)} (hn : y.act n = .call r fetch) (d : Nat) :
    (y.state (n + 1 + d)).cur = some (y.state n).sys.pd.tasks.length ∨
      ∃ t, (y.state (n + 1 + d)).sys.pd.tasks[(y.state n).sys.pd.tasks.length]? = some t ∧ t.ret ≠ none := by
  induction d with
  | zero => exact .inl (call_act y hn).2.2
  | succ d ih =>
    rw [show n + 1 + (d + 1) = n + 1 + d + 1 by omega]
    have hst : ∀ (i : Nat) (t : Task), (y.state (n + 1 + d)).sys.pd.tasks[i]? = some t → t.ret ≠ none →
        ∃ t', (y.state (n + 1 + d + 1)).sys.pd.tasks[i]? = some t' ∧ t'.ret ≠ none := by
      intro i t ht hr
      obtain ⟨t', h1, _, _, h2⟩ := sysStep_task (y.sys.next (n + 1 + d)) ht
      exact ⟨t', h1, by rw [h2 hr]; exact hr⟩
    rcases ih with hc | ⟨t, ht, hr⟩
    · obtain ⟨r0, _, hpc, _⟩ := (lsInv y (n + 1 + d)).cur _ hc
      have hcall : ∀ r f, y.act (n + 1 + d) ≠ .call r f := by
        intro r f hcl
        rw [(call_act y hcl).1] at hpc
        cases hpc
      have he := lsStep_effect (y.next (n + 1 + d))
      revert he hst hcall
      generalize y.act (n + 1 + d) = a
      generalize y.state (n + 1 + d + 1) = s'
      intro hst hcall he
      cases he with
      | sys => exact .inl hc
      | loop => exact .inl hc
      | call r f l sys' hl => exact absurd rfl (hcall r f)
      | ret e i t ok l hi ht hr hl =>
        rw [hc] at hi
        obtain rfl := Option.some.inj hi
        exact .inr ⟨t, ht, by rw [hr]; simp⟩
    · exact .inr (hst _ t ht hr)

theorem returned (y : LsExec cfg ce now) {n m : Nat} {r : Bool} {fetch : List (Option PolicyDoc)} (hn : y.act n = .call r fetch) (hm : n < m)
    (hq : ¬ busy (y.state m).loop) : ∃ t, (y.state m).sys.pd.tasks[(y.state n).sys.pd.tasks.length]? = some t ∧ t.ret ≠ none := by
  obtain ⟨d, rfl⟩ := Nat.exists_eq_add_of_le (show n + 1 ≤ m by omega)
  rcases call_held y hn d with hc | h
  · obtain ⟨r, _, hpc, _⟩ := (lsInv y (n + 1 + d)).cur _ hc
    exact absurd ⟨r, hpc⟩ hq
  · exact h

/-- The step of call number `k`. -/
theorem crossing (h : InTime y pace env B c) (k N : Nat) (hN : B ≤ N) (hk : k < (c N).calls.length) :
    ∃ n, B ≤ n ∧ n < N ∧ (c n).calls.length = k ∧ (c (n + 1)).calls.length = k + 1 := by
  induction hN with
  | refl => rw [h.init] at hk; simp [tlInit] at hk
  | step hle ih =>
    rename_i N
    have hle : B ≤ N := hle
    by_cases hk' : k < (c N).calls.length
    · obtain ⟨n, h1, h2, h3⟩ := ih hk'
      exact ⟨n, h1, by omega, h3⟩
    · refine ⟨N, hle, by omega, ?_⟩
      rcases grows h hle with ⟨_, _, _, h3⟩ | ⟨h3, _⟩
      · rw [h3] at hk ⊢
        simp at hk ⊢
        omega
      · rw [h3] at hk; omega

/-- The update ends. -/
theorem ending (h : InTime y pace env B c) {n : Nat} (hn : B ≤ n) (k : Nat) (hk : (c (n + 1)).calls.length = k + 1) (hb : busy (c (n + 1)).l) (N : Nat)
    (hN : n < N) (hq : (c N).calls.length = k + 1 → ¬ busy (c N).l) :
    ∃ m, n < m ∧ m < N ∧ (c m).calls.length = k + 1 ∧ busy (c m).l ∧ (c (m + 1)).calls.length = k + 1 ∧ ¬ busy (c (m + 1)).l ∧
      (c m).now = (c m).since + ((c m).upd env).dur ∧ (c (m + 1)).now = (c m).now := by
  have key : ∀ d, ((c (n + 1 + d)).calls.length = k + 1 ∧ busy (c (n + 1 + d)).l) ∨
      ∃ m, n < m ∧ m < n + 1 + d ∧ (c m).calls.length = k + 1 ∧ busy (c m).l ∧ (c (m + 1)).calls.length = k + 1 ∧ ¬ busy (c (m + 1)).l ∧
        (c m).now = (c m).since + ((c m).upd env).dur ∧ (c (m + 1)).now = (c m).now := by
    intro d
    induction d with
    | zero => exact .inl ⟨hk, hb⟩
    | succ d ih =>
      rcases ih with ⟨h1, h2⟩ | ⟨m, g1, g2, g3⟩
      · rw [show n + 1 + (d + 1) = n + 1 + d + 1 by omega]
        rcases grows h (show B ≤ n + 1 + d by omega) with ⟨_, hs, _, _⟩ | ⟨hcs, hb' | ⟨_, hnb, ht, ht'⟩⟩
        · obtain ⟨r, h2⟩ := h2
          rw [h2] at hs
          cases hs
        · exact .inl ⟨by rw [hcs]; exact h1, hb'.mp h2⟩
        · exact .inr ⟨n + 1 + d, by omega, by omega, h1, h2, by rw [hcs]; exact h1, hnb, ht, ht'⟩
      · exact .inr ⟨m, g1, by omega, g3⟩
  obtain ⟨d, rfl⟩ := Nat.exists_eq_add_of_le (show n + 1 ≤ N by omega)
  rcases key d with ⟨h1, h2⟩ | h
  · exact absurd h2 (hq h1)
  · exact h

end InTimeP

/-- **C101**, the hypothesis about the updates: if the goroutine of the policy daemon goes on without delay, then until every time `T` that is reached its
updates are called and return at the times of the model of times, for some choice where a retry and a tick are both ready. -/
theorem C101_paced (cfg : SysCfg) (ce : Str) (now : Int) (y : LsExec cfg ce now) (pace : PaceCfg) (env : Nat → Int → TFetch) (B : Nat) (c : Nat → TLoop)
    (h : InTime y pace env B c) (hp : 0 < pace.period) (hat : pace.atTick = false) (T : Int) (N : Nat) (hBN : B ≤ N)
    (hN : T < (y.state N).sys.auth.now) :
    ∃ pick call done, PacedUntil y.sys (paceUpd pace env pick) T call done := by
  obtain ⟨pick, hinv⟩ := InTimeP.inv hp hat h N hBN
  have hNT : T < (c N).now := by rw [h.clock N hBN]; exact hN
  have made : ∀ k, (paceUpd pace env pick k).start ≤ T → k < (c N).calls.length := by
    intro k hk
    refine Classical.byContradiction fun hlt => ?_
    have h1 := LoopTimeP.inv_next hp (by simp [hat]) (hinv N hBN (Nat.le_refl N))
    have h2 := PaceP.start_mono (cfg := pace) (env := env) (pick := pick) hp (show (c N).calls.length ≤ k by omega)
    omega
  have hcall : ∀ k, ∃ n, B ≤ n ∧ (k < (c N).calls.length → n < N ∧ (c n).calls.length = k ∧ (c (n + 1)).calls.length = k + 1) := by
    intro k
    by_cases hk : k < (c N).calls.length
    · obtain ⟨n, h1, h2⟩ := InTimeP.crossing h k N hBN hk
      exact ⟨n, h1, fun _ => h2⟩
    · exact ⟨N, hBN, fun hk' => absurd hk' hk⟩
  obtain ⟨call, hcall⟩ := Classical.axiomOfChoice hcall
  have at_call : ∀ k, k < (c N).calls.length → (c (call k)).l.pc = .select ∧ InTimeP.busy (c (call k + 1)).l ∧
      (c (call k)).now = (paceUpd pace env pick k).start ∧ ∃ r f, y.act (call k) = .call r f := by
    intro k hk
    obtain ⟨hB, hc⟩ := hcall k
    obtain ⟨h1, h2, h3⟩ := hc hk
    rcases InTimeP.grows h hB with ⟨trig, g1, g2, g3⟩ | ⟨g3, _⟩
    · refine ⟨g1, g2, ?_, ?_⟩
      · have hi := (hinv (call k + 1) (by omega) (by omega)).calls
        have e1 : (c (call k + 1)).calls[k]? = some (trig, (c (call k)).now) := by
          rw [g3, List.getElem?_append_right (by omega)]; simp [h2]
        rw [hi, h3] at e1
        simp at e1
        exact e1.2.symm
      · rw [h.loop _ hB] at g1
        rw [h.loop _ (by omega)] at g2
        exact InTimeP.act_call y g1 g2
    · rw [g3] at h3; omega
  have hdone : ∀ k, ∃ m, stops (paceUpd pace env pick k) ≤ T → call k < m ∧ m ≤ N ∧ ¬ InTimeP.busy (c m).l ∧ (c m).calls.length = k + 1 ∧
      (c m).now = stops (paceUpd pace env pick k) := by
    intro k
    by_cases hT : stops (paceUpd pace env pick k) ≤ T
    · have hk : k < (c N).calls.length := made k (by unfold stops at hT; omega)
      obtain ⟨hB, hc⟩ := hcall k
      obtain ⟨h1, h2, h3⟩ := hc hk
      obtain ⟨_, a2, a3, _⟩ := at_call k hk
      obtain ⟨m, g1, g2, g3, g4, g5, g6, g7, g8⟩ := InTimeP.ending h hB k h3 a2 N h1 (by
        intro hlen hb
        obtain ⟨r, hb⟩ := hb
        rcases (hinv N hBN (Nat.le_refl N)).pc with ⟨hs, _⟩ | ⟨_, m, hm, _, hd⟩
        · rw [hs] at hb; cases hb
        · have : m = k := by omega
          subst this
          rw [hb] at hd
          have := hd.2.2
          omega)
      refine ⟨m + 1, fun _ => ⟨by omega, by omega, g6, g5, ?_⟩⟩
      obtain ⟨r, hb⟩ := g4
      rcases (hinv m (by omega) (by omega)).pc with ⟨hs, _⟩ | ⟨_, m', hm, _, hd⟩
      · rw [hs] at hb; cases hb
      · have : m' = k := by omega
        subst this
        rw [hb] at hd
        have e := (PaceP.dur_eq (cfg := pace) (env := env) (pick := pick) m').1
        rw [g8, g7]
        unfold stops TLoop.upd
        rw [e, hm, hd.2.1, Nat.add_sub_cancel]
    · exact ⟨0, fun h => absurd h hT⟩
  obtain ⟨done, hdone⟩ := Classical.axiomOfChoice hdone
  have first : ∀ n, B ≤ n → (c n).calls.length < (c (n + 1)).calls.length → n < N → n = call (c n).calls.length := by
    intro n hBn hlt hnN
    have hk : (c n).calls.length < (c N).calls.length := by
      have := InTimeP.len_mono h (show B ≤ n + 1 by omega) (show n + 1 ≤ N by omega)
      omega
    obtain ⟨hB, hc⟩ := hcall (c n).calls.length
    obtain ⟨_, h2, h3⟩ := hc hk
    rcases Nat.lt_trichotomy n (call (c n).calls.length) with g | g | g
    · have := InTimeP.len_mono h (show B ≤ n + 1 by omega) (show n + 1 ≤ call (c n).calls.length by omega)
      omega
    · exact g
    · have := InTimeP.len_mono h (show B ≤ call (c n).calls.length + 1 by omega) (show call (c n).calls.length + 1 ≤ n by omega)
      omega
  refine ⟨pick, call, done, ?_, ?_, ?_, ?_, ?_⟩
  · intro k hk
    have := (hdone k hk).1
    omega
  · intro k hk
    have hk' := made (k + 1) hk
    have hg := (PaceP.gap (cfg := pace) (env := env) (pick := pick) hp k).1
    obtain ⟨d1, d2, d3, d4, d5⟩ := hdone k (by omega)
    obtain ⟨hB, hc⟩ := hcall (k + 1)
    obtain ⟨_, h2, h3⟩ := hc hk'
    refine Classical.byContradiction fun hlt => ?_
    have := InTimeP.len_mono h (show B ≤ call (k + 1) + 1 by omega) (show call (k + 1) + 1 ≤ done k by omega)
    omega
  · intro k hk
    obtain ⟨a1, a2, a3, r, f, a4⟩ := at_call k (made k hk)
    refine ⟨⟨f, by show (y.act (call k)).proj = _; rw [a4]; rfl⟩, ?_⟩
    rw [← a3, h.clock _ (hcall k).1]
    rfl
  · intro k hk
    obtain ⟨d1, d2, d3, d4, d5⟩ := hdone k hk
    have hB := (hcall k).1
    obtain ⟨_, _, _, r, f, a4⟩ := at_call k (made k (by unfold stops at hk; omega))
    refine ⟨?_, ?_⟩
    · rw [← d5, h.clock _ (by omega)]; rfl
    · rw [h.loop _ (by omega)] at d3
      exact InTimeP.returned y a4 d1 d3
  · intro n fetch ha hn
    have ha' : (y.act n).proj = .pd (.update fetch) := ha
    cases hact : y.act n with
    | sys a =>
      rw [hact] at ha'
      have : a = .pd (.update fetch) := ha'
      rw [this] at hact
      obtain ⟨_, t, ht, hr⟩ := h.others n fetch hact
      right
      obtain ⟨t', h1, _, h2⟩ := ret_stays y.sys (hcall 0).1 ht
      exact ⟨t', h1, by rw [h2 hr]; exact hr⟩
    | loop a => rw [hact] at ha'; cases ha'
    | ret e => rw [hact] at ha'; cases ha'
    | call r f =>
      left
      have hBn : B ≤ n := by
        refine Classical.byContradiction fun hlt => ?_
        obtain ⟨a, ha⟩ := h.before n (by omega)
        rw [hact] at ha; cases ha
      have hn' : (y.sys.state n).auth.now ≤ T := hn
      have hnN : n < N := by
        refine Classical.byContradiction fun hge => ?_
        have := PacedP.now_mono y.sys (show N ≤ n by omega)
        have hN' : T < (y.sys.state N).auth.now := hN
        omega
      obtain ⟨c1, c2, _⟩ := InTimeP.call_act y hact
      rw [← h.loop n hBn] at c1
      rw [← h.loop (n + 1) (by omega)] at c2
      rcases InTimeP.grows h hBn with ⟨trig, g1, g2, g3⟩ | ⟨_, hb | ⟨⟨r, hb⟩, _⟩⟩
      · have hlt : (c n).calls.length < (c (n + 1)).calls.length := by rw [g3]; simp
        have e := first n hBn hlt hnN
        refine ⟨(c n).calls.length, ?_, e⟩
        have hk : (c n).calls.length < (c N).calls.length := by
          have := InTimeP.len_mono h (show B ≤ n + 1 by omega) (show n + 1 ≤ N by omega)
          omega
        rw [← (at_call _ hk).2.2.1, ← e, h.clock n hBn]
        exact hn
      · obtain ⟨r, hr⟩ := hb.mpr c2
        rw [c1] at hr; cases hr
      · rw [c1] at hb; cases hb

namespace InTimeP

variable {cfg : SysCfg} {ce : Str} {now : Int} {y : LsExec cfg ce now} {pace : PaceCfg} {env : Nat → Int → TFetch} {B : Nat} {c : Nat → TLoop}

/-- A time after the beginning of the goroutine is that of a later step. -/
theorem started (h : InTime y pace env B c) {m : Nat} (hm : pace.t0 < (y.state m).sys.auth.now) : B ≤ m := by
  have hB := h.clock B (Nat.le_refl B)
  rw [h.init] at hB
  refine PacedP.later (x := y.sys) ?_
  show (y.state B).sys.auth.now < (y.state m).sys.auth.now
  rw [← hB]
  exact hm

end InTimeP

/-- **C101**, of the goroutine: in an authorizer whose policy daemon goes on without delay, and whose updates take at most `U`, exactly the policies that
the servers give from `t` on are in force, later than the longer of a period and an update with its pause, and another update, after `t`. -/
theorem C101_goroutine (cfg : SysCfg) (ce : Str) (now : Int) (hR : 0 ≤ cfg.fetch.retryAttempts) (y : LsExec cfg ce now) (pace : PaceCfg)
    (env : Nat → Int → TFetch) (B : Nat) (c : Nat → TLoop) (h : InTime y pace env B c) (hp : 0 < pace.period) (hat : pace.atTick = false)
    (U : Nat) (hU : Takes U env) (N : Nat) (D : List PolicyDoc) (hD : NewPolicies y.sys N D) (t : Int) (ht : pace.t0 ≤ t)
    (hN : ∀ n, t ≤ (y.state n).sys.auth.now → N ≤ n) (m : Nat) (hm : t + max pace.period (U + pace.delay.toNat) + U < (y.state m).sys.auth.now)
    (docs : List (Option PolicyDoc)) :
    InForce cfg (sysInit cfg now) (y.sys.hist m) (y.state m).sys docs ↔ docs = D.map some := by
  obtain ⟨pick, call, done, hx⟩ := C101_paced cfg ce now y pace env B c h hp hat _ m (InTimeP.started h (by omega)) hm
  exact C101_in_force cfg now hR y.sys N D hD t hN pace env pick U hp ht hU _ call done hx (Int.le_refl _) m hm docs

/-- **C101**, of the goroutine: checks that begin later decide as `D` says.  Missing: policies that are not regular (`C101_refuted`). -/
theorem C101_goroutine_check_partial (cfg : SysCfg) (ce : Str) (now : Int) (hnow : 0 ≤ now) (hR : 0 ≤ cfg.fetch.retryAttempts) (y : LsExec cfg ce now)
    (pace : PaceCfg) (env : Nat → Int → TFetch) (B : Nat) (c : Nat → TLoop) (h : InTime y pace env B c) (hp : 0 < pace.period)
    (hat : pace.atTick = false) (U : Nat) (hU : Takes U env) (N : Nat) (D : List PolicyDoc) (hD : NewPolicies y.sys N D) (t : Int) (ht : pace.t0 ≤ t)
    (hN : ∀ n, t ≤ (y.state n).sys.auth.now → N ≤ n) (n m k : Nat) (q : Chk) (r : Res (List Str))
    (hn : t + max pace.period (U + pace.delay.toNat) + U < (y.state n).sys.auth.now) (hk : (y.state n).sys.pd.checks.length ≤ k)
    (hc : (y.state m).sys.pd.checks[k]? = some q) (hret : q.cs.coll = .ret r)
    (hreg : ∀ role ∈ q.q.roles, RegularAt cfg.auth.U (D.map some) now (y.state m).sys.auth.now (y.state m).sys.auth.now
      (q.q.domain ++ ":role.".toList ++ role)) :
    Decision cfg.auth.U (allAssertions (D.map some)) q.q r := by
  obtain ⟨pick, call, done, hx⟩ := C101_paced cfg ce now y pace env B c h hp hat _ n (InTimeP.started h (by omega)) hn
  exact C101_check_partial cfg now hnow hR y.sys N D hD t hN pace env pick U hp ht hU _ call done hx (Int.le_refl _) n m k q r hn hk hc hret hreg

/-- **C101**, of the goroutine: calls that begin later than that and the lifetime of results, and the time in which calls store results, are granted
only what `D` allows.  Missing: policies that are not regular (`C101_refuted`). -/
theorem C101_goroutine_withdrawn_partial (cfg : SysCfg) (ce : Str) (now : Int) (h0 : 0 ≤ now) (hpol : cfg.auth.disablePolicyd = false)
    (hexp : 0 < cfg.auth.cacheExp) (hR : 0 ≤ cfg.fetch.retryAttempts) (y : LsExec cfg ce now)
    (pace : PaceCfg) (env : Nat → Int → TFetch) (B : Nat) (c : Nat → TLoop) (h : InTime y pace env B c) (hp : 0 < pace.period)
    (hat : pace.atTick = false) (U : Nat) (hU : Takes U env) (N : Nat) (D : List PolicyDoc) (hD : NewPolicies y.sys N D) (t : Int) (ht : pace.t0 ≤ t)
    (hN : ∀ n, t ≤ (y.state n).sys.auth.now → N ≤ n) (m : Nat) (L : Nat) (hL : StoresWithin L (y.state m).sys.auth.log)
    (hbig : (y.state m).sys.auth.now + cfg.auth.cacheExp < 2 ^ 63) (i : Nat) (q : AReq) (p : Principal)
    (hlate : ∀ tb, .begun i tb ∈ (y.state m).sys.auth.log → t + max pace.period (U + pace.delay.toNat) + U + L + cfg.auth.cacheExp < tb)
    (hc : (y.state m).sys.auth.calls i = some ⟨q, .done (.ok p)⟩)
    (hreg : ∀ role ∈ p.roles, RegularAt cfg.auth.U (D.map some) now (y.state m).sys.auth.now (y.state m).sys.auth.now
      (p.domain ++ ":role.".toList ++ role)) :
    ∃ q' seed act res, cacheKey cfg.auth q' = cacheKey cfg.auth q ∧ TokenAccepted cfg (sysInit cfg now) (y.sys.hist m) q' p ∧
      Translates cfg.auth seed p.domain q' act res ∧
      Decision cfg.auth.U (allAssertions (D.map some)) ⟨p.domain, p.roles, act, cfg.auth.resourcePrefix ++ res⟩ (.ok p.authorizedRoles) := by
  obtain ⟨tb, htb, hle⟩ := PacedP.begun_of_call (SysExec.run y.sys m) hc
  have hm : t + max pace.period (U + pace.delay.toNat) + U < (y.state m).sys.auth.now := by
    have h1 := hlate tb htb
    have h2 : tb ≤ (y.state m).sys.auth.now := hle
    omega
  obtain ⟨pick, call, done, hx⟩ := C101_paced cfg ce now y pace env B c h hp hat _ m (InTimeP.started h (by omega)) hm
  exact C101_withdrawn_partial cfg now h0 hpol hexp hR y.sys N D hD t hN pace env pick U hp ht hU _ call done hx (Int.le_refl _) m L hL hbig i q p
    hlate hc hreg

end Athenz
