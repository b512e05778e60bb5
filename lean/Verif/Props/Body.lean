import Verif.Model.Body
import Verif.Props.Client
import Verif.Props.Examples

/-! # C74: the bodies of responses are closed -/

namespace Athenz

namespace Spec

/-- The responses that came during a schedule of the public key daemon: status and body. -/
def pkResponses : List PkAct → List (Nat × Str)
  | [] => []
  | .answer _ (.answer status _ body) _ :: as => (status, body) :: pkResponses as
  | _ :: as => pkResponses as

/-- The number of the call of the inner transport whose response `RoundTrip` returns. -/
def returned (cfg : RtCfg) (env : Nat → Attempt) (now0 : Int) : Option Nat :=
  if (roundTrip cfg env now0).2.1.isSome then (calls (roundTrip cfg env now0).1).getLast? else none

end Spec
open Spec

/-- The full statement of C74: every body is closed exactly once, except that the transport may leave the one open that it returns. -/
def C74_statement : Prop :=
  (∀ (cfg : FetchCfg) (io : Nat → Bool × Nat) (s s' : FState) (sched : List FAct), fRun cfg s sched = some s' →
    ∀ ob ∈ fBodies cfg io 0 s sched, ∃ b, ob = some b ∧ b.closes = 1) ∧
  (∀ (cfg : PkCfg) (io : Nat → Bool × Nat) (s s' : PkState) (sched : List PkAct), pkRun cfg s sched = some s' →
    ∀ b ∈ pkBodies cfg io 0 sched, b.closes = 1) ∧
  (∀ (cfg : RtCfg) (env : Nat → Attempt) (now0 : Int) (io : Nat → Bool) (cnt : Nat) (b : Body),
    (cnt, b) ∈ rtBodies cfg env (wrap64 (now0 + cfg.maxRetryTime)) io cfg.maxRetryCount.toNat 0 → some cnt ≠ returned cfg env now0 → b.closes = 1)

/-- `flushAndClose` closes a body whose end can be reached. -/
theorem flushAndClose_fresh (b : Body) (h : b.closes = 0) :
    flushAndClose (some b) = (some ⟨[], b.broken, if b.broken then 0 else 1⟩, !b.broken) := by
  obtain ⟨left, broken, closes⟩ := b
  simp only at h
  subst h
  cases broken <;> rfl

/-- **C74**, one `Fetch`: whatever the response is and whatever becomes of it, its body is read to the end, and closed once unless reading it
fails. -/
theorem C74_fetch_partial (cfg : FetchCfg) (tp : Option Tagged) (keys : KeyProvider) (now : Int) (status : Nat) (eTag data : Str) (broken : Bool) (n : Nat) :
    ∃ b, (fetchExchange cfg tp keys now status eTag (.fresh data broken) n).2 = some b ∧ b.left = [] ∧ (b.closes = 1 ↔ broken = false) ∧ b.closes ≤ 1 := by
  have key : ∀ b' : Body, b'.closes = 0 → b'.broken = broken → ∃ b, (flushAndClose (some b')).1 = some b ∧ b.left = [] ∧
      (b.closes = 1 ↔ broken = false) ∧ b.closes ≤ 1 := by
    intro b' h0 hb
    refine ⟨_, by rw [flushAndClose_fresh b' h0], rfl, ?_, ?_⟩
    · rw [hb]; cases broken <;> simp
    · split <;> simp
  unfold fetchExchange
  refine key _ ?_ ?_ <;> split <;> (try split) <;> rfl

/-- **C74**, all that a fetcher does: body number `k` is read to the end, and closed once unless reading it fails.  Missing: a body that
cannot be read to the end is not closed (`C74_policy_refuted`). -/
theorem C74_policy_partial (cfg : FetchCfg) (io : Nat → Bool × Nat) (s s' : FState) (sched : List FAct) (hr : fRun cfg s sched = some s')
    (k : Nat) (ob : Option Body) (h : (fBodies cfg io 0 s sched)[k]? = some ob) :
    ∃ b, ob = some b ∧ b.left = [] ∧ (b.closes = 1 ↔ (io k).1 = false) ∧ b.closes ≤ 1 := by
  suffices H : ∀ k0 s, fRun cfg s sched = some s' → ∀ k ob, (fBodies cfg io k0 s sched)[k]? = some ob →
      ∃ b, ob = some b ∧ b.left = [] ∧ (b.closes = 1 ↔ (io (k0 + k)).1 = false) ∧ b.closes ≤ 1 by
    simpa using H 0 s hr k ob h
  clear hr h k ob s
  induction sched with
  | nil => intro k0 s _ k ob h; simp [fBodies] at h
  | cons a as ih =>
    intro k0 s hr k ob h
    simp only [fRun] at hr
    simp only [fBodies] at h
    cases hs : fStep cfg s a with
    | none => simp [hs] at hr
    | some s1 =>
      simp only [hs] at hr h
      have other : fBodies cfg io k0 s1 as = fBodies cfg io k0 s1 as → (fBodies cfg io k0 s1 as)[k]? = some ob →
          ∃ b, ob = some b ∧ b.left = [] ∧ (b.closes = 1 ↔ (io (k0 + k)).1 = false) ∧ b.closes ≤ 1 := fun _ h => ih k0 s1 hr k ob h
      cases a with
      | answer j r =>
        cases r with
        | fail e => exact other rfl h
        | answer status eTag body =>
          cases k with
          | zero =>
            simp only [List.getElem?_cons_zero, Option.some.injEq] at h
            obtain ⟨b, hb, hrest⟩ := C74_fetch_partial cfg (match s.calls[j]? with | some ⟨_, .sent _ tp⟩ => tp | _ => none) s.keys s.now status eTag body
              (io k0).1 (io k0).2
            exact ⟨b, by rw [← h]; exact hb, hrest⟩
          | succ k =>
            simp only [List.getElem?_cons_succ] at h
            have := ih (k0 + 1) s1 hr k ob h
            rwa [show k0 + 1 + k = k0 + (k + 1) by omega] at this
      | _ => exact other rfl h

/-- **C74**, the public key daemon, exactly: the body of a response is closed, once, if the status is 200 and it is JSON; otherwise it is
left open. -/
theorem C74_pubkey_exact (cfg : PkCfg) (io : Nat → Bool × Nat) (sched : List PkAct) :
    (pkBodies cfg io 0 sched).map (·.closes) =
      (pkResponses sched).map fun r => if r.1 = 200 ∧ (cfg.decode r.2).isSome then 1 else 0 := by
  suffices H : ∀ k, (pkBodies cfg io k sched).map (·.closes) =
      (pkResponses sched).map fun r => if r.1 = 200 ∧ (cfg.decode r.2).isSome then 1 else 0 from H 0
  induction sched with
  | nil => intro k; rfl
  | cons a as ih =>
    intro k
    cases a with
    | answer j r order =>
      cases r with
      | fail e => exact ih k
      | answer status eTag body =>
        simp only [pkBodies, pkResponses, List.map_cons, ih (k + 1), List.cons.injEq, and_true]
        unfold pubkeyExchange
        split
        · rename_i h; subst h; rfl
        · split
          · rename_i h; simp [h, Body.fresh]
          · rename_i _ h
            have h : status = 200 := Classical.byContradiction h
            subst h
            cases hd : cfg.decode body with
            | none => simp [Body.fresh, hd, Body.taken]
            | some x => simp [Body.fresh, hd, Body.taken, Body.drain, Body.close]
    | _ => exact ih k

/-- **C74**, the public key daemon: a body that is closed has been read to the end before. -/
theorem C74_pubkey_read (cfg : PkCfg) (io : Nat → Bool × Nat) (sched : List PkAct) : ∀ b ∈ pkBodies cfg io 0 sched, 0 < b.closes → b.left = [] := by
  suffices H : ∀ k, ∀ b ∈ pkBodies cfg io k sched, 0 < b.closes → b.left = [] from H 0
  induction sched with
  | nil => intro k b hb; simp [pkBodies] at hb
  | cons a as ih =>
    intro k b hb hc
    cases a with
    | answer j r order =>
      cases r with
      | fail e => exact ih k b hb hc
      | answer status eTag body =>
        simp only [pkBodies, List.mem_cons] at hb
        rcases hb with rfl | hb
        · unfold pubkeyExchange at hc ⊢
          split at hc
          · simp [Body.fresh] at hc
          · split at hc
            · simp [Body.fresh] at hc
            · rename_i h1 h2
              rw [if_neg h1, if_neg h2]
              cases hd : cfg.decode body with
              | none => simp [Body.fresh, hd, Body.taken] at hc
              | some x => simp [Body.fresh, hd, Body.taken, Body.drain, Body.close]
        · exact ih (k + 1) b hb hc
    | _ => exact ih k b hb hc

/-- **C74**, what holds of the public key daemon: the bodies of good responses are closed.  Missing: all others, see `C74_leak`. -/
theorem C74_pubkey_partial (cfg : PkCfg) (io : Nat → Bool × Nat) (sched : List PkAct)
    (h : ∀ r ∈ pkResponses sched, r.1 = 200 ∧ (cfg.decode r.2).isSome) : ∀ b ∈ pkBodies cfg io 0 sched, b.closes = 1 := by
  intro b hb
  have := C74_pubkey_exact cfg io sched
  have hm := List.mem_map_of_mem (f := (·.closes)) hb
  rw [this] at hm
  obtain ⟨r, hr, he⟩ := List.mem_map.mp hm
  rw [if_pos (h r hr)] at he
  exact he.symm

/-- As long as the server answers with an error, every `Update` of the public keys leaves two bodies open: their number has no bound, and it
takes neither time nor a broken connection. -/
theorem C74_leak (cfg : PkCfg) (io : Nat → Bool × Nat) (now : Int) (N : Nat) :
    ∃ sched s, pkRun cfg (pkInit now) sched = some s ∧ s.crashed = false ∧ s.now = now ∧ s.jobs.length = 2 * N ∧
      (pkBodies cfg io 0 sched).countP (fun b => b.closes = 0) = 2 * N := by
  have append : ∀ (a b : List PkAct) (s : PkState), pkRun cfg s (a ++ b) = (pkRun cfg s a).bind fun s' => pkRun cfg s' b := by
    intro a b
    induction a with
    | nil => intro s; rfl
    | cons x a ih =>
      intro s
      simp only [List.cons_append, pkRun]
      cases pkStep cfg s x with
      | none => rfl
      | some s' => exact ih s'
  have resp : ∀ a b : List PkAct, pkResponses (a ++ b) = pkResponses a ++ pkResponses b := by
    intro a b
    induction a with
    | nil => rfl
    | cons x a ih =>
      cases x with
      | answer j r o =>
        cases r with
        | fail e => exact ih
        | answer st t bd => simp only [List.cons_append, pkResponses, ih]
      | _ => exact ih
  have count : ∀ sched, (pkBodies cfg io 0 sched).countP (fun b => b.closes = 0) =
      (pkResponses sched).countP fun r => ¬ (r.1 = 200 ∧ (cfg.decode r.2).isSome) := by
    intro sched
    have := C74_pubkey_exact cfg io sched
    rw [show (fun b : Body => decide (b.closes = 0)) = (fun n => decide (n = 0)) ∘ (·.closes) from rfl, ← List.countP_map, this, List.countP_map]
    refine congrArg (fun p => List.countP p _) ?_
    funext r
    by_cases h : r.1 = 200 ∧ (cfg.decode r.2).isSome <;> simp [h]
  suffices H : ∃ sched s, pkRun cfg (pkInit now) sched = some s ∧ s.crashed = false ∧ s.now = now ∧ s.jobs.length = 2 * N ∧
      (pkResponses sched).countP (fun r => ¬ (r.1 = 200 ∧ (cfg.decode r.2).isSome)) = 2 * N by
    obtain ⟨sched, s, h1, h2, h3, h4, h5⟩ := H
    exact ⟨sched, s, h1, h2, h3, h4, by rw [count]; exact h5⟩
  induction N with
  | zero => exact ⟨[], pkInit now, rfl, rfl, rfl, rfl, rfl⟩
  | succ N ih =>
    obtain ⟨sched, s, h1, h2, h3, h4, h5⟩ := ih
    refine ⟨sched ++ [.update, .send (2 * N), .answer (2 * N) (.answer 503 [] []) [], .send (2 * N + 1), .answer (2 * N + 1) (.answer 503 [] []) []],
      { s with jobs := s.jobs ++ [⟨.zts, .done (some .fetchAthenzPubkey)⟩, ⟨.zms, .done (some .fetchAthenzPubkey)⟩] }, ?_, h2, h3, ?_, ?_⟩
    · rw [append, h1]
      simp only [Option.bind_some, pkRun, pkStep, h2, Bool.false_eq_true, if_false]
      rw [← h4]
      simp
    · simp [h4]; omega
    · rw [resp, List.countP_append, h5]
      simp only [pkResponses, List.countP_cons, List.countP_nil]
      simp
      omega

/-- **C74**, the transport: the body of a response is closed exactly if the status does not ask for another attempt, and
then it has been read to the end before. -/
theorem C74_transport_exact (cfg : RtCfg) (env : Nat → Attempt) (limit : Int) (io : Nat → Bool) (fuel cnt0 cnt : Nat) (b : Body)
    (h : (cnt, b) ∈ rtBodies cfg env limit io fuel cnt0) :
    ∃ status body, env cnt = .resp status body ∧ cnt0 ≤ cnt ∧ (b.closes = if status = 429 ∨ status = 500 ∨ status = 503 ∨ status = 504 then 0 else 1) ∧
      (0 < b.closes → b.left = []) := by
  induction fuel generalizing cnt0 with
  | zero => simp [rtBodies] at h
  | succ fuel ih =>
    have more : (cnt, b) ∈ rtBodies cfg env limit io fuel (cnt0 + 1) →
        ∃ status body, env cnt = .resp status body ∧ cnt0 ≤ cnt ∧ (b.closes = if status = 429 ∨ status = 500 ∨ status = 503 ∨ status = 504 then 0 else 1) ∧
      (0 < b.closes → b.left = []) := by
      intro h
      obtain ⟨st, bd, h1, h2, h3⟩ := ih (cnt0 + 1) h
      exact ⟨st, bd, h1, by omega, h3⟩
    simp only [rtBodies] at h
    split at h
    · split at h
      · simp at h
      · split at h
        · simp at h
        · exact more h
    · rename_i status body he
      split at h
      · rename_i hre
        rcases List.mem_cons.mp h with h | h
        · simp only [Prod.mk.injEq] at h
          obtain ⟨rfl, rfl⟩ := h
          exact ⟨status, body, he, by omega, by rw [if_pos ((retryable_iff status).mp hre)]; rfl, by simp [Body.fresh]⟩
        · exact more h
      · rename_i hre
        simp only [List.mem_singleton, Prod.mk.injEq] at h
        obtain ⟨rfl, rfl⟩ := h
        refine ⟨status, body, he, by omega, ?_, by simp [Body.fresh, Body.drain, Body.close]⟩
        rw [if_neg (fun hh => hre ((retryable_iff status).mpr hh))]
        simp [Body.fresh, Body.drain, Body.close]

namespace Ex

def bdFetchCfg : FetchCfg := { codec := { marshalSigned := fun _ => none, marshalPolicy := fun _ => none, decode := fun _ => none }, expiryMargin := 0, retryAttempts := 0 }

def bdPkCfg : PkCfg := { decode := fun _ => none, newVerifier := fun _ => none, eTagExpiry := 0 }

/-- A server that is overloaded once. -/
def bdEnv : Nat → Attempt
  | 0 => .resp 503 "busy".toList
  | _ => .resp 200 "policies".toList

end Ex

/-- The first part of **C74** is false for the code: `flushAndClose` does not close a body that it cannot read to the end. -/
theorem C74_policy_refuted : ¬ ∀ (cfg : FetchCfg) (io : Nat → Bool × Nat) (s s' : FState) (sched : List FAct), fRun cfg s sched = some s' →
    ∀ ob ∈ fBodies cfg io 0 s sched, ∃ b, ob = some b ∧ b.closes = 1 := by
  intro h
  obtain ⟨s', hs', _⟩ := Ex.exists_of_map (o := fRun Ex.bdFetchCfg (fInit 0 fun _ _ => none) [.call false, .send 0, .answer 0 (.answer 500 [] "abc".toList)])
    (p := fun _ => true) (by decide +kernel)
  obtain ⟨b, hb, hc⟩ := h Ex.bdFetchCfg (fun _ => (true, 0)) _ s' _ hs' (some ⟨[], true, 0⟩) (by decide +kernel)
  cases hb
  exact absurd hc (by decide)

/-- The second part of **C74** is false for the code: a response with an error status, or 304, keeps its body open. -/
theorem C74_pubkey_refuted : ¬ ∀ (cfg : PkCfg) (io : Nat → Bool × Nat) (s s' : PkState) (sched : List PkAct), pkRun cfg s sched = some s' →
    ∀ b ∈ pkBodies cfg io 0 sched, b.closes = 1 := by
  intro h
  obtain ⟨sched, s, hr, _, _, _, hc⟩ := C74_leak Ex.bdPkCfg (fun _ => (false, 0)) 0 1
  obtain ⟨b, hb, h0⟩ := List.countP_pos_iff.mp (by rw [hc]; decide)
  have := h _ _ _ _ _ hr b hb
  simp only [decide_eq_true_eq] at h0
  omega

/-- The third part of **C74** is false for the code: before another attempt the body of the response is not closed. -/
theorem C74_transport_refuted : ¬ ∀ (cfg : RtCfg) (env : Nat → Attempt) (now0 : Int) (io : Nat → Bool) (cnt : Nat) (b : Body),
    (cnt, b) ∈ rtBodies cfg env (wrap64 (now0 + cfg.maxRetryTime)) io cfg.maxRetryCount.toNat 0 → some cnt ≠ returned cfg env now0 → b.closes = 1 := by
  intro h
  have := h ⟨fun _ => 0, 2, 0⟩ Ex.bdEnv 0 (fun _ => false) 0 (.fresh "busy".toList false) (by decide +kernel) (by decide +kernel)
  exact absurd this (by decide)

/-- Schedules to which the theorems apply: a fetcher gets a response whose body ends and one whose body breaks; the public key daemon gets a
good response and one that is not JSON; the transport gets two responses. -/
example : (∃ s, fRun Ex.bdFetchCfg (fInit 0 fun _ _ => none) [.call false, .call false, .send 0, .answer 0 (.answer 200 [] "abc".toList), .send 1,
      .answer 1 (.answer 500 [] "abc".toList)] = some s ∧
      fBodies Ex.bdFetchCfg (fun k => (k == 1, 1)) 0 (fInit 0 fun _ _ => none) [.call false, .call false, .send 0, .answer 0 (.answer 200 [] "abc".toList), .send 1,
        .answer 1 (.answer 500 [] "abc".toList)] = [some ⟨[], false, 1⟩, some ⟨[], true, 0⟩]) ∧
    pkBodies { Ex.bdPkCfg with decode := fun b => if b = "{}".toList then some (some []) else none } (fun _ => (false, 2)) 0
      [.update, .send 0, .answer 0 (.answer 200 [] "{}".toList) [], .send 1, .answer 1 (.answer 200 [] "<html>".toList) []] =
        [⟨[], false, 1⟩, ⟨"tml>".toList, false, 0⟩] ∧
    rtBodies ⟨fun _ => 0, 2, 0⟩ Ex.bdEnv 0 (fun _ => false) 2 0 = [(0, ⟨"busy".toList, false, 0⟩), (1, ⟨[], false, 1⟩)] := by
  refine ⟨?_, by decide +kernel, by decide +kernel⟩
  obtain ⟨s, hs, _⟩ := Ex.exists_of_map (o := fRun Ex.bdFetchCfg (fInit 0 fun _ _ => none) [.call false, .call false, .send 0,
    .answer 0 (.answer 200 [] "abc".toList), .send 1, .answer 1 (.answer 500 [] "abc".toList)]) (p := fun _ => true) (by decide +kernel)
  exact ⟨s, hs, by decide +kernel⟩

theorem C74_refuted : ¬ C74_statement := fun h => C74_policy_refuted h.1

end Athenz
