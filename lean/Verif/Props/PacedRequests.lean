import Verif.Props.Paced
import Verif.Props.Timing

/-! # C101, with the times of the requests: how long it takes until new policies decide, if every request is answered within a time -/

namespace Athenz
open Spec

namespace PacedP

variable {delay : Int}

/-- A call of `FetchWithRetry` takes some time, if its requests do. -/
theorem fetch_takes {env : TServer} {R now : Int} (hR : 0 ≤ R) (h : ∀ i t, 1 ≤ (env i t).dur) : now + 1 ≤ (timedFetch delay R env now).2.1 := by
  have e : (R + 1).toNat = R.toNat + 1 := by omega
  have h1 := h 0 now
  unfold timedFetch
  rw [e]
  unfold retryFrom
  dsimp only
  split
  · dsimp only; omega
  · have : now + (env 0 now).dur + delay.toNat ≤ (retryFrom delay env R.toNat (0 + 1) (now + (env 0 now).dur + delay.toNat)).2.1 := TimingP.mono _ _ _
    change now + 1 ≤ (retryFrom delay env R.toNat (0 + 1) (now + (env 0 now).dur + delay.toNat)).2.1
    omega

/-- Updates take as long as their requests and pauses. -/
theorem takes {R : Int} {S : Nat} {doms : Nat → List TServer} {env : Nat → Int → TFetch} (hR : 0 ≤ R) (hne : ∀ k, doms k ≠ [])
    (hreq : ∀ k, ∀ e ∈ doms k, ∀ i u, 1 ≤ (e i u).dur ∧ (e i u).dur ≤ S)
    (henv : ∀ k u, u + ((env k u).dur : Int) = timedUpdate delay R none (doms k) u) : Takes ((R + 1).toNat * (S + delay.toNat)) env := by
  intro k u
  have h2 := (C93_bound delay R u S none (doms k) fun e he i t => (hreq k e he i t).2).2
  have h1 := (C93_waits delay R u none (doms k) (by intro t h; cases h)).1
  rw [← henv k u] at h1 h2
  obtain ⟨e, he⟩ := List.exists_mem_of_ne_nil _ (hne k)
  have h3 := fetch_takes (delay := delay) (now := u) hR fun i t => (hreq k e he i t).1
  have h4 := h1 e he
  constructor
  · omega
  · have : (((env k u).dur : Nat) : Int) ≤ (((R + 1).toNat * (S + delay.toNat) : Nat) : Int) := by
      push_cast
      omega
    exact_mod_cast this

end PacedP

/-- **C101**, from the time of a request: if every request for policies is answered within `S`, whether it succeeds or not, new policies are in force
after a period, and twice the time of `retryAttempts + 1` requests and pauses, and a pause.  The updates take the times that C93 says. -/
theorem C101_requests (cfg : SysCfg) (now : Int) (hR : 0 ≤ cfg.fetch.retryAttempts) (x : SysExec cfg now) (N : Nat) (D : List PolicyDoc)
    (hD : NewPolicies x N D) (t : Int) (hN : ∀ n, t ≤ (x.state n).auth.now → N ≤ n) (pace : PaceCfg) (env : Nat → Int → TFetch) (pick : Nat → Bool)
    (hp : 0 < pace.period) (ht : pace.t0 ≤ t) (S : Nat) (doms : Nat → List TServer) (hne : ∀ k, doms k ≠ [])
    (hreq : ∀ k, ∀ e ∈ doms k, ∀ i u, 1 ≤ (e i u).dur ∧ (e i u).dur ≤ S)
    (henv : ∀ k u, u + ((env k u).dur : Int) = timedUpdate pace.delay cfg.fetch.retryAttempts none (doms k) u)
    (U : Int) (hU : U = (cfg.fetch.retryAttempts + 1) * (S + max pace.delay 0))
    (T : Int) (call done : Nat → Nat) (hx : PacedUntil x (paceUpd pace env pick) T call done)
    (hT : t + max pace.period (U + max pace.delay 0) + U ≤ T) (m : Nat)
    (hm : t + max pace.period (U + max pace.delay 0) + U < (x.state m).auth.now) (docs : List (Option PolicyDoc)) :
    InForce cfg (sysInit cfg now) (x.hist m) (x.state m) docs ↔ docs = D.map some := by
  have e : U = (((cfg.fetch.retryAttempts + 1).toNat * (S + pace.delay.toNat) : Nat) : Int) := by
    have h1 : ((cfg.fetch.retryAttempts + 1).toNat : Int) = cfg.fetch.retryAttempts + 1 := Int.toNat_of_nonneg (by omega)
    rw [hU, Nat.cast_mul, Nat.cast_add, h1, Int.ofNat_toNat]
  have e2 : max pace.delay 0 = (pace.delay.toNat : Int) := by rw [Int.ofNat_toNat]
  rw [e, e2] at hT hm
  exact C101_in_force cfg now hR x N D hD t hN pace env pick _ hp ht (PacedP.takes hR hne hreq henv) T call done hx hT m hm docs

/-- The execution of C101: one domain, and a request that takes a nanosecond. -/
example : 0 ≤ Ex.paCfg.fetch.retryAttempts ∧ NewPolicies Ex.paExec Ex.paPre.length [Ex.paDoc] ∧
    (∀ n, Ex.auT 1500 + 1 ≤ (Ex.paExec.state n).auth.now → Ex.paPre.length ≤ n) ∧
    (∀ (k : Nat) u, u + ((Ex.paEnv k u).dur : Int) = timedUpdate Ex.paPace.delay Ex.paCfg.fetch.retryAttempts none [fun _ _ => ⟨1, true⟩] u) ∧
    (∃ call done, PacedUntil Ex.paExec (paceUpd Ex.paPace Ex.paEnv fun _ => false) (Ex.auT 1650 + 1) call done) ∧
    Ex.auT 1500 + 1 + max Ex.paPace.period ((Ex.paCfg.fetch.retryAttempts + 1) * ((1 : Nat) + max Ex.paPace.delay 0) + max Ex.paPace.delay 0)
      + (Ex.paCfg.fetch.retryAttempts + 1) * ((1 : Nat) + max Ex.paPace.delay 0) ≤ Ex.auT 1650 + 1 ∧
    Ex.auT 1650 + 1 < (Ex.paExec.state Ex.paAll.length).auth.now := by
  refine ⟨by decide, Ex.paNew Ex.paOk (dom := "dom".toList) (sp := Ex.syPolicy) rfl (by decide +kernel) (by decide) (by decide +kernel),
    ?_, ?_, ⟨_, _, Ex.paPaced Ex.paOk Ex.paPacedOk⟩, by decide, by decide +kernel⟩
  · intro n hn
    refine Classical.byContradiction fun hlt => ?_
    have h : ∀ n, n < Ex.paPre.length → (Ex.paExec.state n).auth.now < Ex.auT 1500 + 1 := by decide +kernel
    have := h n (by omega)
    omega
  · intro k u
    have e : Ex.paCfg.fetch.retryAttempts = 2 := by decide
    rw [e]
    simp [timedUpdate, timedFetch, retryFrom, Ex.paEnv]

end Athenz
