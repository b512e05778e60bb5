import Verif.Spec.PacedPk
import Verif.Spec.Stale
import Verif.Props.Rotate
import Verif.Props.PacedJwk

/-! # C103: how long it takes in the assembled authorizer until new public keys are in use -/

namespace Athenz
open Spec

namespace PacedPkP

variable {cfg : SysCfg} {now : Int} {x : SysExec cfg now}

theorem actOf {a : SysAct} {b : PkAct} (h : pkActOf a = b) (hb : ∀ d, b ≠ .tick d) : a = .pk b := by
  cases a <;> simp_all [pkActOf] <;> (subst h; exact absurd rfl (hb _))

/-- Every goroutine of an update was started by a call. -/
theorem born (x : SysExec cfg now) : ∀ m j, j < (x.state m).pk.jobs.length →
    ∃ n d, n < m ∧ x.act n = .pk .update ∧ d < 2 ∧ (x.state n).pk.jobs.length + d = j := by
  intro m
  induction m with
  | zero =>
    intro j hj
    rw [x.init] at hj
    simp [sysInit, pkInit] at hj
  | succ m ih =>
    intro j hj
    by_cases hlt : j < (x.state m).pk.jobs.length
    · obtain ⟨n, d, h1, h2⟩ := ih j hlt
      exact ⟨n, d, by omega, h2⟩
    · have hstep := (pkExecOf x).next m
      change pkStep cfg.pk (x.state m).pk (pkActOf (x.act m)) = some (x.state (m + 1)).pk at hstep
      have he := pkStep_effect hstep
      generalize hact : pkActOf (x.act m) = a at he
      generalize (x.state (m + 1)).pk = s' at he hj
      cases he with
      | update =>
        simp at hj
        exact ⟨m, j - (x.state m).pk.jobs.length, by omega, actOf hact (by simp), by omega, by omega⟩
      | _ => simp at hj; exact absurd hj hlt

theorem ret_stays {n a b : Nat} (h : a ≤ b) (hr : PkReturned x n (x.state a)) : PkReturned x n (x.state b) := by
  intro d hd
  obtain ⟨c, r, h1, h2⟩ := hr d hd
  exact ⟨c, r, done_from (pkExecOf x) (n := a) h1 ⟨r, h2⟩ h, h2⟩

variable {pace : PaceCfg} {env : Nat → Int → TFetch} {pick : Nat → Bool} {T : Int} {call done : Nat → Nat}

/-- One after the other. -/
theorem ordered (hp : 0 < pace.period) (hx : PkPacedUntil x (paceUpd pace env pick) T call done) {k k' : Nat} (h : k ≤ k')
    (hk : (paceUpd pace env pick k').start ≤ T) : call k ≤ call k' ∧ (k < k' → done k ≤ call k') := by
  induction h with
  | refl => exact ⟨Nat.le_refl _, fun h => absurd h (Nat.lt_irrefl _)⟩
  | @step m hm ih =>
    have hg := ((C94_gap pace env pick hp).2 m).1
    have h0 : (paceUpd pace env pick m).start ≤ stops (paceUpd pace env pick m) := by unfold stops; omega
    simp only [Nat.succ_eq_add_one] at hk ⊢
    have hn := hx.next m hk
    have ho := hx.order m (by omega)
    obtain ⟨h1, h2⟩ := ih (by omega)
    refine ⟨by omega, fun _ => ?_⟩
    by_cases he : k = m
    · subst he; exact hn
    · have := h2 (by omega)
      omega

/-- When an update is called, all earlier ones have returned. -/
theorem hold (hp : 0 < pace.period) (hx : PkPacedUntil x (paceUpd pace env pick) T call done) {k : Nat} (hk : (paceUpd pace env pick k).start ≤ T)
    (e : Env) : Over (pkExecOf x) (call k) (call k) e := by
  refine ⟨Nat.le_refl _, fun j b hj hb _ => ?_⟩
  obtain ⟨n, d, h1, h2, hd, h3⟩ := born x _ j hj
  have hnow := (hx.called k hk).2
  have hret : PkReturned x n (x.state (call k)) := by
    rcases hx.only n h2 (by have := PacedP.now_mono x (Nat.le_of_lt h1); omega) with ⟨k', hk', rfl⟩ | hr
    · have hlt : k' < k := by
        refine Classical.byContradiction fun hge => ?_
        have := (ordered hp hx (show k ≤ k' by omega) hk').1
        omega
      obtain ⟨o1, o2⟩ := ordered hp hx (Nat.le_of_lt hlt) hk
      have hs : stops (paceUpd pace env pick k') ≤ T := by
        have := ((C94_gap pace env pick hp).2 k').1
        have := PaceP.start_mono (env := env) (pick := pick) hp (show k' + 1 ≤ k by omega)
        omega
      exact ret_stays (o2 hlt) (hx.returned k' hs).2
    · exact ret_stays (ordered hp hx (Nat.zero_le k) hk).1 hr
  obtain ⟨c, r, g1, g2⟩ := hret d hd
  rw [h3] at g1
  change (x.state (call k)).pk.jobs[j]? = some b at hb
  rw [hb] at g1
  obtain rfl := Option.some.inj g1
  exact ⟨r, g2⟩

/-- A list that arrives is in use when its goroutine is over. -/
theorem delivered_by {cfg : PkCfg} {now : Int} (x : PkExec cfg now) {N M : Nat} {e : Env} {T : Str} {K : Str → Option SigVerifier}
    (hk : ServesKeys x N e T K) (ho : Over x N M e) {n j : Nat} {tag b : Str} {o : List Str} (hn : M ≤ n)
    (ha : x.act n = .answer j (.answer 200 tag b) o) (hj : jobEnv j = e) {m : Nat} (hm : n < m) {b' : PkJob} {r : Option Err}
    (hb' : (x.state m).jobs[j]? = some b') (hr : b'.pc = .done r) : InUse (x.state m) e K := by
  have hp := ((hk n (Nat.le_trans ho.1 hn) j _ _ _ _ ha hj).1 rfl).2
  have hstep := x.next n
  rw [ha] at hstep
  have h0 := (applied_begin (x.env n) hstep hp).1
  rw [hj] at h0
  have hinv : ∀ k, n + 1 ≤ k → Applied (x.state k) e j K ∨ ((x.state k).jobs[j]? = some ⟨e, .done none⟩ ∧ InUse (x.state k) e K) := by
    refine from_ind (.inl h0) ?_
    intro k hk' ih
    rcases ih with ih | ⟨ih1, ih2⟩
    · exact applied_step (x.next k) (x.alive (k + 1)) (all_apply x hk ho (by omega)) ih
    · exact .inr ⟨done_from x ih1 ⟨_, rfl⟩ (by omega), inUse_step (x.next k) (all_apply x hk ho (by omega)) ih2⟩
  rcases hinv m hm with h | ⟨_, h⟩
  · obtain ⟨b2, cm, h1, _, h3, _⟩ := applied_applying h
    rw [hb'] at h1
    simp only [Option.some.injEq] at h1
    subst h1
    rw [hr] at h3
    simp [PkPc.applying] at h3
  · exact h

/-- What an update that has returned leaves behind. -/
theorem delivers {cfg : PkCfg} {now : Int} (x : PkExec cfg now) {N : Nat} {e : Env} {V : Str} {K : Str → Option SigVerifier}
    (hk : ServesKeys x N e V K) (hans : Answers x N e) (hv : Versioned x e V K) (hone : OneAtATime x e) {n : Nat} (hn : N ≤ n)
    (ho : Over x n n e) (hact : x.act n = .update) {m : Nat} (hm : n < m)
    (hret : ∀ d, d < 2 → ∃ b r, (x.state m).jobs[(x.state n).jobs.length + d]? = some b ∧ b.pc = .done r) :
    ∀ k, m ≤ k → InUse (x.state k) e K := by
  have hk' : ServesKeys x n e V K := fun n' h => hk n' (by omega)
  have hpar := (jobs_env (x.run n)).1
  have hborn : ∃ d, d < 2 ∧ jobEnv ((x.state n).jobs.length + d) = e ∧ (x.state (n + 1)).jobs[(x.state n).jobs.length + d]? = some ⟨e, .start⟩ := by
    have hstep := x.next n
    rw [hact] at hstep
    have hs := pkStep_effect hstep
    generalize x.state (n + 1) = s' at hs
    cases hs with
    | update =>
      cases e with
      | zts => exact ⟨0, by omega, (jobEnv_even hpar).1, by simp⟩
      | zms => exact ⟨1, by omega, (jobEnv_even hpar).2, by simp⟩
  obtain ⟨d, hd, hj, hb⟩ := hborn
  obtain ⟨b, r, hb1, hr⟩ := hret d hd
  have hlen : (x.state n).jobs.length ≤ (x.state n).jobs.length + d := by omega
  generalize (x.state n).jobs.length + d = j at hj hb hb1 hlen
  rcases answered_of_done x hb m hm with ⟨k, r', o, g1, g2, g3⟩ | g | ⟨t, g⟩
  · obtain ⟨st, tag, bd, rfl, hst⟩ := hans k (by omega) j r' o g3 hj
    rcases hst with rfl | rfl
    · exact inUse_from x hk' ho (by omega) (delivered_by x hk' ho (by omega) g3 hj g2 hb1 hr)
    · have hreq := (hk k (by omega) j _ _ _ _ g3 hj).2 rfl
      have hsent : ∃ e', (x.state k).jobs[j]? = some ⟨e', .sent (some V)⟩ := by
        unfold requestTag at hreq
        split at hreq
        · rename_i e' t h; subst hreq; exact ⟨e', h⟩
        · simp at hreq
      obtain ⟨e', hsent⟩ := hsent
      have he' : e' = e := by rw [← hj]; exact x.env _ _ _ hsent
      subst he'
      obtain ⟨p, hp1, hp4, hp2, hp3⟩ := sent_at x k (by omega) j e' _ hlen hsent
      obtain ⟨ent, hent, hval⟩ := gache_get_entry hp3.symm
      intro k' hk''
      exact inUse_from x hk' ho hp1 (ser_send x hone hv hp2 hj hent hval) k' (by omega)
  · rw [hb1] at g; simp only [Option.some.injEq] at g; subst g; simp at hr
  · rw [hb1] at g; simp only [Option.some.injEq] at g; subst g; simp at hr

variable {U : Nat} {N : Nat} {e : Env} {V : Str} {K : Str → Option SigVerifier}

/-- What is in use once the update that begins after `t` is over. -/
theorem in_use (hk : ServesKeys (pkExecOf x) N e V K) (hans : Answers (pkExecOf x) N e) (hv : Versioned (pkExecOf x) e V K)
    (hone : OneAtATime (pkExecOf x) e) {t : Int} (hN : ∀ n, t ≤ (x.state n).auth.now → N ≤ n)
    (hp : 0 < pace.period) (ht : pace.t0 ≤ t) (hU : Takes U env) (hx : PkPacedUntil x (paceUpd pace env pick) T call done)
    (hT : t + max pace.period (U + pace.delay.toNat) + U ≤ T) :
    ∃ M, (x.state M).auth.now ≤ t + max pace.period (U + pace.delay.toNat) + U ∧ ∀ m, M ≤ m → InUse (x.state m).pk e K := by
  obtain ⟨k, h1, _, h3⟩ := C94_begins pace env pick U hp hU t ht
  have hs : (paceUpd pace env pick k).start ≤ stops (paceUpd pace env pick k) := by unfold stops; omega
  have hcall := hx.called k (by omega)
  have hN' : N ≤ call k := hN _ (by rw [hcall.2]; exact h1)
  have hle := hx.order k (by omega)
  obtain ⟨hnow, hret⟩ := hx.returned k (by omega)
  have hlt : call k < done k := by
    refine Classical.byContradiction fun hge => ?_
    have he : done k = call k := by omega
    rw [he] at hret
    obtain ⟨b, r, g, _⟩ := hret 0 (by omega)
    have := lt_of_getElem? g
    omega
  refine ⟨done k, by omega, ?_⟩
  exact delivers (pkExecOf x) hk hans hv hone hN' (hold hp hx (by omega) e) (by show pkActOf (x.act (call k)) = _; rw [hcall.1]; rfl) hlt hret

/-- Calls that begin long after only certain keys are given out. -/
theorem grant_after (h0 : 0 ≤ now) (hexp : 0 < cfg.auth.cacheExp) {M : Nat} {D : Int} (hMt : (x.state M).auth.now ≤ D)
    {R : Str → SigVerifier → Prop} {J : Str → Str → JKey → Prop} (gives : ∀ n, M ≤ n → GivesOnly cfg (x.state n) R J)
    (m : Nat) (L : Nat) (hL : StoresWithin L (x.state m).auth.log) (hbig : (x.state m).auth.now + cfg.auth.cacheExp < 2 ^ 63) (i : Nat) (q : AReq)
    (p : Principal) (hlate : ∀ tb, .begun i tb ∈ (x.state m).auth.log → D + L + cfg.auth.cacheExp < tb)
    (hc : (x.state m).auth.calls i = some ⟨q, .done (.ok p)⟩) :
    ∃ q', cacheKey cfg.auth q' = cacheKey cfg.auth q ∧ SignedBy cfg R J q' := by
  have logs : ∀ {e : AEvent} {m}, M ≤ m → e ∈ (x.state M).auth.log → e ∈ (x.state m).auth.log := by
    intro e m hm he
    clear hL hbig hlate hc
    induction hm with
    | refl => exact he
    | step _ ih => exact (sysStep_log (x.next _)).1 _ ih
  obtain ⟨tb0, hb0, hb0'⟩ := PacedP.begun_of_call (SysExec.run x m) hc
  have hMm : M ≤ m := PacedP.later (x := x) (by have := hlate tb0 hb0; omega)
  have none_ : ∀ j, (∀ tb, .begun j tb ∈ (x.state m).auth.log → (x.state M).auth.now < tb) → (x.state M).auth.calls j = none := by
    intro j hj
    cases hcj : (x.state M).auth.calls j with
    | none => rfl
    | some c =>
      obtain ⟨tb, g1, g2⟩ := PacedP.begun_of_call (SysExec.run x M) hcj
      have := hj tb (logs hMm g1)
      omega
  have key : ∀ j q' h1, (x.state M).auth.calls j = none → cacheKey cfg.auth q' = cacheKey cfg.auth q →
      ValidatedBy cfg (sysInit cfg now) (x.hist m) j q' p h1 → ∃ q', cacheKey cfg.auth q' = cacheKey cfg.auth q ∧ SignedBy cfg R J q' := by
    intro j q' h1 hj hk hd
    obtain ⟨h2, sx, pc, he, hxr, hjx, _, htok⟩ := hd
    have e1 : h1 = x.hist h1.length := by
      have hle : h1.length ≤ m := by
        have := congrArg List.length he
        simp only [SysExec.hist, List.length_map, List.length_range, List.length_append] at this
        omega
      have := congrArg (List.take h1.length) he
      rw [List.take_append_of_le_length (Nat.le_refl _), List.take_length] at this
      conv => lhs; rw [← this]
      simp only [SysExec.hist, ← List.map_take, List.take_range, Nat.min_eq_left hle]
    have hr' := hxr
    rw [e1, SysExec.run x] at hxr
    obtain rfl := Option.some.inj hxr
    have hge : M ≤ h1.length := by
      refine Classical.byContradiction fun hlt => ?_
      obtain ⟨pc', h3, _⟩ := sysRun_calls (SysExec.runFrom x (show h1.length ≤ M by omega)) hjx
      rw [hj] at h3; simp at h3
    exact ⟨q', hk, signedBy (sysRuns_run hr').1 (gives _ hge) htok⟩
  have hpast := log_past (SysExec.run x m)
  rcases C78_grant cfg now h0 _ _ (SysExec.run x m) i q p hc with ⟨h1, hd⟩ | ⟨j, q', tb, th, ts, h1, hb, hle, _, hst, hfr, hcj, hk, hd⟩
  · exact key i q h1 (none_ i fun tb h => by have := hlate tb h; omega) rfl hd
  · refine key j q' h1 (none_ j fun tbj hj => ?_) hk hd
    have h1 := hL j tbj ts _ _ hj hst
    have h2 := hlate tb hb
    have h3 := hpast.1 _ _ _ _ hst
    have h4 := hfr.2 hexp (by omega)
    omega

end PacedPkP

/-- **C103**.  The server of `e` has the keys `K` from the time `t` on, as its version `V`, and answers; updates do not overlap, and are made as the
public key daemon makes them.  Then, at the latest a period (or an update and a pause) and an update after `t`, exactly the keys `K` are in use, and
stay so. -/
theorem C103_in_use (cfg : SysCfg) (now : Int) (x : SysExec cfg now) (N : Nat) (e : Env) (V : Str) (K : Str → Option SigVerifier)
    (hk : ServesKeys (pkExecOf x) N e V K) (hans : Answers (pkExecOf x) N e) (hv : Versioned (pkExecOf x) e V K) (hone : OneAtATime (pkExecOf x) e)
    (t : Int) (hN : ∀ n, t ≤ (x.state n).auth.now → N ≤ n) (pace : PaceCfg) (env : Nat → Int → TFetch) (pick : Nat → Bool) (U : Nat)
    (hp : 0 < pace.period) (ht : pace.t0 ≤ t) (hU : Takes U env) (T : Int) (call done : Nat → Nat)
    (hx : PkPacedUntil x (paceUpd pace env pick) T call done) (hT : t + max pace.period (U + pace.delay.toNat) + U ≤ T) (m : Nat)
    (hm : t + max pace.period (U + pace.delay.toNat) + U < (x.state m).auth.now) (id : Str) : (x.state m).pk.provider e id = K id := by
  obtain ⟨M, h2, h3⟩ := PacedPkP.in_use hk hans hv hone hN hp ht hU hx hT
  exact h3 m (PacedP.later (x := x) (by omega)) id

/-- **C103**.  A call that begins when also the time in which calls store their results and the lifetime of cached results have passed is granted
only if a token with the same cache key is signed with a key that `K` gives for the key id it names (or is an access token). -/
theorem C103_role (cfg : SysCfg) (now : Int) (h0 : 0 ≤ now) (hexp : 0 < cfg.auth.cacheExp) (x : SysExec cfg now) (N : Nat) (V : Str)
    (K : Str → Option SigVerifier) (hk : ServesKeys (pkExecOf x) N .zts V K) (hans : Answers (pkExecOf x) N .zts)
    (hv : Versioned (pkExecOf x) .zts V K) (hone : OneAtATime (pkExecOf x) .zts) (t : Int) (hN : ∀ n, t ≤ (x.state n).auth.now → N ≤ n)
    (pace : PaceCfg) (env : Nat → Int → TFetch) (pick : Nat → Bool) (U : Nat) (hp : 0 < pace.period) (ht : pace.t0 ≤ t) (hU : Takes U env) (T : Int)
    (call done : Nat → Nat) (hx : PkPacedUntil x (paceUpd pace env pick) T call done) (hT : t + max pace.period (U + pace.delay.toNat) + U ≤ T)
    (m : Nat) (L : Nat) (hL : StoresWithin L (x.state m).auth.log) (hbig : (x.state m).auth.now + cfg.auth.cacheExp < 2 ^ 63) (i : Nat) (q : AReq)
    (p : Principal)
    (hlate : ∀ tb, .begun i tb ∈ (x.state m).auth.log → t + max pace.period (U + pace.delay.toNat) + U + L + cfg.auth.cacheExp < tb)
    (hc : (x.state m).auth.calls i = some ⟨q, .done (.ok p)⟩) :
    ∃ q', cacheKey cfg.auth q' = cacheKey cfg.auth q ∧ SignedBy cfg (fun id ver => K id = some ver) (fun _ _ _ => True) q' := by
  obtain ⟨M, hMt, hin⟩ := PacedPkP.in_use hk hans hv hone hN hp ht hU hx hT
  refine PacedPkP.grant_after h0 hexp hMt (fun n hn => ⟨fun id ver hkey => ?_, fun _ _ _ _ => trivial⟩) m L hL hbig i q p hlate hc
  show K id = some ver
  rw [← hin n hn id]
  exact hkey

end Athenz
