import Verif.Proofs.Revoke
import Verif.Props.Withdraw
import Verif.Props.Rotate
import Verif.Props.RotateJwk

/-! # C78: how long a token signed with a withdrawn key is granted

Tokens are validated with the keys of the moment, but results are cached.  So a token signed with a key that is not handed out any more is
granted for some time. -/

namespace Athenz
open Spec

/-- **C78**.  The token of a granted call was valid, under the keys of that moment, at some moment when the call was running, or the call took
the result of another call for the same cache key, stored no longer than the lifetime of cached results before, and the token of that call
was valid at some moment when it was running. -/
theorem C78_grant (cfg : SysCfg) (now : Int) (h0 : 0 ≤ now) (h : List SysAct) (s : Sys) (hr : sysRun cfg (sysInit cfg now) h = some s) (i : Nat)
    (q : AReq) (p : Principal) (hc : s.auth.calls i = some ⟨q, .done (.ok p)⟩) :
    (∃ h1, ValidatedBy cfg (sysInit cfg now) h i q p h1) ∨
    ∃ j q' tb th ts h1, .begun i tb ∈ s.auth.log ∧ tb ≤ th ∧ .hit i th ∈ s.auth.log ∧ .stored j ts (cacheKey cfg.auth q) p ∈ s.auth.log ∧
      Fresh cfg.auth.cacheExp ts th ∧ s.auth.calls j = some ⟨q', .done (.ok p)⟩ ∧ cacheKey cfg.auth q' = cacheKey cfg.auth q ∧
      ValidatedBy cfg (sysInit cfg now) h j q' p h1 := by
  have hw := vInv_run hr
  obtain ⟨acts, ha⟩ := (sysRuns_run hr).2.auth
  rcases (aInv_run h0 ha).pcs i q _ hc with ⟨ts, hst⟩ | ⟨th, j, ts, h1, h2, h3, _, ⟨tb, h5, h6⟩, _⟩
  · obtain ⟨q', g1, _, g3⟩ := hw.stored i ts _ p hst
    rw [hc] at g1
    simp only [Option.some.injEq, Call.mk.injEq, and_true] at g1
    subst g1
    exact .inl g3
  · obtain ⟨q', g1, g2, x, g3⟩ := hw.stored j ts _ p h2
    exact .inr ⟨j, q', tb, th, ts, x, h5, h6, h1, h2, h3, g1, g2.symm, g3⟩

/-- The full statement of C78: from the end of `pre` on, only right keys are handed out.  A call that begins when the lifetime of cached
results has passed since then is granted only if a token with the same cache key is signed with a right key. -/
def C78_statement : Prop :=
  ∀ (cfg : SysCfg) (now : Int) (pre mid post : List SysAct) (s0 s1 s : Sys) (R : Str → SigVerifier → Prop) (J : Str → Str → JKey → Prop) (i : Nat)
    (q : AReq) (p : Principal), 0 ≤ now → 0 < cfg.auth.cacheExp →
    sysRun cfg (sysInit cfg now) pre = some s0 → sysRun cfg s0 mid = some s1 → sysRun cfg s1 post = some s →
    s.auth.now + cfg.auth.cacheExp < 2 ^ 63 → OnlyKeys cfg (sysInit cfg now) (pre ++ mid ++ post) pre.length R J →
    s0.auth.now + cfg.auth.cacheExp < s1.auth.now → s1.auth.calls i = none → s.auth.calls i = some ⟨q, .done (.ok p)⟩ →
    ∃ q', cacheKey cfg.auth q' = cacheKey cfg.auth q ∧ SignedBy cfg R J q'

/-- **C78**.  From the end of `pre` on, only right keys are handed out; at the end of `mid` all calls that had begun in `pre` have returned; when
`late` ends, more time than the lifetime of cached results has passed since.  Then a call that begins later is granted only if a token with the
same cache key is signed with a right key, and was valid at a moment after `pre`.  Missing: without the condition on the calls it is false
(`C78_refuted`). -/
theorem C78_revoked_partial (cfg : SysCfg) (now : Int) (h0 : 0 ≤ now) (hexp : 0 < cfg.auth.cacheExp)
    (pre mid late post : List SysAct) (s0 s1 s2 s : Sys) (R : Str → SigVerifier → Prop) (J : Str → Str → JKey → Prop)
    (hr0 : sysRun cfg (sysInit cfg now) pre = some s0) (hr1 : sysRun cfg s0 mid = some s1) (hr2 : sysRun cfg s1 late = some s2)
    (hr : sysRun cfg s2 post = some s) (hbig : s.auth.now + cfg.auth.cacheExp < 2 ^ 63)
    (honly : OnlyKeys cfg (sysInit cfg now) (pre ++ mid ++ late ++ post) pre.length R J)
    (hdone : ∀ j q pc, s0.auth.calls j = some ⟨q, pc⟩ → ∃ r, s1.auth.calls j = some ⟨q, .done r⟩)
    (hlate : s1.auth.now + cfg.auth.cacheExp < s2.auth.now) (i : Nat) (q : AReq) (p : Principal) (hnew : s2.auth.calls i = none)
    (hc : s.auth.calls i = some ⟨q, .done (.ok p)⟩) :
    ∃ q' j h1, cacheKey cfg.auth q' = cacheKey cfg.auth q ∧ SignedBy cfg R J q' ∧ pre.length ≤ h1.length ∧
      ValidatedBy cfg (sysInit cfg now) (pre ++ mid ++ late ++ post) j q' p h1 := by
  have hrun1 : sysRun cfg (sysInit cfg now) (pre ++ mid) = some s1 := by rw [sysRun_append, hr0]; exact hr1
  have hrun2 : sysRun cfg (sysInit cfg now) (pre ++ mid ++ late) = some s2 := by rw [sysRun_append, hrun1]; exact hr2
  have hrun : sysRun cfg (sysInit cfg now) (pre ++ mid ++ late ++ post) = some s := by rw [sysRun_append, hrun2]; exact hr
  have hr02 : sysRun cfg s0 (mid ++ late) = some s2 := by rw [sysRun_append, hr1]; exact hr2
  -- the token of a call which did not exist at the end of `pre`
  have key : ∀ j q' h1, s0.auth.calls j = none → cacheKey cfg.auth q' = cacheKey cfg.auth q →
      ValidatedBy cfg (sysInit cfg now) (pre ++ mid ++ late ++ post) j q' p h1 →
      ∃ q' j h1, cacheKey cfg.auth q' = cacheKey cfg.auth q ∧ SignedBy cfg R J q' ∧ pre.length ≤ h1.length ∧
        ValidatedBy cfg (sysInit cfg now) (pre ++ mid ++ late ++ post) j q' p h1 := by
    intro j q' h1 hj hk hd
    have hd' := hd
    obtain ⟨h2, sx, pc, he, hx, hjx, _, htok⟩ := hd'
    have hlen : pre.length ≤ h1.length := by
      refine Classical.byContradiction fun hlt => ?_
      obtain ⟨z, hz⟩ : ∃ z, pre = h1 ++ z := by
        refine ⟨pre.drop h1.length, ?_⟩
        have : pre.take h1.length = h1 := by
          have := congrArg (List.take h1.length) he
          rw [List.append_assoc, List.append_assoc, List.take_append_of_le_length (by omega), List.take_append_of_le_length (Nat.le_refl _)] at this
          simpa using this
        conv => lhs; rw [← List.take_append_drop h1.length pre, this]
      rw [hz, sysRun_append, hx] at hr0
      obtain ⟨pc', h3, _⟩ := sysRun_calls hr0 hjx
      rw [hj] at h3; simp at h3
    exact ⟨q', j, h1, hk, signedBy (sysRuns_run hx).1 (honly h1 h2 sx he hlen hx) htok, hlen, hd⟩
  have hi0 : s0.auth.calls i = none := by
    cases hi : s0.auth.calls i with
    | none => rfl
    | some c =>
      obtain ⟨q0, pc⟩ := c
      obtain ⟨pc', h3, _⟩ := sysRun_calls hr02 hi
      rw [hnew] at h3; simp at h3
  rcases C78_grant cfg now h0 _ s hrun i q p hc with ⟨h1, hd⟩ | ⟨j, q', tb, th, ts, h1, hb, hle, _, hst, hfr, hcj, hk, hd⟩
  · exact key i q h1 hi0 rfl hd
  · -- the call began late, so the result was stored after `mid`
    have htb : s2.auth.now ≤ tb := by
      have : ∀ (l : List SysAct) (sa : Sys), sysRun cfg s2 l = some sa → ∀ t, AEvent.begun i t ∈ sa.auth.log → s2.auth.now ≤ t := by
        intro l sa
        refine sysRun_ind (fun _ sa => ∀ t, AEvent.begun i t ∈ sa.auth.log → s2.auth.now ≤ t) ?_ ?_ l sa
        · intro t hm
          obtain ⟨acts, ha⟩ := (sysRuns_run hrun2).2.auth
          exact absurd hm ((bInv_run ha).none_ i t hnew)
        · intro l sa a sb ih hra hs t hm
          rcases (sysStep_log hs).2.2 i t hm with h | ⟨h, _⟩
          · exact ih t h
          · rw [h]; exact sysRun_now hra
      exact this post s hr tb hb
    have hts : s1.auth.now < ts := by
      have h1 := (log_past hrun).1 _ _ _ _ hst
      have := hfr.2 hexp (by omega)
      omega
    have hj0 : s0.auth.calls j = none := by
      cases hj : s0.auth.calls j with
      | none => rfl
      | some c =>
        obtain ⟨qj, pcj⟩ := c
        obtain ⟨r, h3⟩ := hdone j qj pcj hj
        have hr1s : sysRun cfg s1 (late ++ post) = some s := by rw [sysRun_append, hr2]; exact hr
        have := (log_past hrun1).1 _ _ _ _ (sysRun_stored hr1s h3 hst)
        omega
    exact key j q' h1 hj0 hk hd

/-- **C78**, `Verify` and `Authorize`.  Missing: as above. -/
theorem C78_session_partial (cfg : SysCfg) (now : Int) (h0 : 0 ≤ now) (hexp : 0 < cfg.auth.cacheExp)
    (pre mid late post : List SysAct) (s0 s1 s2 s : Sys) (R : Str → SigVerifier → Prop) (J : Str → Str → JKey → Prop)
    (hr0 : sysRun cfg (sysInit cfg now) pre = some s0) (hr1 : sysRun cfg s0 mid = some s1) (hr2 : sysRun cfg s1 late = some s2)
    (hr : sysRun cfg s2 post = some s) (hbig : s.auth.now + cfg.auth.cacheExp < 2 ^ 63)
    (honly : OnlyKeys cfg (sysInit cfg now) (pre ++ mid ++ late ++ post) pre.length R J)
    (hdone : ∀ j q pc, s0.auth.calls j = some ⟨q, pc⟩ → ∃ r, s1.auth.calls j = some ⟨q, .done r⟩)
    (hlate : s1.auth.now + cfg.auth.cacheExp < s2.auth.now) (k : Nat) (x : Sess) (p : Principal) (hnew : s2.auth.sess k = none)
    (hx : s.auth.sess k = some x) (hd : x.result = some (.ok p)) :
    ∃ r act0 res0 q q', .opened k r act0 res0 ∈ s.auth.log ∧ .token q ∈ authorizers cfg.auth r act0 res0 ∧
      cacheKey cfg.auth q' = cacheKey cfg.auth q ∧ SignedBy cfg R J q' := by
  have hrun : sysRun cfg (sysInit cfg now) (pre ++ mid ++ late ++ post) = some s := by
    rw [sysRun_append, sysRun_append, sysRun_append, hr0]
    simp only [Option.bind_some, hr1, hr2, hr]
  obtain ⟨acts, ha⟩ := (sysRuns_run hrun).2.auth
  have hi := sInv_run ha
  obtain ⟨r, act0, res0, ho⟩ := hi.sess k x hx
  obtain ⟨x', hx', hok⟩ := hi.opened k r act0 res0 ho
  rw [hx] at hx'
  simp only [Option.some.injEq] at hx'
  subst hx'
  have hcomb := hok.comb
  rw [hd] at hcomb
  obtain ⟨pr, c, io, rest, g1, _, g3⟩ := hcomb
  have hm : (c, io, Res.ok p) ∈ x.tried := by rw [g1]; simp
  cases c with
  | fails e => have := (hok.fails e io _ hm).2; simp at this
  | token q =>
    obtain ⟨j, rfl, hj⟩ := hok.token q io _ hm
    have hj2 := (sess_calls hr hnew x hx).2 _ j _ hm
    obtain ⟨q', _, _, h1, h2, _, _⟩ := C78_revoked_partial cfg now h0 hexp pre mid late post s0 s1 s2 s R J hr0 hr1 hr2 hr hbig
      honly hdone hlate j q p hj2 hj
    exact ⟨r, act0, res0, q, q', ho, by rw [g3]; simp, h1, h2⟩

/-- Of the calls that exist at some moment, all have returned at some later one. -/
theorem calls_done {cfg : SysCfg} {now : Int} (x : SysExec cfg now) (hsf : SysFair x) (M0 : Nat) :
    ∃ M, M0 ≤ M ∧ ∀ j q pc, (x.state M0).auth.calls j = some ⟨q, pc⟩ → ∃ r, (x.state M).auth.calls j = some ⟨q, .done r⟩ := by
  obtain ⟨B, hB⟩ := calls_finite (s0 := sysInit cfg now) ⟨0, fun _ _ => rfl⟩ (SysExec.run x M0)
  have hall : ∀ k, ∃ M, M0 ≤ M ∧ ∀ i q pc, i < k → (x.state M0).auth.calls i = some ⟨q, pc⟩ → ∃ r, (x.state M).auth.calls i = some ⟨q, .done r⟩ := by
    intro k
    induction k with
    | zero => exact ⟨M0, Nat.le_refl _, fun i q pc hi => by omega⟩
    | succ k ih =>
      obtain ⟨M, hM, h1⟩ := ih
      cases hk : (x.state M0).auth.calls k with
      | none =>
        refine ⟨M, hM, fun i q pc hi hc => ?_⟩
        by_cases hik : i = k
        · subst hik; rw [hk] at hc; simp at hc
        · exact h1 i q pc (by omega) hc
      | some c =>
        obtain ⟨qk, pck⟩ := c
        obtain ⟨M', r, hM', hr'⟩ := C69_call_returns cfg now x hsf M0 k qk pck hk
        have stay : ∀ {a b : Nat} {i q r}, a ≤ b → (x.state a).auth.calls i = some ⟨q, .done r⟩ → (x.state b).auth.calls i = some ⟨q, .done r⟩ := by
          intro a b i q r hab hc
          obtain ⟨pc', h2, h3⟩ := sysRun_calls (SysExec.runFrom x hab) hc
          rw [h2, h3 ⟨r, rfl⟩]
        refine ⟨max M M', by omega, fun i q pc hi hc => ?_⟩
        by_cases hik : i = k
        · subst hik
          rw [hk] at hc
          simp only [Option.some.injEq, Call.mk.injEq] at hc
          obtain ⟨rfl, rfl⟩ := hc
          exact ⟨r, stay (by omega) hr'⟩
        · obtain ⟨r, h2⟩ := h1 i q pc (by omega) hc
          exact ⟨r, stay (by omega) h2⟩
  obtain ⟨M, hM, hdone⟩ := hall B
  refine ⟨M, hM, fun j q pc hj => ?_⟩
  by_cases hjB : j < B
  · exact hdone j q pc hjB hj
  · rw [hB j (by omega)] at hj; simp at hj

/-- **C78**.  If from some moment on only right keys are handed out, then there is a moment such that a call which begins when the lifetime of
cached results has passed since then is granted only if a token with the same cache key is signed with a right key. -/
theorem C78_live (cfg : SysCfg) (now : Int) (h0 : 0 ≤ now) (hexp : 0 < cfg.auth.cacheExp)
    (x : SysExec cfg now) (hsf : SysFair x) (R : Str → SigVerifier → Prop) (J : Str → Str → JKey → Prop)
    (hgood : ∃ m, ∀ k, m ≤ k → GivesOnly cfg (x.state k) R J) :
    ∃ M, ∀ n m i q p, M ≤ n → n ≤ m → (x.state M).auth.now + cfg.auth.cacheExp < (x.state n).auth.now →
      (x.state n).auth.calls i = none → (x.state m).auth.calls i = some ⟨q, .done (.ok p)⟩ → (x.state m).auth.now + cfg.auth.cacheExp < 2 ^ 63 →
      ∃ q', cacheKey cfg.auth q' = cacheKey cfg.auth q ∧ SignedBy cfg R J q' := by
  obtain ⟨M0, hgood⟩ := hgood
  obtain ⟨M, hM, hdone⟩ := calls_done x hsf M0
  refine ⟨M, fun n m i q p hn hm hlate hnew hc hbig => ?_⟩
  obtain ⟨d1, rfl⟩ := Nat.le.dest hM
  obtain ⟨d2, rfl⟩ := Nat.le.dest hn
  obtain ⟨d3, rfl⟩ := Nat.le.dest hm
  have hh : x.hist (M0 + d1 + d2 + d3) = x.hist M0 ++ (List.range d1).map (fun i => x.act (M0 + i)) ++
      (List.range d2).map (fun i => x.act (M0 + d1 + i)) ++ (List.range d3).map (fun i => x.act (M0 + d1 + d2 + i)) := by
    rw [SysExec.hist_add, SysExec.hist_add, SysExec.hist_add]
  have hrun : ∀ a d, sysRun cfg (x.state a) ((List.range d).map (fun i => x.act (a + i))) = some (x.state (a + d)) := by
    intro a d
    have := SysExec.runFrom x (Nat.le_add_right a d)
    rwa [Nat.add_sub_cancel_left] at this
  obtain ⟨q', _, _, h1, h2, _⟩ := C78_revoked_partial cfg now h0 hexp _ _ _ _ (x.state M0) (x.state (M0 + d1)) (x.state (M0 + d1 + d2))
    (x.state (M0 + d1 + d2 + d3)) R J (SysExec.run x M0) (hrun M0 d1) (hrun _ d2) (hrun _ d3) hbig (by
      intro h1 h2 s1 he hlen hr1
      rw [← hh] at he
      have e1 : h1 = x.hist h1.length := by
        have := congrArg (List.take h1.length) he
        rw [List.take_append_of_le_length (Nat.le_refl _), List.take_length] at this
        have hle : h1.length ≤ M0 + d1 + d2 + d3 := by
          have := congrArg List.length he
          simp only [SysExec.hist, List.length_map, List.length_range, List.length_append] at this
          omega
        rw [← this]
        simp only [SysExec.hist, ← List.map_take, List.take_range, List.length_map, List.length_range]
      rw [e1, SysExec.run x] at hr1
      obtain rfl := Option.some.inj hr1
      exact hgood h1.length (by simpa [SysExec.hist] using hlen)) hdone hlate i q p hnew hc
  exact ⟨q', h1, h2⟩

/-- **C78**, access tokens.  If the server of every configured URL gives a set of keys from some moment on, and again and again a request to it
succeeds, then there is a moment such that a call which begins when the lifetime of cached results has passed since then is granted only if a
token with the same cache key is signed with a key of these sets (or is a role token). -/
theorem C78_access (cfg : SysCfg) (now : Int) (h0 : 0 ≤ now) (hexp : 0 < cfg.auth.cacheExp)
    (x : SysExec cfg now) (hsf : SysFair x) (hkf : KeyFair x) (N : Nat) (S : Str → JwkSet)
    (hs : ∀ url, ConfiguredURL cfg.jwk url → ServesSet (jwkExecOf x) N url (S url) ∧ ReachedJwk (jwkExecOf x) url) :
    ∃ M, ∀ n m i q p, M ≤ n → n ≤ m → (x.state M).auth.now + cfg.auth.cacheExp < (x.state n).auth.now →
      (x.state n).auth.calls i = none → (x.state m).auth.calls i = some ⟨q, .done (.ok p)⟩ → (x.state m).auth.now + cfg.auth.cacheExp < 2 ^ 63 →
      ∃ q', cacheKey cfg.auth q' = cacheKey cfg.auth q ∧
        SignedBy cfg (fun _ _ => True) (fun url kid k => ConfiguredURL cfg.jwk url ∧ KeyIn (S url) kid k) q' := by
  refine C78_live cfg now h0 hexp x hsf _ _ ?_
  have hall : ∀ l : List Str, (∀ u ∈ l, ConfiguredURL cfg.jwk u) → ∃ m, ∀ k, m ≤ k → ∀ u ∈ l, InUseJwk cfg.jwk (x.state k).jwk u (S u) := by
    intro l
    induction l with
    | nil => intro _; exact ⟨0, fun k _ u hu => by simp at hu⟩
    | cons u l ih =>
      intro hl
      obtain ⟨m1, h1⟩ := ih fun v hv => hl v (List.mem_cons_of_mem _ hv)
      obtain ⟨ha, hb⟩ := hs u (hl u List.mem_cons_self)
      obtain ⟨m2, h2⟩ := C77_in_use (jwkExecOf x) (jwkFairOf hkf) N u (S u) ha hb
      refine ⟨max m1 m2, fun k hk v hv => ?_⟩
      rcases List.mem_cons.mp hv with rfl | hv
      · exact h2 k (by omega)
      · exact h1 k (by omega) v hv
  obtain ⟨m, hm⟩ := hall cfg.jwk.targets fun _ h => mem_targets.mp h
  refine ⟨m, fun k hk => ⟨fun _ _ _ => trivial, fun kid jku key hkey => ?_⟩⟩
  obtain ⟨acts, hj⟩ := (sysRuns_run (SysExec.run x k)).2.jwk
  obtain ⟨_, hu, _⟩ := C29_sources cfg.jwk acts _ hj kid jku key hkey
  exact ⟨hu, (((hm k hk _ (mem_targets.mpr hu)) kid jku rfl key).mp hkey).2⟩

/-- **C78**, role tokens.  If from some moment on the key server publishes the keys `K`, and requests are answered again and again, and updates
of the ZTS keys do not overlap, then there is a moment such that a call which begins when the lifetime of cached results has passed since then
is granted only if a token with the same cache key is signed with one of the keys `K` (or is an access token).  Missing: updates that overlap,
for which it is false (`C76_refuted`) as long as the version of the list is remembered. -/
theorem C78_role_partial (cfg : SysCfg) (now : Int) (h0 : 0 ≤ now) (hexp : 0 < cfg.auth.cacheExp)
    (x : SysExec cfg now) (hsf : SysFair x) (hkf : KeyFair x) (N : Nat) (T : Str) (K : Str → Option SigVerifier)
    (hk : ServesKeys (pkExecOf x) N .zts T K) (hre : Reached (pkExecOf x) .zts) (hv : Versioned (pkExecOf x) .zts T K)
    (hone : OneAtATime (pkExecOf x) .zts) :
    ∃ M, ∀ n m i q p, M ≤ n → n ≤ m → (x.state M).auth.now + cfg.auth.cacheExp < (x.state n).auth.now →
      (x.state n).auth.calls i = none → (x.state m).auth.calls i = some ⟨q, .done (.ok p)⟩ → (x.state m).auth.now + cfg.auth.cacheExp < 2 ^ 63 →
      ∃ q', cacheKey cfg.auth q' = cacheKey cfg.auth q ∧ SignedBy cfg (fun id ver => K id = some ver) (fun _ _ _ => True) q' := by
  refine C78_live cfg now h0 hexp x hsf _ _ ?_
  obtain ⟨m, hm⟩ := C76_serial_partial (pkExecOf x) N .zts T K (pkFairOf hkf) hk hre hv hone
  refine ⟨m, fun k hk => ⟨fun id ver hp => ?_, fun _ _ _ _ => trivial⟩⟩
  show K id = some ver
  rw [← hm k hk id]
  exact hp

/-- **C78**, role tokens, when updates overlap: as soon as the versions remembered when the updates begun before the change were over have
expired. -/
theorem C78_expiring_partial (cfg : SysCfg) (now : Int) (h0 : 0 ≤ now) (hexp : 0 < cfg.auth.cacheExp)
    (x : SysExec cfg now) (hsf : SysFair x) (hkf : KeyFair x) (N M0 : Nat) (T : Str) (K : Str → Option SigVerifier)
    (hk : ServesKeys (pkExecOf x) N .zts T K) (hre : Reached (pkExecOf x) .zts) (hM : Over (pkExecOf x) N M0 .zts) (hetag : 0 < cfg.pk.eTagExpiry)
    (hov : (x.state M0).auth.now + cfg.pk.eTagExpiry < 2 ^ 63) (htime : ∃ m, (x.state M0).auth.now + cfg.pk.eTagExpiry < (x.state m).auth.now) :
    ∃ M, ∀ n m i q p, M ≤ n → n ≤ m → (x.state M).auth.now + cfg.auth.cacheExp < (x.state n).auth.now →
      (x.state n).auth.calls i = none → (x.state m).auth.calls i = some ⟨q, .done (.ok p)⟩ → (x.state m).auth.now + cfg.auth.cacheExp < 2 ^ 63 →
      ∃ q', cacheKey cfg.auth q' = cacheKey cfg.auth q ∧ SignedBy cfg (fun id ver => K id = some ver) (fun _ _ _ => True) q' := by
  refine C78_live cfg now h0 hexp x hsf _ _ ?_
  have hclock : ∀ n, ((pkExecOf x).state n).now = (x.state n).auth.now := by
    intro n
    have := (sysRuns_run (SysExec.run x n)).1.clock
    show (x.state n).pk.now = _
    simp_all
  obtain ⟨m1, hm1⟩ := htime
  obtain ⟨m, hm⟩ := C76_expiring_partial (pkExecOf x) N M0 .zts T K (pkFairOf hkf) h0 hk hre hM hetag (by rw [hclock]; exact hov)
    ⟨m1, by rw [hclock, hclock]; exact hm1⟩
  refine ⟨m, fun k hk => ⟨fun id ver hp => ?_, fun _ _ _ _ => trivial⟩⟩
  show K id = some ver
  rw [← hm k hk id]
  exact hp

/-! ## Examples, and the result of a slow call -/

namespace Ex

/-- After each of the first `n` or more steps no access token can be valid, and the only key of ZTS has the key id `id`, if there is one. -/
def rvOnlyB (cfg : SysCfg) (now : Int) (acts : List SysAct) (n : Nat) (id : Option Str) : Bool :=
  (List.range (acts.length + 1)).all fun k => decide (k < n) ||
    match sysRun cfg (sysInit cfg now) (acts.take k) with
    | none => true
    | some s => s.pk.zts.all (fun e => some e.1 == id) && s.jwk.keys.isEmpty

theorem rvOnly {cfg : SysCfg} {now : Int} {acts : List SysAct} {n : Nat} {id : Option Str} (h : rvOnlyB cfg now acts n id = true) :
    OnlyKeys cfg (sysInit cfg now) acts n (fun i _ => some i = id) fun _ _ _ => False := by
  simp only [rvOnlyB, List.all_eq_true] at h
  intro p q s1 hp hlen hr
  have hle : p.length < acts.length + 1 := by rw [hp, List.length_append]; omega
  have ht : acts.take p.length = p := by rw [hp]; simp
  have := h _ (List.mem_range.mpr hle)
  rw [ht, hr] at this
  simp only [Bool.or_eq_true, decide_eq_true_eq, Bool.and_eq_true, List.all_eq_true, List.isEmpty_iff, beq_iff_eq] at this
  rcases this with h | ⟨h1, h2⟩
  · omega
  · refine ⟨fun i ver hi => ?_, fun kid jku k hk => ?_⟩
    · have hm : i ∈ s1.pk.zts.keys := SMap.mem_keys.mpr (by
        have : s1.pk.zts.load i = some ver := hi
        rw [this]; rfl)
      obtain ⟨e, he, rfl⟩ := List.mem_map.mp hm
      exact h1 e he
    · unfold getKey at hk
      rw [h2] at hk
      simp [SMap.load] at hk

/-- "E" is a list without keys, "N" one with the key "2". -/
def rvDecode (b : Str) : Option (Option (List (Option (Str × Str)))) :=
  if b = "E".toList then some (some []) else if b = "N".toList then some (some [some ("2".toList, "y".toList)]) else chCfg.pk.decode b

abbrev rvCfg : SysCfg := { chCfg with pk := { chCfg.pk with decode := rvDecode } }

/-- The key "1" is withdrawn. -/
def rvGone : List SysAct := ([.update, .send 2, .answer 2 (.answer 200 [] "E".toList) [], .step 2 ["1".toList], .step 2 [], .step 2 []] : List PkAct).map .pk

/-- Call 0 is found allowed; before its result is stored, the key of its token is withdrawn. -/
def rvPre : List SysAct := chPre ++ (.auth (.call 0 syReq) :: (syCall 0).dropLast) ++ rvGone

end Ex

/-- **C78** is false for the code: the lifetime of a result is counted from the moment it is stored, not from the moment the token was
validated.  A call that takes its time between the two makes its token, whose key is withdrawn, be granted for the full lifetime from then on. -/
theorem C78_refuted : ¬ C78_statement := by
  intro hst
  obtain ⟨s0, s1, s, hr0, hr1, hr, hp⟩ := Ex.exists_three (cfg := Ex.rvCfg) (s := sysInit Ex.rvCfg (Ex.auT 1500)) (a := Ex.rvPre) (b := Ex.wdMid) (c := Ex.wdPost)
    (P := fun s0 s1 s => decide (s0.auth.now = Ex.auT 1500) && decide (s1.auth.now = Ex.auT 1561) && decide (s.auth.now = Ex.auT 1561) &&
      (s1.auth.calls 1).isNone && decide (Ex.doneOk s.auth 1 Ex.syReq = some Ex.syPrincipal)) (by decide +kernel)
  simp only [Bool.and_eq_true, decide_eq_true_eq, Option.isNone_iff_eq_none] at hp
  obtain ⟨⟨⟨⟨h0, h1⟩, h2⟩, hn⟩, hd⟩ := hp
  have honly := Ex.rvOnly (cfg := Ex.rvCfg) (now := Ex.auT 1500) (acts := Ex.rvPre ++ Ex.wdMid ++ Ex.wdPost) (n := Ex.rvPre.length) (id := none)
    (by decide +kernel)
  obtain ⟨q', _, hs⟩ := hst Ex.rvCfg (Ex.auT 1500) Ex.rvPre Ex.wdMid Ex.wdPost s0 s1 s _ _ 1 Ex.syReq Ex.syPrincipal
    (by decide) (by decide) hr0 hr1 hr (by rw [h2]; decide) honly (by rw [h0, h1]; decide) hn (Ex.doneOk_iff hd)
  unfold SignedBy at hs
  split at hs
  · obtain ⟨_, _, _, _, _, h, _⟩ := hs
    simp at h
  · obtain ⟨_, _, _, _, _, _, _, _, _, _, _, h, _⟩ := hs
    exact h

namespace Ex

/-- The key "1" is replaced by the key "2". -/
def rvRotate : List SysAct :=
  ([.update, .send 2, .answer 2 (.answer 200 [] "N".toList) ["2".toList], .step 2 [], .step 2 ["1".toList, "2".toList], .step 2 [], .step 2 [], .step 2 []] : List PkAct).map .pk

/-- A token signed with the key "2". -/
def rvReq : AReq := { syReq with tok := "v=Z1;d=dom;r=admin;p=me;t=1400;e=2000;k=2;s=y".toList }

/-- Call 0 is granted, then its key is replaced. -/
def rvOld : List SysAct := wdAgain ++ rvRotate

/-- The old token again, and the new one. -/
def rvPost : List SysAct := [.auth (.call 1 syReq), .auth (.get 1), .auth (.validate 1)] ++ (.auth (.call 2 rvReq) :: (syCall 2).map fun a =>
  match a with
  | .pd (.load _) => .pd (.load 1)
  | .pd (.chk _ b) => .pd (.chk 1 b)
  | a => a)

end Ex

/-- An execution to which `C78_revoked_partial` applies: the token with the old key, whose result was in the cache, is refused, and the token
with the new key is granted. -/
example : ∃ s0 s2 s, sysRun Ex.rvCfg (sysInit Ex.rvCfg (Ex.auT 1500)) Ex.rvOld = some s0 ∧ sysRun Ex.rvCfg s0 [] = some s0 ∧
    sysRun Ex.rvCfg s0 Ex.wdMid = some s2 ∧ sysRun Ex.rvCfg s2 Ex.rvPost = some s ∧ s.auth.now + Ex.rvCfg.auth.cacheExp < 2 ^ 63 ∧
    OnlyKeys Ex.rvCfg (sysInit Ex.rvCfg (Ex.auT 1500)) (Ex.rvOld ++ [] ++ Ex.wdMid ++ Ex.rvPost) Ex.rvOld.length (fun i _ => some i = some "2".toList) (fun _ _ _ => False) ∧
    s0.auth.calls 0 = some ⟨Ex.syReq, .done (.ok Ex.syPrincipal)⟩ ∧ s0.auth.now + Ex.rvCfg.auth.cacheExp < s2.auth.now ∧ s2.auth.calls 1 = none ∧
    s2.auth.calls 2 = none ∧ (∃ e, s.auth.calls 1 = some ⟨Ex.syReq, .done (.err e)⟩) ∧ s.auth.calls 2 = some ⟨Ex.rvReq, .done (.ok Ex.syPrincipal)⟩ := by
  obtain ⟨s0, s2, s, hr0, hr2, hr, hp⟩ := Ex.exists_three (cfg := Ex.rvCfg) (s := sysInit Ex.rvCfg (Ex.auT 1500)) (a := Ex.rvOld) (b := Ex.wdMid)
    (c := Ex.rvPost)
    (P := fun s0 s2 s => decide (s0.auth.now = Ex.auT 1500) && decide (s2.auth.now = Ex.auT 1561) && decide (s.auth.now = Ex.auT 1561) &&
      (s2.auth.calls 1).isNone && (s2.auth.calls 2).isNone && decide (Ex.doneOk s0.auth 0 Ex.syReq = some Ex.syPrincipal) &&
      decide (Ex.doneOk s.auth 2 Ex.rvReq = some Ex.syPrincipal) &&
      (match s.auth.calls 1 with | some ⟨q, .done (.err _)⟩ => decide (q = Ex.syReq) | _ => false)) (by decide +kernel)
  simp only [Bool.and_eq_true, decide_eq_true_eq, Option.isNone_iff_eq_none] at hp
  obtain ⟨⟨⟨⟨⟨⟨⟨h0, h1⟩, h2⟩, hn1⟩, hn2⟩, hd0⟩, hd⟩, he⟩ := hp
  have honly := Ex.rvOnly (cfg := Ex.rvCfg) (now := Ex.auT 1500) (n := Ex.rvOld.length) (acts := Ex.rvOld ++ [] ++ Ex.wdMid ++ Ex.rvPost) (id := some "2".toList)
    (by decide +kernel)
  refine ⟨s0, s2, s, hr0, rfl, hr2, hr, by rw [h2]; decide, honly, Ex.doneOk_iff hd0, by rw [h0, h1]; decide, hn1, hn2, ?_, Ex.doneOk_iff hd⟩
  split at he
  · rename_i q e hq
    simp only [decide_eq_true_eq] at he
    subst he
    exact ⟨e, hq⟩
  · simp at he

namespace Ex

/-- After each of the first `n` or more steps all JSON web keys have the key id "k". -/
def rvKidsB (cfg : SysCfg) (now : Int) (acts : List SysAct) (n : Nat) : Bool :=
  (List.range (acts.length + 1)).all fun m => decide (m < n) ||
    match sysRun cfg (sysInit cfg now) (acts.take m) with
    | none => true
    | some s => s.jwk.keys.all fun e => e.2.all fun k => k.kid == "k".toList

theorem rvKids {cfg : SysCfg} {now : Int} {acts : List SysAct} {n : Nat} (h : rvKidsB cfg now acts n = true) :
    OnlyKeys cfg (sysInit cfg now) acts n (fun _ _ => True) fun _ kid _ => kid = "k".toList := by
  simp only [rvKidsB, List.all_eq_true] at h
  intro p q s1 hp hlen hr
  have hle : p.length < acts.length + 1 := by rw [hp, List.length_append]; omega
  have ht : acts.take p.length = p := by rw [hp]; simp
  have := h _ (List.mem_range.mpr hle)
  rw [ht, hr] at this
  simp only [Bool.or_eq_true, decide_eq_true_eq, List.all_eq_true, beq_iff_eq] at this
  rcases this with h | h1
  · omega
  · refine ⟨fun _ _ _ => trivial, fun kid jku k hk => ?_⟩
    unfold getKey at hk
    split at hk
    · simp at hk
    · split at hk
      · simp at hk
      · rename_i set hset
        obtain ⟨pre, e, post, g1, _, g2, _⟩ := lookup_iff.mp hk
        obtain ⟨e', he, rfl⟩ := Option.map_eq_some_iff.mp hset
        rw [← g2]
        exact h1 e' (List.mem_of_find?_eq_some he) e (by rw [g1]; simp)

/-- The keys, an old set of JSON web keys, the policy, and then the new set. -/
def rvSets : List SysAct :=
  syKeys ++ [.jwk .update, .jwk (.fetch 0 (some [⟨"j".toList, some ⟨.rsaPublic, "T".toList⟩⟩])), .jwk (.store 0)] ++ syLoad chDom ++
  [.jwk .update, .jwk (.fetch 1 (some [⟨"k".toList, some ⟨.rsaPublic, "S".toList⟩⟩])), .jwk (.store 1)]

def rvVerify : List SysAct := [.auth (.opened 7 auHttp "read".toList "/x".toList), .auth (.fin 7), .auth (.sub 7 0)] ++ syCall 0 ++ [.auth (.fin 7)]

end Ex

/-- `Authorize` with a token signed with the new key, as `C78_session_partial` has it. -/
example : ∃ s0 s2 s x, sysRun Ex.chCfg (sysInit Ex.chCfg (Ex.auT 1500)) Ex.rvSets = some s0 ∧ sysRun Ex.chCfg s0 Ex.wdMid = some s2 ∧
    sysRun Ex.chCfg s2 Ex.rvVerify = some s ∧
    OnlyKeys Ex.chCfg (sysInit Ex.chCfg (Ex.auT 1500)) (Ex.rvSets ++ [] ++ Ex.wdMid ++ Ex.rvVerify) Ex.rvSets.length (fun _ _ => True) (fun _ kid _ => kid = "k".toList) ∧
    (∀ j q pc, s0.auth.calls j = some ⟨q, pc⟩ → ∃ r, s0.auth.calls j = some ⟨q, .done r⟩) ∧
    s0.auth.now + Ex.chCfg.auth.cacheExp < s2.auth.now ∧ s2.auth.sess 7 = none ∧ s.auth.sess 7 = some x ∧ x.result = some (.ok Ex.auPrincipal) := by
  obtain ⟨s0, s2, s, hr0, hr2, hr, hp⟩ := Ex.exists_three (cfg := Ex.chCfg) (s := sysInit Ex.chCfg (Ex.auT 1500)) (a := Ex.rvSets) (b := Ex.wdMid) (c := Ex.rvVerify)
    (P := fun s0 s2 s => decide (s0.auth.now = Ex.auT 1500) && decide (s2.auth.now = Ex.auT 1561) && (s2.auth.sess 7).isNone &&
      (match s.auth.sess 7 with | some x => decide (x.result = some (.ok Ex.auPrincipal)) | none => false)) (by decide +kernel)
  simp only [Bool.and_eq_true, decide_eq_true_eq, Option.isNone_iff_eq_none] at hp
  obtain ⟨⟨⟨h0, h1⟩, hn⟩, hd⟩ := hp
  have hnone : ∀ (l : List SysAct) (s : Sys), sysRun Ex.chCfg (sysInit Ex.chCfg (Ex.auT 1500)) l = some s →
      (l.all fun a => match a with | .auth _ => false | .endCheck _ _ _ => false | _ => true) = true → ∀ j, s.auth.calls j = none := by
    intro l s hl
    refine sysRun_ind (fun l s => (l.all fun a => match a with | .auth _ => false | .endCheck _ _ _ => false | _ => true) = true →
      ∀ j, s.auth.calls j = none) (fun _ _ => rfl) ?_ l s hl
    intro l s a s' ih _ hs hall j
    rw [List.all_append, Bool.and_eq_true] at hall
    rcases sysStep_auth hs with ⟨h, _⟩ | ⟨b, hb, _⟩
    · rw [h]; exact ih hall.1 j
    · rcases hb with rfl | ⟨_, _, _, rfl, _⟩ <;> simp at hall
  have hno := hnone _ _ hr0 (by decide +kernel)
  have honly := Ex.rvKids (cfg := Ex.chCfg) (now := Ex.auT 1500) (acts := Ex.rvSets ++ [] ++ Ex.wdMid ++ Ex.rvVerify) (n := Ex.rvSets.length) (by decide +kernel)
  cases hx : s.auth.sess 7 with
  | none => simp [hx] at hd
  | some x =>
    simp only [hx, decide_eq_true_eq] at hd
    exact ⟨s0, s2, s, x, hr0, hr2, hr, honly, fun j q pc hj => by rw [hno j] at hj; simp at hj, by rw [h0, h1]; decide, hn, hx, hd⟩

namespace Ex

/-- An authorizer that does nothing but look after its keys. -/
def rvSys (cfg : SysCfg) (pk : PkState) (jwk : JwkState) : Sys :=
  { auth := aInit pk.now (some pk.provider) (some (getKey cfg.jwk jwk))
    pk := pk, jwk := jwk, pd := pdInit pk.now cfg.domains, fs := fun _ => fInit pk.now pk.provider
    doms := [], waits := fun _ _ => none, checkOf := fun _ => none, dead := false }

theorem rvSys_tick {cfg : SysCfg} {pk : PkState} {jwk : JwkState} {d : Nat} :
    sysStep cfg (rvSys cfg pk jwk) (.tick d) = some (rvSys cfg { pk with now := pk.now + d } jwk) := rfl

theorem rvSys_jwk {cfg : SysCfg} {pk : PkState} {jwk jwk' : JwkState} {a : JwkAct} (h : jwkStep cfg.jwk jwk a = some jwk') :
    sysStep cfg (rvSys cfg pk jwk) (.jwk a) = some (rvSys cfg pk jwk') := by
  simp only [sysStep, rvSys, h, Bool.false_eq_true, if_false]
  rfl

theorem rvSys_pk {cfg : SysCfg} {pk pk' : PkState} {jwk : JwkState} {a : PkAct} (ha : ∀ d, a ≠ .tick d) (h : pkStep cfg.pk pk a = some pk')
    (hc : pk'.crashed = false) : sysStep cfg (rvSys cfg pk jwk) (.pk a) = some (rvSys cfg pk' jwk) := by
  have hn := pkStep_now h ha
  cases a with
  | tick d => exact absurd rfl (ha d)
  | _ => simp [sysStep, rvSys, h, Sys.withKeys, hn, hc, aInit, fInit]

theorem rvSys_fair {cfg : SysCfg} {now : Int} {x : SysExec cfg now} {n : Nat → PkState} {j : Nat → JwkState} (h : ∀ m, x.state m = rvSys cfg (n m) (j m)) :
    SysFair x := by
  intro th m hen
  exfalso
  obtain ⟨a, ha, hs⟩ := hen m (Nat.le_refl _)
  obtain ⟨s', hs⟩ := Option.isSome_iff_exists.mp hs
  rw [h m] at ha hs
  obtain ⟨_, he⟩ := sysStep_effect hs
  have hchk : ∀ k, ¬ OfCheck k a := by
    intro k hk
    cases he with
    | pd b pd' D F W hb hp =>
      cases b with
      | load k' => simp [pdStep, rvSys, pdInit] at hp
      | chk k' b => simp [pdStep, rvSys, pdInit] at hp
      | _ => simp [OfCheck] at hk
    | _ => simp [OfCheck] at hk
  have hcall : ∀ i, ¬ OfCall (rvSys cfg (n m) (j m)) i a := by
    rintro i (⟨k, _, hk⟩ | hi)
    · exact hchk k hk
    · cases he with
      | auth b auth' hb hst =>
        cases b with
        | get j => simp [aStep, rvSys, aInit] at hst
        | validate j => simp [aStep, rvSys, aInit] at hst
        | translate j seed => simp [aStep, rvSys, aInit] at hst
        | store j => simp [aStep, rvSys, aInit] at hst
        | _ => exact hi.elim
      | beginCheck j q p act res pd' hcl => simp [rvSys, aInit] at hcl
      | endCheck j view sched k c r auth' hk hck hl hret hv hst => simp [rvSys] at hk
      | _ => exact hi.elim
  cases th with
  | check k => exact hchk k ha
  | call i => exact hcall i ha
  | sess k =>
    rcases ha with ⟨i, rfl⟩ | rfl | ⟨y, i, hy, _, hi⟩
    · simp [sysStep, rvSys, aStep, aInit] at hs
    · simp [sysStep, rvSys, aStep, aInit] at hs
    · exact hcall i hi

/-- The public key daemon alone. -/
def rvPkAct : PkAct → SysAct
  | .tick d => .tick d
  | a => .pk a

def rvOfPk {cfg : SysCfg} {now : Int} (y : PkExec cfg.pk now) : SysExec cfg now where
  state n := rvSys cfg (y.state n) jwkInit
  act n := rvPkAct (y.act n)
  init := by rw [y.init]; rfl
  next n := by
    have h := y.next n
    have hc : (y.state (n + 1)).crashed = false := by
      have := y.next (n + 1)
      unfold pkStep at this
      split at this
      · simp at this
      · rename_i h; simpa using h
    cases ha : y.act n with
    | tick d =>
      rw [ha] at h
      unfold pkStep at h
      split at h
      · simp at h
      · simp only [Option.some.injEq] at h
        rw [← h]
        exact rvSys_tick
    | _ => rw [ha] at h; exact rvSys_pk (by simp) h hc

theorem rvOfPk_pk {cfg : SysCfg} {now : Int} (y : PkExec cfg.pk now) : pkExecOf (rvOfPk y) = y := by
  have : (fun n => pkActOf (rvPkAct (y.act n))) = y.act := by
    funext n
    cases y.act n <;> rfl
  cases y with
  | mk st act init next =>
    simp only [pkExecOf, rvOfPk, PkExec.mk.injEq]
    exact ⟨rfl, this⟩

theorem rvOfPk_fair {cfg : SysCfg} {now : Int} (y : PkExec cfg.pk now) (hf : PkFair y) : KeyFair (rvOfPk y) := by
  refine ⟨fun j n hen => ?_, fun j n hen => ?_⟩
  · obtain ⟨m, hm, ho⟩ := hf j n fun m hm => by
      obtain ⟨a, ha, hs⟩ := hen m hm
      refine ⟨a, ha, ?_⟩
      cases a with
      | tick d => simp [OfJob, jobOf] at ha
      | _ =>
        obtain ⟨s', hs⟩ := Option.isSome_iff_exists.mp hs
        obtain ⟨_, he⟩ := sysStep_effect hs
        cases he with
        | pk a pk' ha hp => exact Option.isSome_iff_exists.mpr ⟨_, hp⟩
    refine ⟨m, y.act m, hm, ?_, ho⟩
    show rvPkAct (y.act m) = _
    cases h : y.act m with
    | tick d => rw [h] at ho; simp [OfJob, jobOf] at ho
    | _ => rfl
  · exfalso
    obtain ⟨a, ha, hs⟩ := hen n (Nat.le_refl _)
    cases a with
    | update => simp [OfJwkJob] at ha
    | _ => simp [sysStep, rvOfPk, rvSys, jwkStep, jwkInit] at hs

/-- The JWK daemon alone; time passes before each step. -/
def rvJwkAct : Option JwkAct → SysAct
  | none => .tick 0
  | some a => .jwk a

def rvClock (now : Int) (k : Nat) : PkState := { pkInit now with now := now + k }

theorem rvClock_succ (now : Int) (k : Nat) : { rvClock now k with now := (rvClock now k).now + (1 : Nat) } = rvClock now (k + 1) := by
  have : now + (k : Int) + (1 : Nat) = now + ((k + 1 : Nat) : Int) := by omega
  simp only [rvClock, this]

def rvOfJwk {cfg : SysCfg} (now : Int) (z : JwkExec cfg.jwk) : SysExec cfg now where
  state n := rvSys cfg (rvClock now ((n + 1) / 2)) (z.state (n / 2))
  act n := if n % 2 = 0 then .tick 1 else rvJwkAct (z.act (n / 2))
  init := by
    have : rvClock now ((0 + 1) / 2) = pkInit now := by simp [rvClock, pkInit]
    rw [this, Nat.zero_div, z.init]
    rfl
  next n := by
    by_cases hn : n % 2 = 0
    · rw [if_pos hn, rvSys_tick, rvClock_succ, show (n + 1 + 1) / 2 = (n + 1) / 2 + 1 by omega, show (n + 1) / 2 = n / 2 by omega]
    · rw [if_neg hn, show (n + 1 + 1) / 2 = (n + 1) / 2 by omega, show (n + 1) / 2 = n / 2 + 1 by omega]
      have h := z.next (n / 2)
      cases ha : z.act (n / 2) with
      | none =>
        rw [ha] at h
        rw [show z.state (n / 2 + 1) = z.state (n / 2) from h]
        simp [rvJwkAct, rvSys_tick]
      | some a =>
        rw [ha] at h
        exact rvSys_jwk h

theorem rvOfJwk_fair {cfg : SysCfg} (now : Int) (z : JwkExec cfg.jwk) (hf : JwkFair z) : KeyFair (rvOfJwk now z) := by
  refine ⟨fun j n hen => ?_, fun j n hen => ?_⟩
  · exfalso
    obtain ⟨a, ha, hs⟩ := hen n (Nat.le_refl _)
    cases a <;> first
      | (simp [OfJob, jobOf] at ha; done)
      | simp [sysStep, rvOfJwk, rvSys, rvClock, pkStep, pkInit] at hs
  · obtain ⟨m, a, hm, ha, ho⟩ := hf j n fun m hm => by
      obtain ⟨a, ha, hs⟩ := hen (2 * m) (by omega)
      refine ⟨a, ha, ?_⟩
      obtain ⟨s', hs⟩ := Option.isSome_iff_exists.mp hs
      obtain ⟨_, he⟩ := sysStep_effect hs
      cases he with
      | jwk a jwk' hj =>
        have hj : jwkStep cfg.jwk (z.state (2 * m / 2)) a = some jwk' := hj
        rw [show 2 * m / 2 = m by omega] at hj
        exact Option.isSome_iff_exists.mpr ⟨_, hj⟩
    refine ⟨2 * m + 1, a, by omega, ?_, ho⟩
    show (if (2 * m + 1) % 2 = 0 then _ else rvJwkAct (z.act ((2 * m + 1) / 2))) = _
    rw [if_neg (by omega), show (2 * m + 1) / 2 = m by omega, ha]
    rfl

theorem rvOfJwk_act {cfg : SysCfg} {now : Int} {z : JwkExec cfg.jwk} {n : Nat} {a : JwkAct} (h : (jwkExecOf (rvOfJwk now z)).act n = some a) :
    z.act (n / 2) = some a := by
  have h : jwkActOf (if n % 2 = 0 then .tick 1 else rvJwkAct (z.act (n / 2))) = some a := h
  split at h
  · simp [jwkActOf] at h
  · cases hz : z.act (n / 2) with
    | none => simp [hz, rvJwkAct, jwkActOf] at h
    | some b => rw [hz] at h; exact h

theorem rvOfJwk_serves {cfg : SysCfg} {now : Int} {z : JwkExec cfg.jwk} {N : Nat} {url : Str} {set : JwkSet} (h : ServesSet z N url set) :
    ServesSet (jwkExecOf (rvOfJwk now z)) (2 * N) url set := by
  intro n hn j set' ha hw
  exact h (n / 2) (by omega) j set' (rvOfJwk_act ha) hw

theorem rvOfJwk_reached {cfg : SysCfg} {now : Int} {z : JwkExec cfg.jwk} {url : Str} (h : ReachedJwk z url) :
    ReachedJwk (jwkExecOf (rvOfJwk now z)) url := by
  intro n
  obtain ⟨m, j, set, hm, ha, hw⟩ := h n
  refine ⟨2 * m + 1, j, set, by omega, ?_, ?_⟩
  · show jwkActOf (if (2 * m + 1) % 2 = 0 then _ else rvJwkAct (z.act ((2 * m + 1) / 2))) = _
    rw [if_neg (by omega), show (2 * m + 1) / 2 = m by omega, ha]
    rfl
  · show WorksOn (z.state ((2 * m + 1) / 2)) j url
    rw [show (2 * m + 1) / 2 = m by omega]
    exact hw

end Ex

/-- The hypotheses of `C78_access` are met by an execution in which a new set replaces the old one. -/
example : ∃ x : SysExec { Ex.chCfg with jwk := Ex.rjCfg } (Ex.auT 1500), Ex.chCfg.auth.disablePolicyd = false ∧ 0 < Ex.chCfg.auth.cacheExp ∧ SysFair x ∧ KeyFair x ∧
    (∀ url, ConfiguredURL Ex.rjCfg url → ServesSet (jwkExecOf x) 4 url Ex.jkB ∧ ReachedJwk (jwkExecOf x) url) ∧
    (∃ k, getKey Ex.rjCfg (x.state 12).jwk "k".toList [] = some k) ∧ ∀ t : Int, ∃ n, t < (x.state n).auth.now := by
  refine ⟨Ex.rvOfJwk (Ex.auT 1500) Ex.rjX, rfl, by decide, Ex.rvSys_fair (fun m => rfl), Ex.rvOfJwk_fair _ _ Ex.rjX_fair, ?_, ?_, ?_⟩
  · intro url hu
    obtain rfl : url = "athenz".toList := by simpa [ConfiguredURL, Ex.rjCfg] using hu
    exact ⟨Ex.rvOfJwk_serves (N := 2) fun n hn j set h _ => Ex.rjX_act hn h,
      Ex.rvOfJwk_reached fun n => ⟨6 + 3 * n + 1, 2 + n, Ex.jkB, by omega, Ex.rjX_worksOn n⟩⟩
  · exact ⟨⟨.rsaPublic, "S".toList⟩, by show getKey Ex.rjCfg (Ex.rjX.state 6) "k".toList [] = _; decide +kernel⟩
  · intro t
    refine ⟨2 * t.toNat, ?_⟩
    show t < Ex.auT 1500 + (((2 * t.toNat + 1) / 2 : Nat) : Int)
    have : (0 : Int) < Ex.auT 1500 := by decide
    omega

/-- The hypotheses of `C78_role_partial` are met by an execution in which new keys replace the old ones. -/
example : ∃ x : SysExec { Ex.chCfg with pk := Ex.rtCfg } 0, SysFair x ∧ KeyFair x ∧ ServesKeys (pkExecOf x) 11 .zts "tb".toList Ex.rtKeys ∧
    Reached (pkExecOf x) .zts ∧ Versioned (pkExecOf x) .zts "tb".toList Ex.rtKeys ∧ OneAtATime (pkExecOf x) .zts ∧
    ¬ InUse (x.state 11).pk .zts Ex.rtKeys := by
  obtain ⟨y, h1, h2, h3, h4, h5, h6⟩ := Ex.rtSerial_exec
  refine ⟨Ex.rvOfPk (cfg := { Ex.chCfg with pk := Ex.rtCfg }) y, Ex.rvSys_fair (fun m => rfl), Ex.rvOfPk_fair _ h1, ?_⟩
  rw [Ex.rvOfPk_pk]
  exact ⟨h2, h3, h4, h5, h6⟩

/-- The hypotheses of `C78_expiring_partial` are met by an execution with overlapping updates. -/
example : ∃ x : SysExec { Ex.chCfg with pk := Ex.pkCfg } 0, SysFair x ∧ KeyFair x ∧ ServesKeys (pkExecOf x) 4 .zts "tb".toList Ex.rtKeys ∧
    Reached (pkExecOf x) .zts ∧ Over (pkExecOf x) 4 23 .zts ∧ 0 < Ex.pkCfg.eTagExpiry ∧ (x.state 23).auth.now + Ex.pkCfg.eTagExpiry < 2 ^ 63 ∧
    (∃ m, (x.state 23).auth.now + Ex.pkCfg.eTagExpiry < (x.state m).auth.now) ∧ ¬ InUse (x.state 23).pk .zts Ex.rtKeys ∧ ¬ OneAtATime (pkExecOf x) .zts := by
  obtain ⟨y, h1, h2, h3, h4, h5, h6, h7, h8⟩ := Ex.rtForget_exec
  refine ⟨Ex.rvOfPk (cfg := { Ex.chCfg with pk := Ex.pkCfg }) y, Ex.rvSys_fair (fun m => rfl), Ex.rvOfPk_fair _ h1, ?_⟩
  rw [Ex.rvOfPk_pk]
  exact ⟨h2, h3, h4, by decide, h5, h6, h7, h8⟩

end Athenz
