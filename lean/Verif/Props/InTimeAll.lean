import Verif.Spec.InTimeAll
import Verif.Props.InTimeKeys
import Verif.Props.InTime

/-! # C105: when new policies and new keys are in force in the started authorizer -/

namespace Athenz
open Spec

namespace InTimePdP

open InTimeP (busy)

variable {cfg : SysCfg} {ce : Str} {now : Int} {on : LKind → Bool}

/-- Where the goroutine comes into `Update`, it calls it. -/
theorem act_call (y : RsExec cfg ce now on) (hon : on .policyd = true) {n : Nat} (h1 : (y.loop .policyd n).pc = .select)
    (h2 : busy (y.loop .policyd (n + 1))) : ∃ r fetch, y.act n = .call .policyd r fetch := by
  obtain ⟨_, _, he⟩ := rs_loop y hon n
  obtain ⟨r, h2⟩ := h2
  generalize y.loop .policyd (n + 1) = c' at he h2
  generalize y.loop .policyd n = c at he h1
  generalize y.act n = a at he
  generalize y.state (n + 1) = s' at he
  have own : ∀ a, a.own = true → lStep .policyd ce c a = some c' → False := by
    intro a ho hl
    have := lStep_effect hl
    cases this <;> simp_all [LAct.own]
  cases he with
  | idle a g1 g2 g0 g3 g4 => subst g3; rw [h1] at h2; cases h2
  | own a g1 g2 g3 g4 g5 => exact (own a g1 g4).elim
  | cancel g1 g2 => exact (own _ rfl g1).elim
  | take g1 g2 => exact (own _ rfl g1).elim
  | closed g1 g3 g4 => subst g3; rw [h1] at h2; cases h2
  | call retry fetch g1 g2 => exact ⟨retry, fetch, rfl⟩
  | ret e i ok g1 g2 g3 g4 => cases ok <;> simp [lStep, h1] at g3

/-- Where it calls `Update`, it comes from its select. -/
theorem call_act (y : RsExec cfg ce now on) (hon : on .policyd = true) {n : Nat} {r : Bool} {fetch : List (Option PolicyDoc)}
    (h : y.act n = .call .policyd r fetch) : (y.loop .policyd n).pc = .select ∧ busy (y.loop .policyd (n + 1)) ∧
      (y.state (n + 1)).cur .policyd = some (y.state n).sys.pd.tasks.length := by
  have he := (rs_loop y hon n).2.2
  rw [h] at he
  generalize y.loop .policyd (n + 1) = c' at he
  generalize y.state (n + 1) = s' at he
  cases he with
  | idle a g1 g2 g0 g3 g4 => exact absurd rfl g1
  | call retry fetch g1 g2 =>
    obtain ⟨k1, k2, _⟩ := lStep_sel g1
    exact ⟨k1, ⟨_, k2⟩, g2⟩

/-- As long as it has not returned, the goroutine is in this call. -/
theorem call_held (y : RsExec cfg ce now on) (hon : on .policyd = true) {n : Nat} {r : Bool} {fetch : List (Option PolicyDoc)}
    (hn : y.act n = .call .policyd r fetch) (d : Nat) :
    (y.state (n + 1 + d)).cur .policyd = some (y.state n).sys.pd.tasks.length ∨
      ∃ t, (y.state (n + 1 + d)).sys.pd.tasks[(y.state n).sys.pd.tasks.length]? = some t ∧ t.ret ≠ none := by
  induction d with
  | zero => exact .inl (call_act y hon hn).2.2
  | succ d ih =>
    rw [show n + 1 + (d + 1) = n + 1 + d + 1 by omega]
    have hst : ∀ (i : Nat) (t : Task), (y.state (n + 1 + d)).sys.pd.tasks[i]? = some t → t.ret ≠ none →
        ∃ t', (y.state (n + 1 + d + 1)).sys.pd.tasks[i]? = some t' ∧ t'.ret ≠ none := by
      intro i t ht hr
      obtain ⟨t', h1, _, _, h2⟩ := sysStep_task (y.sys.next (n + 1 + d)) ht
      exact ⟨t', h1, by rw [h2 hr]; exact hr⟩
    rcases ih with hc | ⟨t, ht, hr⟩
    · obtain ⟨_, hinv, he⟩ := rs_loop y hon (n + 1 + d)
      obtain ⟨r0, hpc⟩ := hinv.cur _ hc
      revert he hst
      generalize y.act (n + 1 + d) = a
      generalize y.loop .policyd (n + 1 + d + 1) = c'
      generalize y.state (n + 1 + d + 1) = s'
      intro hst he
      cases he with
      | idle a g1 g2 g0 g3 g4 => exact .inl (g4.trans hc)
      | own a g1 g2 g3 g4 g5 => exact .inl (g5.trans hc)
      | cancel g1 g2 => exact .inl (g2.trans hc)
      | take g1 g2 => exact .inl (g2.trans hc)
      | closed g1 g3 g4 => exact .inl (g4.trans hc)
      | call retry fetch g1 g2 =>
        rw [(lStep_sel g1).1] at hpc
        cases hpc
      | ret e i ok g1 g2 g3 g4 =>
        rw [hc] at g1
        obtain rfl := Option.some.inj g1
        simp only [Sys.updateRet, Option.bind_eq_some_iff] at g2
        obtain ⟨t, ht, hr⟩ := g2
        exact .inr (hst _ t ht (by rw [hr]; simp))
    · exact .inr (hst _ t ht hr)

theorem returned (y : RsExec cfg ce now on) (hon : on .policyd = true) {n m : Nat} {r : Bool} {fetch : List (Option PolicyDoc)}
    (hn : y.act n = .call .policyd r fetch) (hm : n < m) (hq : ¬ busy (y.loop .policyd m)) :
    ∃ t, (y.state m).sys.pd.tasks[(y.state n).sys.pd.tasks.length]? = some t ∧ t.ret ≠ none := by
  obtain ⟨d, rfl⟩ := Nat.exists_eq_add_of_le (show n + 1 ≤ m by omega)
  rcases call_held y hon hn d with hc | h
  · exact absurd ((rs_loop y hon (n + 1 + d)).2.1.cur _ hc) hq
  · exact h

end InTimePdP

/-- **C105**, the hypothesis about the updates: if the goroutine of the policy daemon goes on without delay, then until every time `T` that is reached its updates are called and return at the times of the model of times, for some choice where a
retry and a tick are both ready. -/
theorem C105_paced (cfg : SysCfg) (ce : Str) (now : Int) (on : LKind → Bool) (hon : on .policyd = true) (y : RsExec cfg ce now on) (pace : PaceCfg)
    (env : Nat → Int → TFetch) (B : Nat) (c : Nat → TLoop) (h : PdInTime y pace env B c) (hp : 0 < pace.period)
    (hat : pace.atTick = false) (T : Int) (N : Nat) (hBN : B ≤ N) (hN : T < (y.state N).sys.auth.now) :
    ∃ pick call done, PacedUntil y.sys (paceUpd pace env pick) T call done := by
  obtain ⟨pick, call, done, hB, hcall, hdone, hnext, honly⟩ := PromptP.schedule hp (by simp [hat]) h.prompt T N hBN (by rw [h.clock N hBN]; exact hN)
  have hloop : ∀ n, B ≤ n → (c n).l = y.loop .policyd n := by
    intro n hn
    have h1 := (rs_loop y hon n).1
    rw [h.loop n hn] at h1
    exact Option.some.inj h1
  have at_call : ∀ k, (paceUpd pace env pick k).start ≤ T → ∃ r f, y.act (call k) = .call .policyd r f := by
    intro k hk
    obtain ⟨_, a1, a2, _⟩ := hcall k hk
    rw [hloop _ (hB k)] at a1
    rw [hloop _ (Nat.le_succ_of_le (hB k))] at a2
    exact InTimePdP.act_call y hon a1 a2
  refine ⟨pick, call, done, fun k hk => Nat.le_of_lt (hdone k hk).1, hnext, ?_, ?_, ?_⟩
  · intro k hk
    obtain ⟨r, f, ha⟩ := at_call k hk
    refine ⟨⟨f, by show (y.act (call k)).proj = _; rw [ha]; rfl⟩, ?_⟩
    rw [← (hcall k hk).2.2.2, h.clock _ (hB k)]
    rfl
  · intro k hk
    obtain ⟨d1, d2, d3, d5⟩ := hdone k hk
    have := hB k
    obtain ⟨r, f, ha⟩ := at_call k (by unfold stops at hk; omega)
    refine ⟨?_, ?_⟩
    · rw [← d5, h.clock _ (by omega)]; rfl
    · rw [hloop _ (by omega)] at d3
      exact InTimePdP.returned y hon ha d1 d3
  · intro n fetch ha hn
    have ha' : (y.act n).proj = .pd (.update fetch) := ha
    cases hact : y.act n with
    | sys a =>
      rw [hact] at ha'
      have : a = .pd (.update fetch) := ha'
      rw [this] at hact
      obtain ⟨_, t, ht, hr⟩ := h.others n fetch hact
      obtain ⟨t', h1, _, h2⟩ := ret_stays y.sys (hB 0) ht
      exact .inr ⟨t', h1, by rw [h2 hr]; exact hr⟩
    | fwd a => rw [hact] at ha'; cases ha'
    | ret k e => rw [hact] at ha'; cases ha'
    | call k r f =>
      rw [hact] at ha'
      cases k with
      | pubkeyd => cases ha'
      | jwkd => cases ha'
      | policyd =>
        left
        have hBn : B ≤ n := by
          refine Classical.byContradiction fun hlt => ?_
          exact h.before n r f (by omega) hact
        have hn' : (y.sys.state n).auth.now ≤ T := hn
        have hnN : n < N := by
          refine Classical.byContradiction fun hge => ?_
          have := PacedP.now_mono y.sys (show N ≤ n by omega)
          have hN' : T < (y.sys.state N).auth.now := hN
          omega
        obtain ⟨c1, c2, _⟩ := InTimePdP.call_act y hon hact
        rw [← hloop n hBn] at c1
        rw [← hloop (n + 1) (by omega)] at c2
        obtain ⟨k, hk, e⟩ := honly n hBn hnN c1 c2
        refine ⟨k, ?_, e⟩
        rw [hk, h.clock n hBn]
        exact hn

theorem InTimePdP.started {cfg : SysCfg} {ce : Str} {now : Int} {on : LKind → Bool} {y : RsExec cfg ce now on} {pace : PaceCfg}
    {env : Nat → Int → TFetch} {B : Nat} {c : Nat → TLoop} (h : PdInTime y pace env B c) {m : Nat} (hm : pace.t0 < (y.state m).sys.auth.now) : B ≤ m := by
  have hB := h.clock B (Nat.le_refl B)
  rw [h.prompt.init] at hB
  refine PacedP.later (x := y.sys) ?_
  show (y.state B).sys.auth.now < (y.state m).sys.auth.now
  rw [← hB]
  exact hm

namespace InTimeAllP

variable {cfg : SysCfg} {now : Int} {x : SysExec cfg now}

/-- Calls that begin long after only certain keys are given out and only certain policies are in force. -/
theorem grant_after (h0 : 0 ≤ now) (hpol : cfg.auth.disablePolicyd = false) (hexp : 0 < cfg.auth.cacheExp) (hR : 0 ≤ cfg.fetch.retryAttempts) {N : Nat}
    {D : List PolicyDoc} (hD : NewPolicies x N D) {M : Nat} {E : Int} (hMt : (x.state M).auth.now ≤ E)
    {R : Str → SigVerifier → Prop} {J : Str → Str → JKey → Prop} (gives : ∀ n, M ≤ n → GivesOnly cfg (x.state n) R J)
    (hin : ∀ m, M ≤ m → (∀ docs, InForce cfg (sysInit cfg now) (x.hist m) (x.state m) docs → docs = D.map some) ∧
      ∃ i, LastUpdate (x.hist m) (x.state m) i ∧ (x.state N).pd.tasks.length ≤ i)
    (m : Nat) (L : Nat) (hL : StoresWithin L (x.state m).auth.log) (hbig : (x.state m).auth.now + cfg.auth.cacheExp < 2 ^ 63) (i : Nat) (q : AReq)
    (p : Principal) (hlate : ∀ tb, .begun i tb ∈ (x.state m).auth.log → E + L + cfg.auth.cacheExp < tb)
    (hc : (x.state m).auth.calls i = some ⟨q, .done (.ok p)⟩)
    (hreg : ∀ role ∈ p.roles, RegularAt cfg.auth.U (D.map some) now (x.state m).auth.now (x.state m).auth.now (p.domain ++ ":role.".toList ++ role)) :
    ∃ q' seed act res, cacheKey cfg.auth q' = cacheKey cfg.auth q ∧ SignedBy cfg R J q' ∧ Translates cfg.auth seed p.domain q' act res ∧
      Decision cfg.auth.U (allAssertions (D.map some)) ⟨p.domain, p.roles, act, cfg.auth.resourcePrefix ++ res⟩ (.ok p.authorizedRoles) := by
  have split : ∀ {h1 h2 : List SysAct}, x.hist m = h1 ++ h2 → h1 = x.hist h1.length ∧ h1.length ≤ m := by
    intro h1 h2 he
    have := congrArg (List.take h1.length) he
    rw [List.take_append_of_le_length (Nat.le_refl _), List.take_length] at this
    have hle : h1.length ≤ m := by
      have := congrArg List.length he
      simp only [SysExec.hist, List.length_map, List.length_range, List.length_append] at this
      omega
    refine ⟨?_, hle⟩
    conv => lhs; rw [← this]
    simp only [SysExec.hist, ← List.map_take, List.take_range, Nat.min_eq_left hle]
  have logs : ∀ {e : AEvent} {m}, M ≤ m → e ∈ (x.state M).auth.log → e ∈ (x.state m).auth.log := by
    intro e m hm he
    clear hL hbig hlate hc hreg split
    induction hm with
    | refl => exact he
    | step _ ih => exact (sysStep_log (x.next _)).1 _ ih
  obtain ⟨tb0, hb0, hb0'⟩ := PacedP.begun_of_call (SysExec.run x m) hc
  have hMm : M ≤ m := PacedP.later (x := x) (by have := hlate tb0 hb0; omega)
  have none_ : ∀ j, (∀ tb, .begun j tb ∈ (x.state m).auth.log → (x.state M).auth.now < tb) → (x.state M).auth.calls j = none := by
    intro j hj
    cases hcj : (x.state M).auth.calls j with
    | none => rfl
    | some c =>
      obtain ⟨tb, g1, g2⟩ := PacedP.begun_of_call (SysExec.run x M) hcj
      have := hj tb (logs hMm g1)
      omega
  have after : ∀ {j q' pc h1}, (x.state M).auth.calls j = none → (x.state h1).auth.calls j = some ⟨q', pc⟩ → M ≤ h1 := by
    intro j q' pc h1 hj hjx
    refine Classical.byContradiction fun hlt => ?_
    obtain ⟨pc', h3, _⟩ := sysRun_calls (SysExec.runFrom x (show h1 ≤ M by omega)) hjx
    rw [hj] at h3; simp at h3
  have key : ∀ j ts, (x.state M).auth.calls j = none → .stored j ts (cacheKey cfg.auth q) p ∈ (x.state m).auth.log →
      ∃ q' seed act res, cacheKey cfg.auth q' = cacheKey cfg.auth q ∧ SignedBy cfg R J q' ∧ Translates cfg.auth seed p.domain q' act res ∧
        Decision cfg.auth.U (allAssertions (D.map some)) ⟨p.domain, p.roles, act, cfg.auth.resourcePrefix ++ res⟩ (.ok p.authorizedRoles) := by
    intro j ts hj hst
    obtain ⟨q', c1, hk, h1, docs', hd⟩ := (wInv_run h0 hpol (SysExec.run x m)).stored j ts _ p hst
    obtain ⟨q'', c2, _, h1', hv⟩ := (vInv_run (SysExec.run x m)).stored j ts _ p hst
    rw [c1] at c2
    simp only [Option.some.injEq, Call.mk.injEq, and_true] at c2
    subst c2
    obtain ⟨_, h2, sx, pc, seed, act, res, he, hxr, hjx, _, hdocs, htr, hdec⟩ := hd
    obtain ⟨h2', sx', pc', he', hxr', hjx', _, htok⟩ := hv
    have hr' := hxr'
    have e1' := (split he').1
    rw [e1', SysExec.run x] at hxr'
    obtain rfl := Option.some.inj hxr'
    have hsig := signedBy (sysRuns_run hr').1 (gives _ (after hj hjx')) htok
    have e1 := (split he).1
    rw [e1, SysExec.run x] at hxr
    obtain rfl := Option.some.inj hxr
    have hge := after hj hjx
    rw [e1] at hdocs
    simp only [SysExec.hist, List.length_map, List.length_range] at hdocs
    have := (hin h1.length hge).1 docs' hdocs
    subst this
    refine ⟨q', seed, act, res, hk.symm, hsig, htr, hdec hreg ?_⟩
    have := yields_alike (hD.yields hR) (m := m) (hin h1.length hge).2
      (K := fun k => ∃ role ∈ p.roles, k = p.domain ++ ":role.".toList ++ role) (by rintro _ ⟨role, hr, rfl⟩; exact hreg role hr)
    rw [e1]
    simpa [SysExec.hist] using this.imp fun d h role hr => h _ ⟨role, hr, rfl⟩
  have hpast := log_past (SysExec.run x m)
  obtain ⟨acts, ha⟩ := (sysRuns_run (SysExec.run x m)).2.auth
  rcases (aInv_run h0 ha).pcs i q _ hc with ⟨ts, hst⟩ | ⟨th, j, ts, h1, h2, h3, _, ⟨tb, h5, h6⟩, _⟩
  · exact key i ts (none_ i fun tb h => by have := hlate tb h; omega) hst
  · refine key j ts (none_ j fun tbj hj => ?_) h2
    have g1 := hL j tbj ts _ _ hj h2
    have g2 := hlate tb h5
    have g3 := hpast.1 _ _ _ _ h2
    have g4 := h3.2 hexp (by omega)
    omega

end InTimeAllP

/-- **C105**, policies: in a started authorizer whose policy daemon goes on without delay, and whose updates take at most `U`, exactly the policies `D`
that the server has from `t` on are in force, later than the longer of a period and an update with its pause, and another update, after `t`. -/
theorem C105_policies (cfg : SysCfg) (ce : Str) (now : Int) (hR : 0 ≤ cfg.fetch.retryAttempts) (on : LKind → Bool) (hon : on .policyd = true)
    (y : RsExec cfg ce now on) (pace : PaceCfg) (env : Nat → Int → TFetch) (B : Nat) (c : Nat → TLoop) (h : PdInTime y pace env B c)
    (hp : 0 < pace.period) (hat : pace.atTick = false) (U : Nat) (hU : Takes U env) (N : Nat) (D : List PolicyDoc) (hD : NewPolicies y.sys N D) (t : Int)
    (ht : pace.t0 ≤ t) (hN : ∀ n, t ≤ (y.state n).sys.auth.now → N ≤ n) (m : Nat)
    (hm : t + max pace.period (U + pace.delay.toNat) + U < (y.state m).sys.auth.now) (docs : List (Option PolicyDoc)) :
    InForce cfg (sysInit cfg now) (y.sys.hist m) (y.state m).sys docs ↔ docs = D.map some := by
  obtain ⟨pick, call, done, hx⟩ := C105_paced cfg ce now on hon y pace env B c h hp hat _ m (InTimePdP.started h (by omega)) hm
  exact C101_in_force cfg now hR y.sys N D hD t hN pace env pick U hp ht hU _ call done hx (Int.le_refl _) m hm docs

/-- **C105**, checks: those that begin later than that decide as `D` says.  Missing: policies that are not regular (`C101_refuted`). -/
theorem C105_check_partial (cfg : SysCfg) (ce : Str) (now : Int) (hnow : 0 ≤ now) (hR : 0 ≤ cfg.fetch.retryAttempts) (on : LKind → Bool)
    (hon : on .policyd = true) (y : RsExec cfg ce now on) (pace : PaceCfg) (env : Nat → Int → TFetch) (B : Nat) (c : Nat → TLoop) (h : PdInTime y pace env B c) (hp : 0 < pace.period)
    (hat : pace.atTick = false) (U : Nat) (hU : Takes U env) (N : Nat) (D : List PolicyDoc) (hD : NewPolicies y.sys N D) (t : Int) (ht : pace.t0 ≤ t)
    (hN : ∀ n, t ≤ (y.state n).sys.auth.now → N ≤ n) (n m k : Nat) (q : Chk) (r : Res (List Str))
    (hn : t + max pace.period (U + pace.delay.toNat) + U < (y.state n).sys.auth.now) (hk : (y.state n).sys.pd.checks.length ≤ k)
    (hc : (y.state m).sys.pd.checks[k]? = some q) (hret : q.cs.coll = .ret r)
    (hreg : ∀ role ∈ q.q.roles, RegularAt cfg.auth.U (D.map some) now (y.state m).sys.auth.now (y.state m).sys.auth.now
      (q.q.domain ++ ":role.".toList ++ role)) :
    Decision cfg.auth.U (allAssertions (D.map some)) q.q r := by
  obtain ⟨pick, call, done, hx⟩ := C105_paced cfg ce now on hon y pace env B c h hp hat _ n (InTimePdP.started h (by omega)) hn
  exact C101_check_partial cfg now hnow hR y.sys N D hD t hN pace env pick U hp ht hU _ call done hx (Int.le_refl _) n m k q r hn hk hc hret hreg

/-- **C105**.  In a started authorizer whose three daemons go on without delay, from the time `t` on the server has the policies `D`, ZTS has the keys
`K` and the servers of the configured URLs give the sets `S`.  A call that begins when all daemons have had the time for an update, and the time in
which calls store their results and the lifetime of cached results have passed, is granted only if for one request with the same cache key the token is
signed with a key of `K` or `S`, and `D` allows what it asks for.  Missing: policies that are not regular in the sense of C68 (`C105_refuted`). -/
theorem C105_grant_partial (cfg : SysCfg) (ce : Str) (now : Int) (h0 : 0 ≤ now) (hpol : cfg.auth.disablePolicyd = false) (hexp : 0 < cfg.auth.cacheExp)
    (hR : 0 ≤ cfg.fetch.retryAttempts) (on : LKind → Bool) (hon : ∀ k, on k = true) (y : RsExec cfg ce now on) (pd pp pj : PaceCfg)
    (ed ep ej : Nat → Int → TFetch) (Bd Bp Bj : Nat) (cd cp cj : Nat → TLoop) (hf : InitFirst y Bp) (hyd : PdInTime y pd ed Bd cd)
    (hyp : PkInTime y pp ep Bp cp) (hyj : JwkInTime y pj ej Bj cj) (hpd : 0 < pd.period) (hpp : 0 < pp.period) (hpj : 0 < pj.period)
    (hatd : pd.atTick = false) (hatp : pp.atTick = false) (hatj : pj.atTick = true) (Ud Up Uj : Nat) (hUd : Takes Ud ed) (hUp : Takes Up ep)
    (hUj : Takes Uj ej) (N : Nat) (D : List PolicyDoc) (V : Str) (K : Str → Option SigVerifier) (S : Str → JwkSet) (hD : NewPolicies y.sys N D)
    (hk : ServesKeys (pkExecOf y.sys) N .zts V K) (hans : Answers (pkExecOf y.sys) N .zts) (hv : Versioned (pkExecOf y.sys) .zts V K)
    (hg : ∀ url, ConfiguredURL cfg.jwk url → GivesSet y.sys N url (S url)) (t : Int) (htd : pd.t0 ≤ t) (htp : pp.t0 ≤ t) (htj : pj.t0 ≤ t)
    (hN : ∀ n, t ≤ (y.state n).sys.auth.now → N ≤ n) (E : Int) (hEd : t + max pd.period (Ud + pd.delay.toNat) + Ud ≤ E)
    (hEp : t + max pp.period (Up + pp.delay.toNat) + Up ≤ E) (hEj : t + max pj.period (Uj + pj.delay.toNat) + Uj ≤ E) (m : Nat) (L : Nat)
    (hL : StoresWithin L (y.state m).sys.auth.log) (hbig : (y.state m).sys.auth.now + cfg.auth.cacheExp < 2 ^ 63) (i : Nat) (q : AReq) (p : Principal)
    (hlate : ∀ tb, .begun i tb ∈ (y.state m).sys.auth.log → E + L + cfg.auth.cacheExp < tb)
    (hc : (y.state m).sys.auth.calls i = some ⟨q, .done (.ok p)⟩)
    (hreg : ∀ role ∈ p.roles, RegularAt cfg.auth.U (D.map some) now (y.state m).sys.auth.now (y.state m).sys.auth.now
      (p.domain ++ ":role.".toList ++ role)) :
    ∃ q' seed act res, cacheKey cfg.auth q' = cacheKey cfg.auth q ∧
      SignedBy cfg (fun id ver => K id = some ver) (fun url kid k => ConfiguredURL cfg.jwk url ∧ KeyIn (S url) kid k) q' ∧
      Translates cfg.auth seed p.domain q' act res ∧
      Decision cfg.auth.U (allAssertions (D.map some)) ⟨p.domain, p.roles, act, cfg.auth.resourcePrefix ++ res⟩ (.ok p.authorizedRoles) := by
  obtain ⟨tb, hb, hb'⟩ := PacedP.begun_of_call (SysExec.run y.sys m) hc
  have hl := hlate tb hb
  have hb' : tb ≤ (y.state m).sys.auth.now := hb'
  obtain ⟨pick, call, done, hx⟩ := C103_paced cfg ce now on (hon _) y pp ep Bp cp hf hyp hpp hatp E m (InTimePkP.started hyp (by omega)) (by omega)
  obtain ⟨pick', call', done', hx'⟩ := C102_paced cfg ce now on (hon _) y pj ej Bj cj hyj hpj hatj E m (InTimeJwkP.started hyj (by omega)) (by omega)
  obtain ⟨pick'', call'', done'', hx''⟩ := C105_paced cfg ce now on (hon _) y pd ed Bd cd hyd hpd hatd E m (InTimePdP.started hyd (by omega)) (by omega)
  obtain ⟨M, hM, hin⟩ := PacedPkP.in_use (x := y.sys) hk hans hv (C79_serial cfg ce now on y (hon _) Bp hf .zts) hN hpp htp hUp hx hEp
  obtain ⟨M', hM', hin'⟩ := PacedJwkP.in_use (x := y.sys) hg hN hpj htj hUj hx' hEj
  obtain ⟨M'', _, hM'', hin''⟩ := PacedP.in_force (x := y.sys) hR hD hN hpd htd hUd hx'' hEd
  have hmax : (y.sys.state (max (max M M') M'')).auth.now ≤ E := by
    rcases Nat.le_total M M' with h | h
    · rw [Nat.max_eq_right h]
      rcases Nat.le_total M' M'' with h | h
      · rw [Nat.max_eq_right h]; omega
      · rw [Nat.max_eq_left h]; omega
    · rw [Nat.max_eq_left h]
      rcases Nat.le_total M M'' with h | h
      · rw [Nat.max_eq_right h]; omega
      · rw [Nat.max_eq_left h]; omega
  refine InTimeAllP.grant_after (x := y.sys) h0 hpol hexp hR hD hmax (fun n hn => ⟨fun id ver hkey => ?_, fun kid jku key hkey => ?_⟩)
    (fun n hn => ⟨(hin'' n (by omega)).1.2, (hin'' n (by omega)).2.2⟩) m L hL hbig i q p hlate hc hreg
  · show K id = some ver
    rw [← hin n (by omega) id]
    exact hkey
  · obtain ⟨acts, hj⟩ := (sysRuns_run (SysExec.run y.sys n)).2.jwk
    obtain ⟨_, hu, _⟩ := C29_sources cfg.jwk acts _ hj kid jku key hkey
    exact ⟨hu, ((hin' n (by omega) _ hu kid jku rfl key).mp hkey).2⟩

/-- The full statement: the same for policies that have not expired, regular or not.  It is false for the code (`C105_refuted`). -/
def C105_statement : Prop :=
  ∀ (cfg : SysCfg) (ce : Str) (now : Int) (_ : 0 ≤ now) (_ : cfg.auth.disablePolicyd = false) (_ : 0 < cfg.auth.cacheExp)
    (_ : 0 ≤ cfg.fetch.retryAttempts) (on : LKind → Bool) (_ : ∀ k, on k = true) (y : RsExec cfg ce now on) (pd pp pj : PaceCfg)
    (ed ep ej : Nat → Int → TFetch) (Bd Bp Bj : Nat) (cd cp cj : Nat → TLoop) (_ : InitFirst y Bp) (_ : PdInTime y pd ed Bd cd)
    (_ : PkInTime y pp ep Bp cp) (_ : JwkInTime y pj ej Bj cj) (_ : 0 < pd.period) (_ : 0 < pp.period) (_ : 0 < pj.period)
    (_ : pd.atTick = false) (_ : pp.atTick = false) (_ : pj.atTick = true) (Ud Up Uj : Nat) (_ : Takes Ud ed) (_ : Takes Up ep)
    (_ : Takes Uj ej) (N : Nat) (D : List PolicyDoc) (V : Str) (K : Str → Option SigVerifier) (S : Str → JwkSet) (_ : NewPolicies y.sys N D)
    (_ : ServesKeys (pkExecOf y.sys) N .zts V K) (_ : Answers (pkExecOf y.sys) N .zts) (_ : Versioned (pkExecOf y.sys) .zts V K)
    (_ : ∀ url, ConfiguredURL cfg.jwk url → GivesSet y.sys N url (S url)) (t : Int) (_ : pd.t0 ≤ t) (_ : pp.t0 ≤ t) (_ : pj.t0 ≤ t)
    (_ : ∀ n, t ≤ (y.state n).sys.auth.now → N ≤ n) (E : Int) (_ : t + max pd.period (Ud + pd.delay.toNat) + Ud ≤ E)
    (_ : t + max pp.period (Up + pp.delay.toNat) + Up ≤ E) (_ : t + max pj.period (Uj + pj.delay.toNat) + Uj ≤ E) (m : Nat) (L : Nat)
    (_ : StoresWithin L (y.state m).sys.auth.log) (_ : (y.state m).sys.auth.now + cfg.auth.cacheExp < 2 ^ 63) (i : Nat) (q : AReq) (p : Principal)
    (_ : ∀ tb, .begun i tb ∈ (y.state m).sys.auth.log → E + L + cfg.auth.cacheExp < tb)
    (_ : (y.state m).sys.auth.calls i = some ⟨q, .done (.ok p)⟩)
    (_ : ∀ d ∈ D, (y.state m).sys.auth.now < d.expires ∧ d.expires + (y.state m).sys.auth.now < 2 ^ 63),
    ∃ q' seed act res, cacheKey cfg.auth q' = cacheKey cfg.auth q ∧
      SignedBy cfg (fun id ver => K id = some ver) (fun url kid k => ConfiguredURL cfg.jwk url ∧ KeyIn (S url) kid k) q' ∧
      Translates cfg.auth seed p.domain q' act res ∧
      Decision cfg.auth.U (allAssertions (D.map some)) ⟨p.domain, p.roles, act, cfg.auth.resourcePrefix ++ res⟩ (.ok p.authorizedRoles)

end Athenz
