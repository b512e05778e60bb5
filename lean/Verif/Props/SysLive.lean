import Verif.Proofs.SysLive
import Verif.Props.InForce

/-!
# C69: calls return, and what token and policies allow is granted
-/

namespace Athenz
open Spec

theorem SysExec.run {cfg : SysCfg} {now : Int} (x : SysExec cfg now) (n : Nat) : sysRun cfg (sysInit cfg now) (x.hist n) = some (x.state n) := by
  induction n with
  | zero => simp [SysExec.hist, sysRun, x.init]
  | succ n ih =>
    have : x.hist (n + 1) = x.hist n ++ [x.act n] := by simp [SysExec.hist, List.range_succ]
    rw [this]
    exact sysRun_snoc ih (x.next n)

theorem SysExec.alive {cfg : SysCfg} {now : Int} (x : SysExec cfg now) (n : Nat) : (x.state n).dead = false := by
  have := x.next n
  cases hc : (x.state n).dead with
  | false => rfl
  | true => simp [sysStep, hc] at this

/-- **C69**.  Whatever else goes on, every check of the policy daemon returns. -/
theorem C69_check_returns (cfg : SysCfg) (now : Int) (x : SysExec cfg now) (hf : SysFair x)
    (n k : Nat) (c : Chk) (hc : (x.state n).pd.checks[k]? = some c) :
    ∃ m c' r, n ≤ m ∧ (x.state m).pd.checks[k]? = some c' ∧ c'.q = c.q ∧ c'.cs.coll = .ret r := by
  let left : Sys → Nat × Nat × Nat := fun s => match s.pd.checks[k]? with | some c => c.left | none => (0, 0, 0)
  obtain ⟨m, hm, c', r, h1, h2, h3⟩ := fair_reaches lex3_wf x.state x.act (fun _ a => OfCheck k a)
    (fun s => ∃ a, OfCheck k a ∧ (sysStep cfg s a).isSome) (fun s => ∃ c', s.pd.checks[k]? = some c' ∧ c'.q = c.q)
    (fun s => ∃ c' r, s.pd.checks[k]? = some c' ∧ c'.q = c.q ∧ c'.cs.coll = .ret r) left
    (fun n h => hf (.check k) n h)
    (by
      rintro m ⟨c', h1, h2⟩ hg
      exact check_ready (SysExec.run x m) (SysExec.alive x m) h1 (.inr fun r hr => hg ⟨c', r, h1, h2, hr⟩))
    (by
      rintro m ⟨c', h1, h2⟩ _
      obtain ⟨c'', e1, e2, e3, e4, _⟩ := sysStep_chk (x.next m) h1
      refine ⟨⟨c'', e1, e2.trans h2⟩, fun h => ?_, fun h => ?_⟩
      · simp only [left, h1, e1]; exact e3 h
      · simp only [left, h1, e1]; exact (e4 h).1)
    n ⟨c, hc, rfl⟩
  exact ⟨m, c', r, hm, h1, h2, h3⟩

/-- **C69**.  Whatever else goes on, every call of `VerifyRoleToken`, `VerifyAccessToken`, `AuthorizeRoleToken` and `AuthorizeAccessToken`
returns. -/
theorem C69_call_returns (cfg : SysCfg) (now : Int) (x : SysExec cfg now) (hf : SysFair x)
    (n i : Nat) (q : AReq) (pc : Pc) (hc : (x.state n).auth.calls i = some ⟨q, pc⟩) :
    ∃ m r, n ≤ m ∧ (x.state m).auth.calls i = some ⟨q, .done r⟩ := by
  obtain ⟨m, hm, r, h1⟩ := fair_reaches lex4_wf x.state x.act (fun s a => OfCall s i a)
    (fun s => ∃ a, OfCall s i a ∧ (sysStep cfg s a).isSome) (fun s => ∃ pc, s.auth.calls i = some ⟨q, pc⟩)
    (fun s => ∃ r, s.auth.calls i = some ⟨q, .done r⟩) (fun s => s.callLeft i)
    (fun n h => hf (.call i) n h)
    (by
      rintro m ⟨pc, h1⟩ hg
      exact call_ready (SysExec.run x m) (SysExec.alive x m) h1 fun r hr => hg ⟨r, by rw [h1, hr]⟩)
    (by
      rintro m ⟨pc, h1⟩ _
      obtain ⟨pc', e1, e2, e3⟩ := sysStep_call (SysExec.run x m) (x.next m) h1
      exact ⟨⟨pc', e1⟩, e2, fun h => (e3 h).1⟩)
    n ⟨pc, hc⟩
  exact ⟨m, r, hm, h1⟩

/-- **C69**.  Whatever else goes on, every call of `Verify` and `Authorize` returns. -/
theorem C69_verify_returns (cfg : SysCfg) (now : Int) (x : SysExec cfg now) (hf : SysFair x)
    (n k : Nat) (y : Sess) (hy : (x.state n).auth.sess k = some y) :
    ∃ m y' r, n ≤ m ∧ (x.state m).auth.sess k = some y' ∧ y'.result = some r := by
  obtain ⟨m, hm, y', r, h1, h2⟩ := fair_reaches lex6_wf x.state x.act (fun s a => OfSess s k a)
    (fun s => ∃ a, OfSess s k a ∧ (sysStep cfg s a).isSome) (fun s => ∃ y, s.auth.sess k = some y)
    (fun s => ∃ y r, s.auth.sess k = some y ∧ y.result = some r) (fun s => s.sessLeft k)
    (fun n h => hf (.sess k) n h)
    (by
      rintro m ⟨y, h1⟩ hg
      refine sess_ready (SysExec.run x m) (SysExec.alive x m) h1 ?_
      cases hr : y.result with
      | none => rfl
      | some r => exact absurd ⟨y, r, h1, hr⟩ hg)
    (by
      rintro m ⟨y, h1⟩ _
      obtain ⟨y', e1, e2, e3⟩ := sysStep_sess (SysExec.run x m) (x.next m) h1
      exact ⟨⟨y', e1⟩, e2, e3⟩)
    n ⟨y, hy⟩
  exact ⟨m, y', r, hm, h1, h2⟩

/-- The call has not returned yet. -/
def Running {cfg : SysCfg} {now : Int} (x : SysExec cfg now) (i m : Nat) : Prop := ∀ q r, (x.state m).auth.calls i ≠ some ⟨q, .done r⟩

/-- The kind of token is enabled. -/
def ModeEnabled (cfg : AuthCfg) : Mode → Prop
  | .roleToken => cfg.enableRoleToken = true
  | .accessToken => cfg.enableAccessToken = true

theorem validateToken_of_says {cfg : AuthCfg} {t : Int} {keys : Option KeyProvider} {jwkp : Option JwkProvider} {q : AReq} {p : Principal}
    (he : ModeEnabled cfg q.mode) (h : TokenSays cfg t keys jwkp q p) :
    validateToken cfg keys jwkp (clock t) q = .ok { p with authorizedRoles := [] } := by
  unfold TokenSays at h
  unfold validateToken
  cases hm : q.mode with
  | roleToken =>
    simp only [hm, ModeEnabled] at h he ⊢
    obtain ⟨ks, rt, rfl, hp, h1, h2, h3, h4, h5, h6⟩ := h
    simp only [validateRole, he, if_true, hp, principalOfRole]
    cases p; simp_all
  | accessToken =>
    simp only [hm, ModeEnabled] at h he ⊢
    obtain ⟨ks, rt, rfl, hp, h1, h2, h3, h4, h5, h6⟩ := h
    simp only [validateAccess, he, if_true, hp, principalOfAccess]
    cases p; simp_all

theorem translate_of {cfg : AuthCfg} {seed : Nat} {domain act res : Str} {q : AReq} (h : Translates cfg seed domain q act res) :
    translate cfg seed domain q = .ok (act, res) := by
  unfold translate
  obtain ⟨h1, h2⟩ := h
  split
  · rename_i hn
    obtain ⟨rfl, rfl⟩ := h1 hn
    rfl
  · rename_i t ht
    exact h2 t ht

/-- Only cancellation sets the flag. -/
theorem parent_cancelled {cfg : SysCfg} {now : Int} (x : SysExec cfg now) (i k n : Nat) (c : Chk)
    (hk : (x.state n).checkOf i = some k) (hc : (x.state n).pd.checks[k]? = some c) (hp : c.cs.parent = true) :
    ∃ m, (x.state m).checkOf i = some k ∧ x.act m = .pd (.chk k .cancel) := by
  induction n generalizing c with
  | zero => rw [x.init] at hk; simp [sysInit] at hk
  | succ n ih =>
    have old : (x.state n).checkOf i = some k → ∃ m, (x.state m).checkOf i = some k ∧ x.act m = .pd (.chk k .cancel) := by
      intro hk'
      obtain ⟨c0, hc0, _⟩ := (sysOrigin_run (SysExec.run x n)).2.links i k hk'
      obtain ⟨c1, h1, _, _, _, h2⟩ := sysStep_chk (x.next n) hc0
      rw [hc] at h1
      simp only [Option.some.injEq] at h1
      subst h1
      rcases h2 with h2 | h2 | h2
      · exact ih c0 hk' hc0 (h2 ▸ hp)
      · rw [hp] at h2; simp at h2
      · exact ⟨n, hk', h2⟩
    obtain ⟨_, he⟩ := sysStep_effect (x.next n)
    revert hk hc old
    generalize x.state (n + 1) = s' at he
    generalize x.act n = a0 at he
    intro hk hc old
    cases he with
    | beginCheck j q p act res pd' hcall hn hp' =>
      simp only at hk
      split at hk
      · rename_i hj
        simp only [Option.some.injEq] at hk
        subst hk
        unfold pdStep at hp'
        split at hp'
        · simp at hp'
        · simp only [Option.some.injEq] at hp'
          subst hp'
          simp only [List.getElem?_append_right (Nat.le_refl _), Nat.sub_self, List.getElem?_cons_zero, Option.some.injEq] at hc
          subst hc
          simp [CheckReq.init] at hp
      · exact old hk
    | _ => exact old hk

theorem callRank_mono {cfg : SysCfg} {now : Int} (x : SysExec cfg now) (i n : Nat) (q : AReq) (pc : Pc)
    (hc : (x.state n).auth.calls i = some ⟨q, pc⟩) (d : Nat) :
    ∃ pc', (x.state (n + d)).auth.calls i = some ⟨q, pc'⟩ ∧ (x.state (n + d)).callRank i ≤ (x.state n).callRank i := by
  induction d with
  | zero => exact ⟨pc, hc, Nat.le_refl _⟩
  | succ d ih =>
    obtain ⟨pc1, h1, h2⟩ := ih
    obtain ⟨pc2, e1, e2, e3⟩ := sysStep_call (SysExec.run x (n + d)) (x.next (n + d)) h1
    refine ⟨pc2, e1, Nat.le_trans ?_ h2⟩
    by_cases hof : OfCall (x.state (n + d)) i (x.act (n + d))
    · have := e2 hof
      rcases Prod.lex_def.mp this with h | ⟨h, _⟩
      · exact Nat.le_of_lt h
      · exact Nat.le_of_eq h
    · have := congrArg Prod.fst (e3 hof).1
      exact Nat.le_of_eq this

/-- A check reports the context only if it was cancelled. -/
theorem ctx_parent {cfg : SysCfg} {now : Int} {h : List SysAct} {s : Sys}
    (hr : sysRun cfg (sysInit cfg now) h = some s) {k : Nat} {c : Chk} (hc : s.pd.checks[k]? = some c) (hret : c.cs.coll = .ret (.err .ctx)) :
    c.cs.parent = true := by
  obtain ⟨A, _, hg⟩ := (sysOrigin_run hr).2.pd
  obtain ⟨v0, cs, hv0, hrun, hm⟩ := hg.checks c (List.mem_of_getElem? hc) (returned_loaded hr hc hret)
  have hinv := (CheckReq.init_inv cfg.auth.U c.q (SoundView cfg.auth.U A) v0 hv0).run (as := cs) (by
    intro a ha
    cases a with
    | mutate v => exact hm v ha
    | _ => trivial) hrun
  rcases hinv.ret _ hret with ⟨role, hr, v, hv, hvd⟩ | ⟨_, h⟩ | ⟨h, _⟩
  · exact absurd (verdict_deny_sound (hv _) hvd).1 (by simp)
  · exact h
  · simp at h

theorem hist_noHook {cfg : SysCfg} {now : Int} {x : SysExec cfg now} (h : ∀ n j f, x.act n ≠ .pd (.hook j f)) (m : Nat) :
    ∀ n f, .pd (.hook n f) ∉ x.hist m := by
  intro n f hm
  simp only [SysExec.hist, List.mem_map, List.mem_range] at hm
  obtain ⟨k, _, hk⟩ := hm
  exact h k n f hk

/-- **C69**.  A call is granted if its token is valid as long as it runs, the policies in force meanwhile are regular for the roles of the
token, be it that they had expired before the update was called that brought them into force, allow one of them and deny none of them the
request, the refreshes of expired entries that began while they were in force got nothing about these roles that they do not say, and its context is
not cancelled.  Missing: irregular documents (C10, C68) and policies that were refreshed with others in force (C13). -/
theorem C69_granted_since_partial (cfg : SysCfg) (now : Int) (hnow : 0 ≤ now) (hpol : cfg.auth.disablePolicyd = false) (x : SysExec cfg now)
    (hf : SysFair x) (n i : Nat) (q : AReq) (p : Principal)
    (hc : (x.state n).auth.calls i = some ⟨q, .start⟩) (hen : ModeEnabled cfg.auth q.mode) (hact : q.act ≠ []) (hres : q.res ≠ [])
    (htok : ∀ m, n ≤ m → Running x i m →
      TokenSays cfg.auth (x.state m).auth.now (x.state m).auth.keys (x.state m).auth.jwkp q p)
    (htr : ∀ seed, ∃ act res, Translates cfg.auth seed p.domain q act res)
    (hpolicy : ∀ m m' docs seed act res, n ≤ m → m ≤ m' → Running x i m' → InForce cfg (sysInit cfg now) (x.hist m) (x.state m) docs →
      Translates cfg.auth seed p.domain q act res →
      (∃ t0, InForceSince cfg (sysInit cfg now) (x.hist m) (x.state m) t0 ∧
        (∀ role ∈ p.roles, RegularAt cfg.auth.U docs t0 (x.state m').auth.now (x.state m').auth.now (p.domain ++ ":role.".toList ++ role)) ∧
        RefreshedWith cfg (sysInit cfg now) (x.hist m) (x.state m) (x.hist m') (x.state m')
          (fun d => ∀ role ∈ p.roles, SaysAlike docs t0 (x.state m').auth.now (p.domain ++ ":role.".toList ++ role) d)) ∧
      (∃ role ∈ p.roles, Allowed cfg.auth.U (allAssertions docs) p.domain role act (cfg.auth.resourcePrefix ++ res)) ∧
      ¬ ∃ role ∈ p.roles, Denied cfg.auth.U (allAssertions docs) p.domain role act (cfg.auth.resourcePrefix ++ res))
    (hcancel : ∀ m k, (x.state m).checkOf i = some k → x.act m ≠ .pd (.chk k .cancel)) :
    ∃ m p', n ≤ m ∧ (x.state m).auth.calls i = some ⟨q, .done (.ok p')⟩ := by
  let good : Pc → Prop := fun pc => match pc with
    | .start => True
    | .miss => True
    | .validated p' => p' = { p with authorizedRoles := [] }
    | .translated p' act res => p' = { p with authorizedRoles := [] } ∧ ∃ seed, Translates cfg.auth seed p.domain q act res
    | .checked _ => True
    | .done r => ∃ p', r = .ok p'
  have hgood : ∀ d, ∃ pc, (x.state (n + d)).auth.calls i = some ⟨q, pc⟩ ∧ good pc := by
    intro d
    induction d with
    | zero => exact ⟨.start, hc, trivial⟩
    | succ d ih =>
      obtain ⟨pc, h1, h2⟩ := ih
      generalize hm : n + d = m at h1
      have hnm : n ≤ m := by omega
      rw [show n + (d + 1) = m + 1 by omega]
      by_cases hdone : ∃ r, pc = .done r
      · obtain ⟨r, rfl⟩ := hdone
        obtain ⟨pc', e1, e2⟩ := callRank_mono x i m q _ h1 1
        refine ⟨pc', e1, ?_⟩
        have e3 : (x.state m).callRank i = 0 := by unfold Sys.callRank; rw [h1]; rfl
        have e4 := (callRank_some e1).1
        obtain ⟨pc'', g1, g2, g3⟩ := sysStep_call (SysExec.run x m) (x.next m) h1
        rw [e1] at g1
        simp only [Option.some.injEq, Call.mk.injEq, true_and] at g1
        subst g1
        -- nothing changes any more
        obtain ⟨_, he⟩ := sysStep_effect (x.next m)
        have hsame : ∀ b auth', aStep cfg.auth (x.state m).auth b = some auth' → (auth'.calls i = some ⟨q, pc'⟩) → pc' = .done r := by
          intro b auth' hst hcl
          obtain ⟨pc3, k1, k2, k3⟩ := aStep_call hst h1
          rw [hcl] at k1
          simp only [Option.some.injEq, Call.mk.injEq, true_and] at k1
          subst k1
          cases hb : b.ofCall i with
          | false => exact k2 hb
          | true => exact absurd (k3 hb) (by simp [Pc.rank])
        have : pc' = .done r := by
          revert e1
          generalize x.state (m + 1) = s' at he
          generalize x.act m = a0 at he
          intro e1
          cases he with
          | auth b auth' ha hst => exact hsame b auth' hst e1
          | endCheck j view sched k c r' auth' hk hck hl hret hv hst => exact hsame _ auth' hst e1
          | _ =>
            first
              | (simp only [Sys.withKeys] at e1; rw [h1] at e1; simpa using e1.symm)
              | (simp only at e1; rw [h1] at e1; simpa using e1.symm)
        rw [this]; exact h2
      · have hrun : Running x i m := by
          intro q' r hq
          rw [h1] at hq
          simp only [Option.some.injEq, Call.mk.injEq] at hq
          exact hdone ⟨r, hq.2⟩
        have hval := validateToken_of_says hen (htok m hnm hrun)
        have same : ∀ s' : Sys, s'.auth.calls i = (x.state m).auth.calls i → ∃ pc, s'.auth.calls i = some ⟨q, pc⟩ ∧ good pc :=
          fun s' h => ⟨pc, h.trans h1, h2⟩
        obtain ⟨_, he⟩ := sysStep_effect (x.next m)
        have hstep := x.next m
        revert hstep
        generalize x.state (m + 1) = s' at he
        generalize ha0 : x.act m = a0 at he
        intro hstep
        cases he with
        | auth b auth' ha hst =>
          obtain ⟨pc3, k1, k2, k3⟩ := aStep_call hst h1
          refine ⟨pc3, k1, ?_⟩
          cases hb : b.ofCall i with
          | false => rw [k2 hb]; exact h2
          | true =>
            cases aStep_effect hst with
            | bad j q0 h0 hbad =>
              obtain rfl : j = i := by simpa [AAct.ofCall] using hb
              rw [h1] at h0
              simp only [Option.some.injEq, Call.mk.injEq] at h0
              obtain ⟨rfl, _⟩ := h0
              exact absurd hbad.2 (by simp [hact, hres])
            | hit j q0 p0 h0 hbad hg =>
              obtain rfl : j = i := by simpa [AAct.ofCall] using hb
              simp only [AState.note, AState.setPc, if_true, Option.some.injEq, Call.mk.injEq] at k1
              rw [← k1.2]; exact ⟨p0, rfl⟩
            | miss j q0 h0 hbad hg =>
              obtain rfl : j = i := by simpa [AAct.ofCall] using hb
              simp only [AState.setPc, if_true, Option.some.injEq, Call.mk.injEq] at k1
              rw [← k1.2]; trivial
            | valid j q0 p0 h0 hv =>
              obtain rfl : j = i := by simpa [AAct.ofCall] using hb
              rw [h1] at h0
              simp only [Option.some.injEq, Call.mk.injEq] at h0
              obtain ⟨rfl, _⟩ := h0
              simp only [AState.setPc, if_true, Option.some.injEq, Call.mk.injEq, true_and, hpol, Bool.false_eq_true, if_false] at k1
              rw [← k1]
              rw [hval] at hv
              simp only [Res.ok.injEq] at hv
              exact hv.symm
            | invalid j q0 r h0 hv hr =>
              obtain rfl : j = i := by simpa [AAct.ofCall] using hb
              rw [h1] at h0
              simp only [Option.some.injEq, Call.mk.injEq] at h0
              obtain ⟨rfl, _⟩ := h0
              rw [hval] at hv
              exact absurd hv.symm (hr _)
            | trans j seed q0 p0 act res h0 ht =>
              obtain rfl : j = i := by simpa [AAct.ofCall] using hb
              rw [h1] at h0
              simp only [Option.some.injEq, Call.mk.injEq] at h0
              obtain ⟨rfl, rfl⟩ := h0
              simp only [AState.setPc, if_true, Option.some.injEq, Call.mk.injEq, true_and] at k1
              rw [← k1]
              have hp0 : p0 = { p with authorizedRoles := [] } := h2
              refine ⟨hp0, seed, ?_⟩
              have := translate_ok ht
              rw [hp0] at this
              exact this
            | transFail j seed q0 p0 r h0 hfail hr =>
              obtain rfl : j = i := by simpa [AAct.ofCall] using hb
              rw [h1] at h0
              simp only [Option.some.injEq, Call.mk.injEq] at h0
              obtain ⟨rfl, rfl⟩ := h0
              have hp0 : p0 = { p with authorizedRoles := [] } := h2
              obtain ⟨act, res, ht⟩ := htr seed
              rw [hp0] at hfail
              simp only at hfail
              rw [translate_of ht] at hfail
              simp [Res.fail] at hfail
            | check j view sched q0 p0 act res rs h0 hv => simp [AAct.own] at ha
            | checkFail j view sched q0 p0 act res r h0 hv hr => simp [AAct.own] at ha
            | store j q0 p0 h0 =>
              obtain rfl : j = i := by simpa [AAct.ofCall] using hb
              simp only [AState.note, AState.setPc, if_true, Option.some.injEq, Call.mk.injEq] at k1
              rw [← k1.2]; exact ⟨p0, rfl⟩
            | _ => simp [AAct.ofCall] at hb
        | endCheck j view sched k c r auth' hk hck hl hret hv hst =>
          by_cases hj : j = i
          · subst hj
            obtain ⟨q0, p0, seed, act, res, r0, t1, t2, s1, docs, g1, g2, _, g4, g5, g6, g7, g8, g9⟩ :=
              C68_call_since_partial cfg now hnow (x.hist m) (x.state m) _ (SysExec.run x m) j view sched hstep
            rw [h1] at g1
            simp only [Option.some.injEq, Call.mk.injEq] at g1
            obtain ⟨rfl, rfl⟩ := g1
            obtain ⟨hp0, seed0, htr0⟩ : p0 = { p with authorizedRoles := [] } ∧ ∃ seed, Translates cfg.auth seed p.domain q act res := h2
            subst hp0
            refine ⟨_, g2, ?_⟩
            -- the moment at which the check loaded the cache
            have ht1 : t1 = x.hist t1.length := by
              have hle : t1.length ≤ m := by
                have := congrArg List.length g5
                simp [SysExec.hist] at this; omega
              have := congrArg (List.take t1.length) g5
              simp only [List.take_left'] at this
              rw [← this]
              simp [SysExec.hist, ← List.map_take, List.take_range, Nat.min_eq_left hle]
            have hle : t1.length ≤ m := by
              have := congrArg List.length g5
              simp [SysExec.hist] at this; omega
            have hs1 : s1 = x.state t1.length := by
              have := SysExec.run x t1.length
              rw [← ht1, g7] at this
              simpa using this
            have hn1 : n ≤ t1.length := by
              refine Classical.byContradiction fun hlt => ?_
              rw [ht1] at g6
              obtain ⟨b, hb1, hb2⟩ := List.mem_map.mp g6
              rw [List.mem_range] at hb1
              have hstb := x.next b
              rw [hb2] at hstb
              obtain ⟨_, heb⟩ := sysStep_effect hstb
              have hrank : (x.state (b + 1)).callRank j = 2 ∧ ∃ q pc, (x.state (b + 1)).auth.calls j = some ⟨q, pc⟩ := by
                generalize x.state (b + 1) = sb at heb
                cases heb with
                | beginCheck _ q1 p1 act1 res1 pd' hcall hn hp =>
                  constructor
                  · simp [Sys.callRank, hcall]
                  · exact ⟨_, _, hcall⟩
              obtain ⟨hrank, q1, pc1, hcall⟩ := hrank
              obtain ⟨_, _, hmono⟩ := callRank_mono x j (b + 1) q1 pc1 hcall (n - (b + 1))
              rw [show b + 1 + (n - (b + 1)) = n by omega, hrank] at hmono
              unfold Sys.callRank at hmono
              rw [hc] at hmono
              simp [Pc.rank] at hmono
            subst hs1
            rw [ht1] at g8
            simp only [List.length_map, SysExec.hist, List.length_range] at g8
            have g8' : InForce cfg (sysInit cfg now) (x.hist t1.length) (x.state t1.length) docs := by
              simpa [SysExec.hist] using g8
            obtain ⟨⟨t0, w0, w1, w4⟩, w2, w3⟩ := hpolicy t1.length m docs seed0 act res hn1 hle hrun g8' htr0
            have hdec := g9 t0 (by rw [ht1]; simpa [SysExec.hist] using w0) w1 (by rw [ht1]; simpa [SysExec.hist] using w4)
            cases r0 with
            | ok rs => trivial
            | panic => exact hdec.elim
            | err e =>
              rcases hdec with rfl | ⟨_, hden⟩ | ⟨_, hno⟩
              · -- the context was cancelled
                have hr : r = .err .ctx := by
                  have hst' := hst
                  simp only [aStep, h1] at hst'
                  obtain ⟨c', hc', hlk⟩ := (sysOrigin_run (SysExec.run x m)).2.links j k hk
                  rw [hck] at hc'
                  simp only [Option.some.injEq] at hc'
                  subst hc'
                  rw [h1] at hlk
                  simp only [CheckLinked] at hlk
                  rw [hlk] at hv
                  rw [hv] at hst'
                  cases r with
                  | ok rs =>
                    simp only [Option.some.injEq] at hst'
                    rw [← hst'] at g2
                    simp [AState.setPc, afterCheck] at g2
                  | panic =>
                    simp only [Option.some.injEq] at hst'
                    rw [← hst'] at g2
                    simp [AState.setPc, afterCheck] at g2
                  | err e =>
                    simp only [Option.some.injEq] at hst'
                    rw [← hst'] at g2
                    simp [AState.setPc, afterCheck] at g2
                    rw [g2]
                subst hr
                obtain ⟨m', hm1, hm2⟩ := parent_cancelled x j k m c hk hck (ctx_parent (SysExec.run x m) hck hret)
                exact absurd hm2 (hcancel m' k hm1)
              · exact absurd hden w3
              · obtain ⟨role, hr1, hr2⟩ := w2
                exact absurd hr2 (hno role hr1).1
          · obtain ⟨pc3, k1, k2, _⟩ := aStep_call hst h1
            refine ⟨pc3, k1, ?_⟩
            rw [k2 (by simp [AAct.ofCall, hj])]
            exact h2
        | _ => exact same _ rfl
  obtain ⟨m, r, hm, hdone⟩ := C69_call_returns cfg now x hf n i q .start hc
  obtain ⟨pc, h1, h2⟩ := hgood (m - n)
  rw [show n + (m - n) = m by omega, hdone] at h1
  simp only [Option.some.injEq, Call.mk.injEq, true_and] at h1
  subst h1
  obtain ⟨p', rfl⟩ := h2
  exact ⟨m, p', hm, hdone⟩

/-- **C69**.  A call is granted if its token is valid as long as it runs, the policies in force meanwhile are regular for the roles of the
token, allow one of them and deny none of them the request, the refreshes of expired entries that began while they were in force got nothing
about these roles that they do not say, and its context is not cancelled.  Missing: irregular documents (C10, C68) and policies that were refreshed
with others in force (C13). -/
theorem C69_granted_partial (cfg : SysCfg) (now : Int) (hnow : 0 ≤ now) (hpol : cfg.auth.disablePolicyd = false) (x : SysExec cfg now)
    (hf : SysFair x) (n i : Nat) (q : AReq) (p : Principal)
    (hc : (x.state n).auth.calls i = some ⟨q, .start⟩) (hen : ModeEnabled cfg.auth q.mode) (hact : q.act ≠ []) (hres : q.res ≠ [])
    (htok : ∀ m, n ≤ m → Running x i m →
      TokenSays cfg.auth (x.state m).auth.now (x.state m).auth.keys (x.state m).auth.jwkp q p)
    (htr : ∀ seed, ∃ act res, Translates cfg.auth seed p.domain q act res)
    (hpolicy : ∀ m m' docs seed act res, n ≤ m → m ≤ m' → Running x i m' → InForce cfg (sysInit cfg now) (x.hist m) (x.state m) docs →
      Translates cfg.auth seed p.domain q act res →
      (∀ role ∈ p.roles, RegularAt cfg.auth.U docs now (x.state m').auth.now (x.state m').auth.now (p.domain ++ ":role.".toList ++ role)) ∧
      RefreshedWith cfg (sysInit cfg now) (x.hist m) (x.state m) (x.hist m') (x.state m')
        (fun d => ∀ role ∈ p.roles, SaysAlike docs now (x.state m').auth.now (p.domain ++ ":role.".toList ++ role) d) ∧
      (∃ role ∈ p.roles, Allowed cfg.auth.U (allAssertions docs) p.domain role act (cfg.auth.resourcePrefix ++ res)) ∧
      ¬ ∃ role ∈ p.roles, Denied cfg.auth.U (allAssertions docs) p.domain role act (cfg.auth.resourcePrefix ++ res))
    (hcancel : ∀ m k, (x.state m).checkOf i = some k → x.act m ≠ .pd (.chk k .cancel)) :
    ∃ m p', n ≤ m ∧ (x.state m).auth.calls i = some ⟨q, .done (.ok p')⟩ := by
  refine C69_granted_since_partial cfg now hnow hpol x hf n i q p hc hen hact hres htok htr ?_ hcancel
  intro m m' docs seed act res h1 h2 h3 h4 h5
  obtain ⟨w1, w3, w2⟩ := hpolicy m m' docs seed act res h1 h2 h3 h4 h5
  exact ⟨⟨now, InForceSince.start _ _, w1, w3⟩, w2⟩

namespace Ex

abbrev lvCfg : SysCfg := syCfg ["dom".toList]

/-- The keys and the policy are there when call 0 begins. -/
def lvPre : List SysAct := syKeys ++ syLoad "dom".toList ++ [.auth (.call 0 syReq)]

def lvAll : List SysAct := lvPre ++ syCall 0

/-- The schedule, and then nothing but the passing of no time. -/
def lvAct (n : Nat) : SysAct := (lvAll[n]?).getD (.tick 0)

def lvStates : Nat → Sys
  | 0 => sysInit lvCfg (auT 1500)
  | n + 1 => (sysStep lvCfg (lvStates n) (lvAct n)).getD (lvStates n)

def lvEnd (s : Sys) : Bool :=
  !s.dead && decide (s.pd.checks.map Chk.left = [(0, 0, 0)]) && decide (s.callLeft 0 = (0, 0, 0, 0))

theorem lvStates_end (n : Nat) : lvStates (lvAll.length + n) = lvStates lvAll.length := by
  induction n with
  | zero => rfl
  | succ n ih =>
    show (sysStep lvCfg (lvStates (lvAll.length + n)) (lvAct (lvAll.length + n))).getD _ = _
    rw [ih, show lvAct (lvAll.length + n) = .tick 0 by simp [lvAct]]
    simp only [sysStep]
    split
    · exact ih
    · simp

theorem lvSteps : ∀ n, n < lvAll.length → (sysStep lvCfg (lvStates n) (lvAct n)).isSome = true := by decide +kernel

theorem lvEnds : lvEnd (lvStates lvAll.length) = true := by decide +kernel

def lvExec : SysExec lvCfg (auT 1500) where
  state := lvStates
  act := lvAct
  init := rfl
  next := by
    intro n
    show sysStep lvCfg (lvStates n) (lvAct n) = some ((sysStep lvCfg (lvStates n) (lvAct n)).getD (lvStates n))
    have hsome : (sysStep lvCfg (lvStates n) (lvAct n)).isSome = true := by
      by_cases hn : n < lvAll.length
      · exact lvSteps n hn
      · obtain ⟨k, rfl⟩ : ∃ k, n = lvAll.length + k := ⟨n - lvAll.length, by omega⟩
        rw [lvStates_end, show lvAct (lvAll.length + k) = .tick 0 by simp [lvAct]]
        have := lvEnds
        simp only [lvEnd, Bool.and_eq_true, Bool.not_eq_true'] at this
        simp [sysStep, this.1.1]
    obtain ⟨s, hs⟩ := Option.isSome_iff_exists.mp hsome
    rw [hs]; rfl

/-- No call but call 0, no session. -/
def lvPlain : SysAct → Bool
  | .auth (.call i _) => i == 0
  | .auth (.sub _ _) => false
  | .auth (.opened _ _ _ _) => false
  | _ => true

theorem lvPlain_act (n : Nat) : lvPlain (lvAct n) = true := by
  by_cases hn : n < lvAll.length
  · exact (by decide +kernel : ∀ n, n < lvAll.length → lvPlain (lvAct n) = true) n hn
  · simp [lvAct, List.getElem?_eq_none (Nat.le_of_not_lt hn), lvPlain]

theorem lvAlone (n : Nat) : (∀ i, i ≠ 0 → (lvExec.state n).auth.calls i = none) ∧ ∀ k, (lvExec.state n).auth.sess k = none := by
  induction n with
  | zero => exact ⟨fun _ _ => rfl, fun _ => rfl⟩
  | succ n ih =>
    obtain ⟨_, he⟩ := sysStep_effect (lvExec.next n)
    have hp : lvPlain (lvExec.act n) = true := lvPlain_act n
    generalize lvExec.act n = a at he hp
    generalize lvExec.state (n + 1) = s' at he
    have set : ∀ (i : Nat) (q : AReq) (pc : Pc) (c : Call), (lvExec.state n).auth.calls i = some c → ∀ i', i' ≠ 0 →
        (if i' = i then some ⟨q, pc⟩ else (lvExec.state n).auth.calls i') = none := by
      intro i q pc c hc i' hi'
      split
      · rename_i h; subst h; rw [ih.1 i' hi'] at hc; simp at hc
      · exact ih.1 i' hi'
    cases he with
    | auth b auth' ha hst =>
      cases aStep_effect hst with
      | call i q h =>
        have : i = 0 := by simpa [lvPlain] using hp
        subst this
        refine ⟨fun i hi => ?_, ih.2⟩
        simp only [AState.note, AState.setPc, if_neg hi]
        exact ih.1 i hi
      | opened k r act res h => simp [lvPlain] at hp
      | sub k i q rest tried hs h => simp [lvPlain] at hp
      | finFails k e rest tried hs => rw [ih.2 k] at hs; simp at hs
      | fin k c rest i tried q r hs h => rw [ih.2 k] at hs; simp at hs
      | tick => exact ih
      | setKeys => exact ih
      | setJwkp => exact ih
      | sweep => exact ih
      | clear => exact ih
      | _ => exact ⟨set _ _ _ _ (by assumption), ih.2⟩
    | endCheck i view sched k c r auth' hk hck hl hret hv hst =>
      cases aStep_effect hst with
      | check _ _ _ q p act res rs h _ => exact ⟨set _ _ _ _ h, ih.2⟩
      | checkFail _ _ _ q p act res r h _ _ => exact ⟨set _ _ _ _ h, ih.2⟩
    | _ => exact ih

theorem lvFair : SysFair lvExec := by
  intro th n h
  exfalso
  obtain ⟨a, ha, hs⟩ := h (lvAll.length + n) (by omega)
  have hrun := SysExec.run lvExec (lvAll.length + n)
  obtain ⟨hcalls, hsess⟩ := lvAlone (lvAll.length + n)
  have hend := lvEnds
  rw [← lvStates_end n] at hend
  change lvEnd (lvExec.state (lvAll.length + n)) = true at hend
  generalize lvExec.state (lvAll.length + n) = s at ha hs hrun hcalls hsess hend
  obtain ⟨s', hs⟩ := Option.isSome_iff_exists.mp hs
  simp only [lvEnd, Bool.and_eq_true, Bool.not_eq_true', decide_eq_true_eq] at hend
  obtain ⟨⟨hdead, hleft⟩, hcl⟩ := hend
  have hpol : lvCfg.auth.disablePolicyd = false := rfl
  have hchk : ∀ k, ¬ OfCheck k a := by
    intro k hk
    cases hc : s.pd.checks[k]? with
    | some c =>
      obtain ⟨c', _, _, hl, _⟩ := sysStep_chk hs hc
      have hl := hl hk
      have h0 : c.left = (0, 0, 0) := by
        have := List.mem_map_of_mem (f := Chk.left) (List.mem_of_getElem? hc)
        rw [hleft] at this
        simpa using this
      rw [h0] at hl
      rcases Prod.lex_def.mp hl with h | ⟨_, h⟩
      · simp at h
      · rcases Prod.lex_def.mp h with h | ⟨_, h⟩ <;> simp at h
    | none =>
      obtain ⟨_, he⟩ := sysStep_effect hs
      cases he with
      | pd b pd' D F W hb hp =>
        cases b with
        | load k' =>
          simp only [OfCheck] at hk; subst hk
          simp only [pdStep, hc] at hp; split at hp <;> simp at hp
        | chk k' b =>
          have : k' = k := by cases b <;> simp_all [OfCheck]
          subst this
          simp only [pdStep, hc] at hp; split at hp <;> simp at hp
        | _ => simp [OfCheck] at hk
      | _ => simp [OfCheck] at hk
  have hcall : ∀ i, ¬ OfCall s i a := by
    intro i hi
    cases hc : s.auth.calls i with
    | some c =>
      have hi0 : i = 0 := Classical.byContradiction fun hne => by rw [hcalls i hne] at hc; simp at hc
      subst hi0
      obtain ⟨q, pc⟩ := c
      obtain ⟨_, _, hl, _⟩ := sysStep_call hrun hs hc
      have hl := hl hi
      rw [hcl] at hl
      rcases Prod.lex_def.mp hl with h | ⟨_, h⟩
      · simp at h
      · rcases Prod.lex_def.mp h with h | ⟨_, h⟩
        · simp at h
        · rcases Prod.lex_def.mp h with h | ⟨_, h⟩ <;> simp at h
    | none =>
      rcases hi with ⟨k, _, hk⟩ | hi
      · exact hchk k hk
      · obtain ⟨_, he⟩ := sysStep_effect hs
        cases he with
        | auth b auth' hb hst =>
          cases b with
          | get j => simp only at hi; subst hi; simp [aStep, hc] at hst
          | validate j => simp only at hi; subst hi; simp [aStep, hc] at hst
          | translate j seed => simp only at hi; subst hi; simp [aStep, hc] at hst
          | store j => simp only at hi; subst hi; simp [aStep, hc] at hst
          | _ => exact hi.elim
        | beginCheck j q p act res pd' hcl => simp only at hi; subst hi; rw [hc] at hcl; simp at hcl
        | endCheck j view sched k c r auth' hk hck hl hret hv hst => simp only at hi; subst hi; simp [aStep, hc] at hst
        | _ => exact hi.elim
  cases th with
  | check k => exact hchk k ha
  | call i => exact hcall i ha
  | sess k =>
    rcases ha with ⟨i, rfl⟩ | rfl | ⟨y, i, hy, _, hi⟩
    · simp [sysStep, hdead, aStep, hsess k] at hs
    · simp [sysStep, hdead, aStep, hsess k] at hs
    · exact hcall i hi

end Ex

/-- A fair execution with a call in it, so that `C69_check_returns` and `C69_call_returns` are about something. -/
example : SysFair Ex.lvExec ∧ (Ex.lvExec.state Ex.lvPre.length).auth.calls 0 = some ⟨Ex.syReq, .start⟩ ∧
    ∃ c, (Ex.lvExec.state (Ex.lvPre.length + 4)).pd.checks[0]? = some c ∧ ∀ r, c.cs.coll ≠ .ret r := by
  refine ⟨Ex.lvFair, by decide +kernel, ?_⟩
  obtain ⟨c, hc, hp⟩ := Ex.exists_of_map (o := (Ex.lvExec.state (Ex.lvPre.length + 4)).pd.checks[0]?)
    (p := fun c => match c.cs.coll with | .loop _ => true | .ret _ => false) (by decide +kernel)
  exact ⟨c, hc, fun r hr => by simp [hr] at hp⟩

namespace Ex

/-- What the example needs at the moments when the call runs. -/
def lvOk (s : Sys) : Bool :=
  decide (s.pd.tasks.map (·.ret) = [some true]) && decide (s.fetchResult 0 0 = some (some syPolicy)) && decide (s.auth.now = auT 1500) &&
  decide (validateToken lvCfg.auth s.auth.keys s.auth.jwkp (clock s.auth.now) syReq = .ok { syPrincipal with authorizedRoles := [] })

theorem lvOk_all : ∀ n, n < lvAll.length → lvPre.length ≤ n → lvOk (lvStates n) = true := by decide +kernel

theorem lvRunning {m : Nat} (h : Running lvExec 0 m) : m < lvAll.length := by
  refine Classical.byContradiction fun hn => ?_
  obtain ⟨k, rfl⟩ : ∃ k, m = lvAll.length + k := ⟨m - lvAll.length, by omega⟩
  refine h syReq (.ok syPrincipal) ?_
  show (lvStates _).auth.calls 0 = _
  rw [lvStates_end]
  decide +kernel

end Ex

/-- The hypotheses of `C69_granted_partial` are met. -/
example : ∃ p : Principal, Ex.lvCfg.auth.disablePolicyd = false ∧ SysFair Ex.lvExec ∧
    (Ex.lvExec.state Ex.lvPre.length).auth.calls 0 = some ⟨Ex.syReq, .start⟩ ∧
    (∀ m, Ex.lvPre.length ≤ m → Running Ex.lvExec 0 m →
      TokenSays Ex.lvCfg.auth (Ex.lvExec.state m).auth.now (Ex.lvExec.state m).auth.keys (Ex.lvExec.state m).auth.jwkp Ex.syReq p) ∧
    (∀ seed, ∃ act res, Translates Ex.lvCfg.auth seed p.domain Ex.syReq act res) ∧
    (∀ m m' docs seed act res, Ex.lvPre.length ≤ m → m ≤ m' → Running Ex.lvExec 0 m' →
      InForce Ex.lvCfg (sysInit Ex.lvCfg (Ex.auT 1500)) (Ex.lvExec.hist m) (Ex.lvExec.state m) docs →
      Translates Ex.lvCfg.auth seed p.domain Ex.syReq act res →
      (∀ role ∈ p.roles, RegularAt Ex.lvCfg.auth.U docs (Ex.auT 1500) (Ex.lvExec.state m').auth.now (Ex.lvExec.state m').auth.now
        (p.domain ++ ":role.".toList ++ role)) ∧
      RefreshedWith Ex.lvCfg (sysInit Ex.lvCfg (Ex.auT 1500)) (Ex.lvExec.hist m) (Ex.lvExec.state m) (Ex.lvExec.hist m') (Ex.lvExec.state m')
        (fun d => ∀ role ∈ p.roles, SaysAlike docs (Ex.auT 1500) (Ex.lvExec.state m').auth.now (p.domain ++ ":role.".toList ++ role) d) ∧
      (∃ role ∈ p.roles, Allowed Ex.lvCfg.auth.U (allAssertions docs) p.domain role act (Ex.lvCfg.auth.resourcePrefix ++ res)) ∧
      ¬ ∃ role ∈ p.roles, Denied Ex.lvCfg.auth.U (allAssertions docs) p.domain role act (Ex.lvCfg.auth.resourcePrefix ++ res)) ∧
    ∀ m k, (Ex.lvExec.state m).checkOf 0 = some k → Ex.lvExec.act m ≠ .pd (.chk k .cancel) := by
  have hact : ∀ (P : SysAct → Bool), P (.tick 0) = true → Ex.lvAll.all P = true → ∀ m, P (Ex.lvExec.act m) = true := by
    intro P h1 h2 m
    show P ((Ex.lvAll[m]?).getD (.tick 0)) = true
    cases h : Ex.lvAll[m]? with
    | none => simpa using h1
    | some a => simpa using List.all_eq_true.mp h2 a (List.mem_of_getElem? h)
  refine ⟨{ Ex.syPrincipal with authorizedRoles := [] }, rfl, Ex.lvFair, by decide +kernel, ?_, ?_, ?_, ?_⟩
  · intro m hm hr
    have := Ex.lvOk_all m (Ex.lvRunning hr) hm
    simp only [Ex.lvOk, Bool.and_eq_true, decide_eq_true_eq] at this
    exact (validateToken_ok this.2).1
  · intro seed
    exact ⟨_, _, fun _ => ⟨rfl, rfl⟩, fun t ht => by simp [Ex.syCfg] at ht⟩
  · intro m m' docs seed act res hm hmm hr hf htr
    have hm1 := Ex.lvOk_all m (by have := Ex.lvRunning hr; omega) hm
    have hm2 := Ex.lvOk_all m' (Ex.lvRunning hr) (by omega)
    change Ex.lvOk (Ex.lvExec.state m) = true at hm1
    change Ex.lvOk (Ex.lvExec.state m') = true at hm2
    simp only [Ex.lvOk, Bool.and_eq_true, decide_eq_true_eq] at hm1 hm2
    obtain ⟨⟨⟨ht, hfr⟩, _⟩, _⟩ := hm1
    have hnow := hm2.1.2
    have hdocs : docs = [some Ex.frDoc] := by
      rcases hf with ⟨_, h⟩ | ⟨i, ⟨⟨t, h1, _⟩, _⟩, hlen, hall⟩
      · exfalso
        cases hts : (Ex.lvExec.state m).pd.tasks with
        | nil => simp [hts] at ht
        | cons t ts =>
          simp [hts] at ht
          exact h t (by simp [hts]) ht.1
      · have hi : i = 0 := by
          have := lt_of_getElem? h1
          have hl := congrArg List.length ht
          simp at hl
          omega
        subst hi
        obtain ⟨sp, d, _, g1, g2, g3, _⟩ := hall 0 "dom".toList rfl
        rw [hfr] at g1
        simp only [Option.some.injEq] at g1
        subst g1
        have hd : docOf Ex.syPolicy = .ok Ex.frDoc := by decide +kernel
        rw [← docOf_iff, hd] at g2
        simp only [Res.ok.injEq] at g2
        subst g2
        match docs, hlen, g3 with
        | [x], _, g3 => simpa using g3
    subst hdocs
    obtain ⟨rfl, rfl⟩ := htr.1 rfl
    rw [hnow]
    refine ⟨fun role hrole => ?_, NotRefreshed.with (NotRefreshed.of_noHook (hist_noHook (fun m j f h => ?_) _)), ?_, ?_⟩
    · refine .inr ⟨0, Ex.frDoc, ⟨rfl, ?_, .inr (by decide)⟩, ?_⟩
      · intro j d hj hd
        match j with
        | 0 => exact absurd rfl hj
        | n + 1 => simp at hd
      · intro a ha hr
        simp [Ex.frDoc] at ha
        subst ha
        refine ⟨fun b hb _ => by simp [Ex.frDoc] at hb; subst hb; exact ⟨rfl, rfl, rfl⟩, fun hd => absurd hd (by decide)⟩
    · have := hact (fun a => match a with | .pd (.hook _ _) => false | _ => true) rfl (by decide +kernel) m
      simp [h] at this
    · have hdeny : ¬ IsDeny Ex.lvCfg.auth.U Ex.syRaw := by decide +kernel
      refine ⟨"admin".toList, by decide +kernel, Ex.syRaw, by decide +kernel, ⟨rfl, "dom".toList, "/x".toList, rfl, by decide, rfl, ?_, ?_⟩, hdeny⟩
      · exact .lit (by decide) (by decide) (.lit (by decide) (by decide) (.lit (by decide) (by decide) (.lit (by decide) (by decide) .nil)))
      · exact .lit (by decide) (by decide) (.lit (by decide) (by decide) .nil)
    · rintro ⟨role, _, a, ha, _, hd⟩
      have hdeny : ¬ IsDeny Ex.lvCfg.auth.U Ex.syRaw := by decide +kernel
      have : a = Ex.syRaw := by simpa [allAssertions, Ex.frDoc] using ha
      subst this
      exact hdeny hd
  · intro m k _ h
    have := hact (fun a => match a with | .pd (.chk _ .cancel) => false | _ => true) rfl (by decide +kernel) m
    simp [h] at this

end Athenz
