import Verif.Props.InTimePkRun
import Verif.Props.InTimeJwkRun
import Verif.Props.Role
import Verif.Props.Access
import Verif.Proofs.AuthTime

/-! # C102, C103: which tokens are accepted when the new keys are in use -/

namespace Athenz
open Spec

/-- **C103**, of the goroutine, both directions: when a call validates a role token later than the longer of a period and an update with its pause, and
another update, after `t`, it goes on exactly if the token is well formed, not expired and signed with the key that `K` gives for the key id it names. -/
theorem C103_accepts (cfg : SysCfg) (ce : Str) (now : Int) (h0 : 0 ≤ now) (on : LKind → Bool) (hon : on .pubkeyd = true) (y : RsExec cfg ce now on)
    (pace : PaceCfg) (env : Nat → Int → TFetch) (B : Nat) (c : Nat → TLoop) (hf : InitFirst y B) (h : PkInTime y pace env B c) (hp : 0 < pace.period)
    (hat : pace.atTick = false) (U : Nat) (hU : Takes U env) (N : Nat) (V : Str) (K : Str → Option SigVerifier)
    (hk : ServesKeys (pkExecOf y.sys) N .zts V K) (hans : Answers (pkExecOf y.sys) N .zts) (hv : Versioned (pkExecOf y.sys) .zts V K) (t : Int)
    (ht : pace.t0 ≤ t) (hN : ∀ n, t ≤ (y.state n).sys.auth.now → N ≤ n) (m : Nat)
    (hm : t + max pace.period (U + pace.delay.toNat) + U < (y.state m).sys.auth.now) (hbig : (y.state m).sys.auth.now < 2 ^ 63)
    (hrole : cfg.auth.enableRoleToken = true) (i : Nat) (q : AReq) (hq : q.mode = .roleToken)
    (hc : (y.state m).sys.auth.calls i = some ⟨q, .miss⟩) (ha : y.act m = .sys (.auth (.validate i))) :
    (∃ p, (y.state (m + 1)).sys.auth.calls i = some ⟨q, if cfg.auth.disablePolicyd then .checked p else .validated p⟩) ↔
      ∃ unsigned sig kvs, RoleText q.tok unsigned sig kvs ∧
        (∃ v e, lastValue "e" kvs = some v ∧ Numeral v e ∧ NotExpired (clock (y.state m).sys.auth.now) e) ∧
        ∃ ver, K ((lastValue "k" kvs).getD []) = some ver ∧ ver unsigned (usedSignature kvs sig) = true := by
  have hK := fun id => C103_goroutine cfg ce now on hon y pace env B c hf h hp hat U hU N .zts V K hk hans hv t ht hN m hm id
  have hkeys : (y.state m).sys.auth.keys = some (y.state m).sys.pk.provider := (sysRuns_run (SysExec.run y.sys m)).1.keys.1
  have hnow : 0 ≤ (y.state m).sys.auth.now := by
    have := PacedP.now_mono y.sys (Nat.zero_le m)
    have h1 : (y.sys.state 0).auth.now = now := by rw [y.sys.init]; rfl
    have h2 : (y.sys.state m).auth.now = (y.state m).sys.auth.now := rfl
    omega
  have hclock := clock_ok hnow hbig
  have hstep : sysStep cfg (y.state m).sys (.auth (.validate i)) = some (y.state (m + 1)).sys := by
    have := y.sys.next m
    rw [show y.sys.act m = .auth (.validate i) by show (y.act m).proj = _; rw [ha]; rfl] at this
    exact this
  have hdead : (y.state m).sys.dead = false := by
    cases hd : (y.state m).sys.dead with
    | false => rfl
    | true => simp [sysStep, hd] at hstep
  have hval : ∀ r, validateToken cfg.auth (y.state m).sys.auth.keys (y.state m).sys.auth.jwkp (clock (y.state m).sys.auth.now) q = r →
      (y.state (m + 1)).sys.auth.calls i = some ⟨q, match (r : Res Principal) with
        | .ok p => if cfg.auth.disablePolicyd then .checked p else .validated p
        | .err e => .done (.err e)
        | .panic => .done .panic⟩ := by
    intro r hr
    simp only [sysStep, hdead, Bool.false_eq_true, if_false, aStep, hc, hr] at hstep
    cases r with
    | ok p => simp only [Option.some.injEq] at hstep; rw [← hstep]; simp [AState.setPc]
    | err e => simp only [Option.some.injEq] at hstep; rw [← hstep]; simp [AState.setPc]
    | panic => simp only [Option.some.injEq] at hstep; rw [← hstep]; simp [AState.setPc]
  have good : ∀ rt, parseAndValidateRoleToken (y.state m).sys.pk.provider (clock (y.state m).sys.auth.now) q.tok = .ok rt →
      ∃ unsigned sig kvs, RoleText q.tok unsigned sig kvs ∧
        (∃ v e, lastValue "e" kvs = some v ∧ Numeral v e ∧ NotExpired (clock (y.state m).sys.auth.now) e) ∧
        ∃ ver, K ((lastValue "k" kvs).getD []) = some ver ∧ ver unsigned (usedSignature kvs sig) = true := by
    intro rt hrt
    obtain ⟨u, sig, kvs, g1, ⟨g2, ver, g3, g4⟩, _⟩ := (C20_accept _ _ hclock _ _).mp hrt
    rw [hK] at g3
    exact ⟨u, sig, kvs, g1, g2, ver, g3, g4⟩
  have hvt : ∀ r, parseAndValidateRoleToken (y.state m).sys.pk.provider (clock (y.state m).sys.auth.now) q.tok = r →
      validateToken cfg.auth (y.state m).sys.auth.keys (y.state m).sys.auth.jwkp (clock (y.state m).sys.auth.now) q =
        match (r : Res RoleToken) with | .ok rt => .ok (principalOfRole rt) | .err e => .err e | .panic => .panic := by
    intro r hr
    simp only [validateToken, hq, validateRole, hrole, hkeys, if_true, hr]
    cases r <;> rfl
  constructor
  · rintro ⟨p, hp'⟩
    cases hr : parseAndValidateRoleToken (y.state m).sys.pk.provider (clock (y.state m).sys.auth.now) q.tok with
    | ok rt => exact good rt hr
    | err e =>
      rw [hval _ (hvt _ hr)] at hp'
      cases hd : cfg.auth.disablePolicyd <;> simp [hd] at hp'
    | panic => exact absurd hr (C20_total _ _ _)
  · rintro ⟨u, sig, kvs, g1, g2, ver, g3, g4⟩
    have g5 := (applyPairs_iff (rt := applyPairs (blankToken u sig) kvs) g1).mp rfl
    have hr := (C20_accept (y.state m).sys.pk.provider (clock (y.state m).sys.auth.now) hclock q.tok _).mpr
      ⟨u, sig, kvs, g1, ⟨g2, ver, by rw [hK]; exact g3, g4⟩, g5⟩
    exact ⟨_, hval _ (hvt _ hr)⟩

/-- In the run of C103 the call validates its token late enough. -/
example : Ex.ikCfg.auth.enableRoleToken = true ∧ Ex.ikReq.mode = .roleToken ∧
    Ex.ikExec.act (Ex.ikAll.length - (Ex.syCall 0).length + 1) = .sys (.auth (.validate 0)) ∧
    Ex.auT 1500 + 1 + max Ex.ikPace.period ((1 : Nat) + Ex.ikPace.delay.toNat) + (1 : Nat)
      < (Ex.ikExec.state (Ex.ikAll.length - (Ex.syCall 0).length + 1)).sys.auth.now ∧
    (Ex.ikExec.state (Ex.ikAll.length - (Ex.syCall 0).length + 1)).sys.auth.now < 2 ^ 63 ∧
    (((Ex.ikExec.state (Ex.ikAll.length - (Ex.syCall 0).length + 1)).sys.auth.calls 0).any fun c => decide (c.req = Ex.ikReq) &&
      (match c.pc with | .miss => true | _ => false)) = true :=
  ⟨by decide, by decide, rfl, by decide +kernel, by decide +kernel, by decide +kernel⟩

/-- **C102**, of the goroutine, both directions: let `P` give exactly the keys of the sets `S` of the configured URLs.  When a call validates an access
token later than the longer of a period and an update with its pause, and another update, after `t`, it goes on exactly if the token is good with the keys
of `P` and bound to the certificate. -/
theorem C102_accepts (cfg : SysCfg) (ce : Str) (now : Int) (h0 : 0 ≤ now) (on : LKind → Bool) (hon : on .jwkd = true) (y : RsExec cfg ce now on)
    (pace : PaceCfg) (env : Nat → Int → TFetch) (B : Nat) (c : Nat → TLoop) (h : JwkInTime y pace env B c) (hp : 0 < pace.period)
    (hat : pace.atTick = true) (U : Nat) (hU : Takes U env) (N : Nat) (S : Str → JwkSet)
    (hg : ∀ url, ConfiguredURL cfg.jwk url → GivesSet y.sys N url (S url)) (P : JwkProvider)
    (hP : ∀ kid jku key, P kid jku = some key ↔
      kid ≠ [] ∧ ConfiguredURL cfg.jwk (lookupURL cfg.jwk jku) ∧ KeyIn (S (lookupURL cfg.jwk jku)) kid key)
    (t : Int) (ht : pace.t0 ≤ t) (hN : ∀ n, t ≤ (y.state n).sys.auth.now → N ≤ n) (m : Nat)
    (hm : t + max pace.period (U + pace.delay.toNat) + U < (y.state m).sys.auth.now) (hbig : (y.state m).sys.auth.now < 2 ^ 63)
    (hw : WfClaims cfg.auth.access.lib) (hen : cfg.auth.enableAccessToken = true) (i : Nat) (q : AReq) (hq : q.mode = .accessToken)
    (hc : (y.state m).sys.auth.calls i = some ⟨q, .miss⟩) (ha : y.act m = .sys (.auth (.validate i))) :
    (∃ p, (y.state (m + 1)).sys.auth.calls i = some ⟨q, if cfg.auth.disablePolicyd then .checked p else .validated p⟩) ↔
      ∃ cl, GoodAccessToken { cfg.auth.access with jwkp := P } NotFutureOrHuge (clock (y.state m).sys.auth.now) q.tok cl ∧
        Bound { cfg.auth.access with jwkp := P } q.cert cl := by
  have hK : getKey cfg.jwk (y.state m).sys.jwk = P := by
    funext kid jku
    refine Option.ext fun key => ?_
    rw [C102_goroutine cfg ce now on hon y pace env B c h hp hat U hU N S hg t ht hN m hm kid jku key]
    exact (hP kid jku key).symm
  have hkeys : (y.state m).sys.auth.jwkp = some P := by rw [← hK]; exact (sysRuns_run (SysExec.run y.sys m)).1.jwkp
  have hnow : 0 ≤ (y.state m).sys.auth.now := by
    have := PacedP.now_mono y.sys (Nat.zero_le m)
    have h1 : (y.sys.state 0).auth.now = now := by rw [y.sys.init]; rfl
    have h2 : (y.sys.state m).auth.now = (y.state m).sys.auth.now := rfl
    omega
  have hclock := clock_ok hnow hbig
  have hstep : sysStep cfg (y.state m).sys (.auth (.validate i)) = some (y.state (m + 1)).sys := by
    have := y.sys.next m
    rw [show y.sys.act m = .auth (.validate i) by show (y.act m).proj = _; rw [ha]; rfl] at this
    exact this
  have hdead : (y.state m).sys.dead = false := by
    cases hd : (y.state m).sys.dead with
    | false => rfl
    | true => simp [sysStep, hd] at hstep
  have hval : ∀ r, validateToken cfg.auth (y.state m).sys.auth.keys (y.state m).sys.auth.jwkp (clock (y.state m).sys.auth.now) q = r →
      (y.state (m + 1)).sys.auth.calls i = some ⟨q, match (r : Res Principal) with
        | .ok p => if cfg.auth.disablePolicyd then .checked p else .validated p
        | .err e => .done (.err e)
        | .panic => .done .panic⟩ := by
    intro r hr
    simp only [sysStep, hdead, Bool.false_eq_true, if_false, aStep, hc, hr] at hstep
    cases r with
    | ok p => simp only [Option.some.injEq] at hstep; rw [← hstep]; simp [AState.setPc]
    | err e => simp only [Option.some.injEq] at hstep; rw [← hstep]; simp [AState.setPc]
    | panic => simp only [Option.some.injEq] at hstep; rw [← hstep]; simp [AState.setPc]
  have hvt : ∀ r, parseAndValidateAccessToken { cfg.auth.access with jwkp := P } (clock (y.state m).sys.auth.now) q.tok q.cert = r →
      validateToken cfg.auth (y.state m).sys.auth.keys (y.state m).sys.auth.jwkp (clock (y.state m).sys.auth.now) q =
        match (r : Res Claims) with | .ok cl => .ok (principalOfAccess cl) | .err e => .err e | .panic => .panic := by
    intro r hr
    simp only [validateToken, hq, validateAccess, hen, hkeys, if_true, hr]
    cases r <;> rfl
  have acc := fun cl => C24_accept { cfg.auth.access with jwkp := P } hw (clock (y.state m).sys.auth.now) hclock.1 q.tok q.cert cl
  constructor
  · rintro ⟨p, hp'⟩
    cases hr : parseAndValidateAccessToken { cfg.auth.access with jwkp := P } (clock (y.state m).sys.auth.now) q.tok q.cert with
    | ok cl => exact ⟨cl, (acc cl).mp hr⟩
    | err e =>
      rw [hval _ (hvt _ hr)] at hp'
      cases hd : cfg.auth.disablePolicyd <;> simp [hd] at hp'
    | panic =>
      rw [hval _ (hvt _ hr)] at hp'
      cases hd : cfg.auth.disablePolicyd <;> simp [hd] at hp'
  · rintro ⟨cl, hcl⟩
    exact ⟨_, hval _ (hvt _ ((acc cl).mpr hcl))⟩

/-- In the run of C102 the call validates its token late enough, and the keys of the new set are given by a function. -/
example : Ex.chCfg.auth.enableAccessToken = true ∧ WfClaims Ex.chCfg.auth.access.lib ∧ Ex.auReq.mode = .accessToken ∧
    Ex.ijExec.act (Ex.ijAll.length - (Ex.syCall 0).length + 1) = .sys (.auth (.validate 0)) ∧
    Ex.auT 1500 + 1 + max Ex.pjPace.period ((1 : Nat) + Ex.pjPace.delay.toNat) + (1 : Nat)
      < (Ex.ijExec.state (Ex.ijAll.length - (Ex.syCall 0).length + 1)).sys.auth.now ∧
    (Ex.ijExec.state (Ex.ijAll.length - (Ex.syCall 0).length + 1)).sys.auth.now < 2 ^ 63 ∧
    (((Ex.ijExec.state (Ex.ijAll.length - (Ex.syCall 0).length + 1)).sys.auth.calls 0).any fun c => decide (c.req = Ex.auReq) &&
      (match c.pc with | .miss => true | _ => false)) = true ∧
    ∃ P : JwkProvider, ∀ kid jku key, P kid jku = some key ↔
      kid ≠ [] ∧ ConfiguredURL Ex.chCfg.jwk (lookupURL Ex.chCfg.jwk jku) ∧ KeyIn Ex.pjNew kid key := by
  refine ⟨by decide, Ex.atLib_wf, by decide, rfl, by decide +kernel, by decide +kernel, by decide +kernel,
    getKey Ex.chCfg.jwk (Ex.ijExec.state Ex.ijAll.length).sys.jwk, fun kid jku key => ?_⟩
  refine C102_goroutine Ex.chCfg [] (Ex.auT 1500) _ rfl Ex.ijExec Ex.pjPace Ex.paEnv _ _ Ex.ijInTime (by decide) rfl 1 Ex.paTakes (Ex.ijInit.length + 1)
    (fun _ => Ex.pjNew) (fun url _ => Ex.ijGives url) (Ex.auT 1500 + 1) (by decide) ?_ Ex.ijAll.length (by decide +kernel) kid jku key
  intro n hn
  refine Classical.byContradiction fun hlt => ?_
  have h : ∀ n, n < Ex.ijInit.length + 1 → (Ex.ijExec.state n).sys.auth.now < Ex.auT 1500 + 1 := by decide +kernel
  have := h n (by omega)
  omega

end Athenz
