import Verif.Proofs.SysOrigin
import Verif.Proofs.SysProj
import Verif.Props.Authority

/-!
# C62, C63: the daemons and the calls together
-/

namespace Athenz
open Spec

/-! ## C62 every grant has its origin in documents signed with published keys -/

/-- **C62**, a token call.  Whatever the key servers, the policy server and the callers do, in whatever interleaving with all components: if a
call granted, then a call with the same cache key got the same grant for a token that was valid and signed with a trusted key when it was
validated, and for each authorized role a policy that came for a configured domain, unexpired and signed with a published ZTS key and a
published ZMS key, has an assertion that allows the request. -/
theorem C62_grant (cfg : SysCfg) (now : Int) (h : List SysAct) (s : Sys)
    (hr : sysRun cfg (sysInit cfg now) h = some s) (i : Nat) (q : AReq) (p : Principal) (hc : s.auth.calls i = some ⟨q, .done (.ok p)⟩) :
    ∃ j q', s.auth.calls j = some ⟨q', .done (.ok p)⟩ ∧ cacheKey cfg.auth q' = cacheKey cfg.auth q ∧
      Origin cfg (sysInit cfg now) h q' p :=
  (sysOrigin_run hr).2.auth.granted i q p hc

/-- **C62**.  If no part of any request contains a colon, that call was for the same request. -/
theorem C62_same_request (cfg : SysCfg) (now : Int) (h : List SysAct) (s : Sys)
    (hr : sysRun cfg (sysInit cfg now) h = some s) (hn : ∀ j q' pc, s.auth.calls j = some ⟨q', pc⟩ → NoColon q')
    (i : Nat) (q : AReq) (p : Principal) (hc : s.auth.calls i = some ⟨q, .done (.ok p)⟩) :
    ∃ q', SameRequest cfg.auth q q' ∧ Origin cfg (sysInit cfg now) h q' p := by
  obtain ⟨j, q', h1, h2, h3⟩ := C62_grant cfg now h s hr i q p hc
  exact ⟨q', cacheKey_inj (hn i q _ hc) (hn j q' _ h1) h2.symm, h3⟩

/-- **C62**.  If results are not taken from the cache, the grant has its origin in the request itself. -/
theorem C62_full_check (cfg : SysCfg) (now : Int) (h : List SysAct) (s s' : Sys)
    (hr : sysRun cfg (sysInit cfg now) h = some s) (i : Nat) (hs : sysStep cfg s (.auth (.store i)) = some s') :
    ∃ q p, s'.auth.calls i = some ⟨q, .done (.ok p)⟩ ∧ Origin cfg (sysInit cfg now) h q p := by
  have ho := (sysOrigin_run hr).2
  obtain ⟨_, he⟩ := sysStep_effect hs
  cases he with
  | auth a auth' ha hst =>
    cases aStep_effect hst with
    | store _ q p hc => exact ⟨q, p, by simp [AState.note, AState.setPc], ho.auth.calls i q _ hc⟩

/-- **C62**, `Verify` and `Authorize`. -/
theorem C62_session (cfg : SysCfg) (now : Int) (h0 : 0 ≤ now) (h : List SysAct) (s : Sys)
    (hr : sysRun cfg (sysInit cfg now) h = some s) (k : Nat) (x : Sess) (p : Principal) (hx : s.auth.sess k = some x)
    (hd : x.result = some (.ok p)) :
    ∃ r act res q j q', .opened k r act res ∈ s.auth.log ∧ .token q ∈ authorizers cfg.auth r act res ∧
      s.auth.calls j = some ⟨q', .done (.ok p)⟩ ∧ cacheKey cfg.auth q' = cacheKey cfg.auth q ∧ Origin cfg (sysInit cfg now) h q' p := by
  obtain ⟨acts, ha⟩ := (sysRuns_run hr).2.auth
  obtain ⟨r, act, res, q, i, h1, h2, h3, _⟩ := C35_session _ _ h0 _ _ _ _ ha k x p hx hd
  obtain ⟨j, q', h4⟩ := C62_grant cfg now h s hr i q p h3
  exact ⟨r, act, res, q, j, q', h1, h2, h4⟩

/-- **C62**.  As long as one of the two services has not served a complete key list, nothing is granted to anybody. -/
theorem C62_no_keys (cfg : SysCfg) (now : Int) (hpol : cfg.auth.disablePolicyd = false) (h : List SysAct) (s : Sys)
    (hr : sysRun cfg (sysInit cfg now) h = some s) (e : Env) (hk : ∀ es, ¬ KeysServed cfg h e es) (i : Nat) (q : AReq) (p : Principal) :
    s.auth.calls i ≠ some ⟨q, .done (.ok p)⟩ := by
  intro hc
  obtain ⟨j, q', _, _, _, ho⟩ := C62_grant cfg now h s hr i q p hc
  obtain ⟨hne, seed, act, res, _, hg⟩ := ho hpol
  obtain ⟨role, hrole⟩ := List.exists_mem_of_ne_nil _ hne
  obtain ⟨_, dom, _, a, ⟨sp, d, ⟨pre, j', t, b, post, s1, rfl, _, _, _, _, _, _, _, ⟨_, _, ⟨es, hz, _⟩, _⟩, _, _, ⟨es', hm, _⟩, _⟩, _⟩, _⟩ := hg role hrole
  cases e with
  | zts => exact hk es (KeysServed.mono hz)
  | zms => exact hk es' (KeysServed.mono hm)

/-- **C62**.  The components in the system are runs of their models, with one clock and with the keys of the key daemons, so what is proved
about them separately holds here. -/
theorem C62_components (cfg : SysCfg) (now : Int) (h : List SysAct) (s : Sys) (hr : sysRun cfg (sysInit cfg now) h = some s) :
    (∃ acts, aRun cfg.auth (aInit now (some (pkInit now).provider) (some (getKey cfg.jwk jwkInit))) acts = some s.auth) ∧
    (∃ acts, pkRun cfg.pk (pkInit now) acts = some s.pk) ∧ (∃ acts, jwkRun cfg.jwk jwkInit acts = some s.jwk) ∧
    (∃ acts, pdRun cfg.auth.U (pdInit now cfg.domains) acts = some s.pd) ∧
    (∀ dom, ∃ acts, fRun cfg.fetch (fInit now (pkInit now).provider) acts = some (s.fs dom)) ∧
    (s.pk.now = s.auth.now ∧ s.pd.now = s.auth.now ∧ ∀ dom, (s.fs dom).now = s.auth.now) ∧
    s.auth.keys = some s.pk.provider ∧ (∀ dom, (s.fs dom).keys = s.pk.provider) ∧ s.auth.jwkp = some (getKey cfg.jwk s.jwk) := by
  obtain ⟨hb, h1, h2, h3, h4, h5⟩ := sysRuns_run hr
  exact ⟨h1, h2, h3, h4, h5, hb.clock, hb.keys.1, hb.keys.2, hb.jwkp⟩

/-- **C62**.  No call is lost at the policy check: it can always begin its check, and when the check has returned, the call can go on with its
result. -/
theorem C62_check_progress (cfg : SysCfg) (now : Int) (h : List SysAct) (s : Sys)
    (hr : sysRun cfg (sysInit cfg now) h = some s) (hd : s.dead = false) (i : Nat) (q : AReq) (p : Principal) (act res : Str)
    (hc : s.auth.calls i = some ⟨q, .translated p act res⟩) :
    (s.checkOf i = none → ∃ s', sysStep cfg s (.beginCheck i) = some s') ∧
    ∀ k c r, s.checkOf i = some k → s.pd.checks[k]? = some c → c.loaded.isSome → c.cs.coll = .ret r →
      ∃ view sched s', sysStep cfg s (.endCheck i view sched) = some s' ∧
        s'.auth.calls i = some ⟨q, match r with
          | .ok rs => .checked { p with authorizedRoles := rs }
          | .err e => .done (.err e)
          | .panic => .done .panic⟩ := by
  obtain ⟨hb, ho⟩ := sysOrigin_run hr
  constructor
  · intro hn
    have hpd : pdStep cfg.auth.U s.pd (.check ⟨p.domain, p.roles, act, cfg.auth.resourcePrefix ++ res⟩) =
        some { s.pd with checks := s.pd.checks ++ [⟨⟨p.domain, p.roles, act, cfg.auth.resourcePrefix ++ res⟩, none,
          CheckReq.init ⟨p.domain, p.roles, act, cfg.auth.resourcePrefix ++ res⟩ (fun _ => none)⟩] } := by
      simp [pdStep, (hb.alive hd).2.1]
    exact ⟨_, by simp only [sysStep, hd, hc, hn, hpd]; rfl⟩
  · intro k c r hk hck hl hret
    obtain ⟨c', hc', hlk⟩ := ho.links i k hk
    rw [hck] at hc'
    simp only [Option.some.injEq] at hc'
    subst hc'
    rw [hc] at hlk
    simp only [CheckLinked] at hlk
    obtain ⟨A, _, hg⟩ := ho.pd
    obtain ⟨v0, cs, _, hrun, _⟩ := hg.checks c (List.mem_of_getElem? hck) hl
    have hres : checkResult cfg.auth.U c.q v0 cs = some r := by
      unfold checkResult
      simp only [hrun, hret]
    refine ⟨v0, cs, ?_⟩
    have hres' := hres
    rw [hlk] at hres'
    cases r with
    | ok rs => exact ⟨_, by simp [sysStep, hd, hk, hck, hl, hret, hres, aStep, hc, hres']; rfl, by simp [AState.setPc]⟩
    | err e => exact ⟨_, by simp [sysStep, hd, hk, hck, hl, hret, hres, aStep, hc, hres']; rfl, by simp [AState.setPc]⟩
    | panic => exact ⟨_, by simp [sysStep, hd, hk, hck, hl, hret, hres, aStep, hc, hres']; rfl, by simp [AState.setPc]⟩

namespace Ex

def syRaw : RawAssertion := ⟨"dom:role.admin".toList, "read".toList, "dom:/x".toList, "ALLOW".toList⟩

/-- A policy that says of itself that it is the one of `dom`, signed with the key "1" of ZTS and the key "0" of ZMS. -/
def syPolicy : SignedPolicy :=
  { data := some { policyData := some ⟨"dom".toList, [some ⟨[some syRaw]⟩]⟩, zmsSignature := "m".toList, zmsKeyId := "0".toList,
                   expires := some (auT 5000) },
    signature := "z".toList, keyId := "1".toList }

/-- Every key accepts as signature its own text. -/
def syCfg (domains : List Str) : SysCfg :=
  { auth := { auCfg with translator := none }
    pk := { decode := fun b => if b = "Z".toList then some (some [some ("1".toList, "z".toList)])
              else if b = "M".toList then some (some [some ("0".toList, "m".toList)]) else none
            newVerifier := fun k => some fun _ sig => sig == k
            eTagExpiry := 1000 }
    jwk := { athenzURL := "u".toList, urls := [] }
    fetch := { codec := { marshalSigned := fun _ => some "SPD".toList, marshalPolicy := fun _ => some "PD".toList
                          decode := fun b => if b = "A".toList then some (some syPolicy) else none }
               expiryMargin := 100, retryAttempts := 2 }
    domains := domains }

/-- Both services serve their keys. -/
def syKeys : List SysAct := ([.update, .send 0, .answer 0 (.answer 200 [] "Z".toList) ["1".toList], .step 0 [], .step 0 ["1".toList], .step 0 [],
  .send 1, .answer 1 (.answer 200 [] "M".toList) ["0".toList], .step 1 [], .step 1 ["0".toList], .step 1 []] : List PkAct).map .pk

/-- The JWK daemon gets the key "k". -/
def syJwk : List SysAct := [.jwk .update, .jwk (.fetch 0 (some [⟨"k".toList, some ⟨.rsaPublic, "S".toList⟩⟩])), .jwk (.store 0)]

/-- The policy daemon gets the policy as that of `dom`. -/
def syLoad (dom : Str) : List SysAct :=
  [.pd (.update [some ⟨[[syRaw]], auT 5000⟩]), .pd (.task 0 (.job 0 [])), .fetcher dom (.send 0),
   .fetcher dom (.answer 0 (.answer 200 "t".toList "A".toList))] ++
  ([.task 0 (.job 0 []), .task 0 (.merge 0 0), .task 0 (.merge 0 0), .task 0 (.job 0 [syRaw]),
    .task 0 (.job 0 []), .task 0 (.job 0 []), .task 0 (.job 0 []), .finish 0] : List PdAct).map .pd

def syTok : Str := "v=Z1;d=dom;r=admin;p=me;t=1400;e=2000;k=1;s=z".toList

def syReq : AReq := ⟨.roleToken, syTok, "read".toList, "/x".toList, [], none⟩

/-- Call `i`, with its check `i`, once it is begun. -/
def syCall (i : Nat) : List SysAct :=
  [.auth (.get i), .auth (.validate i), .auth (.translate i 0), .beginCheck i, .pd (.load i)] ++
  schedR.map (fun a => .pd (.chk i a)) ++ [.endCheck i auView schedR, .auth (.store i)]

def syRun (dom : Str) : List SysAct := syKeys ++ syLoad dom ++ (.auth (.call 0 syReq) :: syCall 0)

def syPrincipal : Principal := ⟨"me".toList, ["admin".toList], "dom".toList, 1400, 2000, ["admin".toList], none⟩

end Ex

/-- Keys and policy arrive, then a role token is granted. -/
example : (Ex.syCfg ["dom".toList]).auth.disablePolicyd = false ∧
    ∃ s, sysRun (Ex.syCfg ["dom".toList]) (sysInit (Ex.syCfg ["dom".toList]) (Ex.auT 1500)) (Ex.syRun "dom".toList) = some s ∧
      s.auth.calls 0 = some ⟨Ex.syReq, .done (.ok Ex.syPrincipal)⟩ := by
  obtain ⟨s, hs, hp⟩ := Ex.exists_of_map (o := sysRun (Ex.syCfg ["dom".toList]) (sysInit (Ex.syCfg ["dom".toList]) (Ex.auT 1500)) (Ex.syRun "dom".toList))
    (p := fun s => decide (Ex.doneOk s.auth 0 Ex.syReq = some Ex.syPrincipal)) (by decide +kernel)
  exact ⟨rfl, s, hs, Ex.doneOk_iff (by simpa using hp)⟩

/-- `Authorize` by the access token, after the JWK daemon got its key. -/
example : ∃ s x, sysRun (Ex.syCfg ["dom".toList]) (sysInit (Ex.syCfg ["dom".toList]) (Ex.auT 1500))
      (Ex.syKeys ++ Ex.syJwk ++ Ex.syLoad "dom".toList ++ ([.auth (.opened 7 Ex.auHttp "read".toList "/x".toList), .auth (.fin 7), .auth (.sub 7 0)] ++
        Ex.syCall 0 ++ [.auth (.fin 7)])) = some s ∧ s.auth.sess 7 = some x ∧ x.result = some (.ok Ex.auPrincipal) := by
  obtain ⟨s, hs, hp⟩ := Ex.exists_of_map (o := sysRun (Ex.syCfg ["dom".toList]) (sysInit (Ex.syCfg ["dom".toList]) (Ex.auT 1500))
      (Ex.syKeys ++ Ex.syJwk ++ Ex.syLoad "dom".toList ++ ([.auth (.opened 7 Ex.auHttp "read".toList "/x".toList), .auth (.fin 7), .auth (.sub 7 0)] ++
        Ex.syCall 0 ++ [.auth (.fin 7)])))
    (p := fun s => match s.auth.sess 7 with | some x => decide (x.result = some (.ok Ex.auPrincipal)) | none => false) (by decide +kernel)
  cases hx : s.auth.sess 7 with
  | none => simp [hx] at hp
  | some x => simp only [hx, decide_eq_true_eq] at hp; exact ⟨s, x, hs, hx, hp⟩

/-- Without the ZMS keys the policy is refused, however valid. -/
example : ∃ s, sysRun (Ex.syCfg ["dom".toList]) (sysInit (Ex.syCfg ["dom".toList]) (Ex.auT 1500)) (Ex.syKeys.take 6 ++ (Ex.syLoad "dom".toList).take 4) = some s ∧
    (s.fs "dom".toList).cache = none ∧ (s.pk.zts.load "1".toList).isSome = true := by
  obtain ⟨s, hs, hp⟩ := Ex.exists_of_map (o := sysRun (Ex.syCfg ["dom".toList]) (sysInit (Ex.syCfg ["dom".toList]) (Ex.auT 1500)) (Ex.syKeys.take 6 ++ (Ex.syLoad "dom".toList).take 4))
    (p := fun s => decide ((s.fs "dom".toList).cache = none) && (s.pk.zts.load "1".toList).isSome) (by decide +kernel)
  simp only [Bool.and_eq_true, decide_eq_true_eq] at hp
  exact ⟨s, hs, hp⟩

/-! ## C63 roles of a domain are granted by the policy of the domain -/

/-- The full statement of C63: each authorized role is granted by an assertion that came when the policy of the principal's domain was
asked for. -/
def C63_statement : Prop :=
  ∀ (cfg : SysCfg) (now : Int) (h : List SysAct) (s : Sys) (i : Nat) (q : AReq) (p : Principal), cfg.auth.disablePolicyd = false →
    sysRun cfg (sysInit cfg now) h = some s → s.auth.calls i = some ⟨q, .done (.ok p)⟩ →
    ∀ role ∈ p.authorizedRoles, ∃ a, ReceivedAssertion cfg (sysInit cfg now) h p.domain a ∧
      a.role = p.domain ++ ":role.".toList ++ role ∧ ¬ IsDeny cfg.auth.U a

/-- It is false: nothing compares the domain in a signed policy, or those of the roles in it, with the domain for which it was asked
(policy/fetcher.go:106-151, policy/daemon.go:299-391).  Here only the domain "e" is configured, the answer to the request for its policy is
the signed policy of "dom", and then a role of "dom" is granted. -/
theorem C63_refuted : ¬ C63_statement := by
  intro hst
  obtain ⟨s, hs, hp⟩ := Ex.exists_of_map (o := sysRun (Ex.syCfg ["e".toList]) (sysInit (Ex.syCfg ["e".toList]) (Ex.auT 1500)) (Ex.syRun "e".toList))
    (p := fun s => decide (Ex.doneOk s.auth 0 Ex.syReq = some Ex.syPrincipal)) (by decide +kernel)
  obtain ⟨a, ⟨sp, d, ⟨pre, j, t, b, post, s1, heq, _⟩, _⟩, _⟩ := hst _ _ _ s 0 _ _ rfl hs (Ex.doneOk_iff (by simpa using hp)) "admin".toList
    (by simp [Ex.syPrincipal])
  have hall : ∀ x ∈ Ex.syRun "e".toList, (match x with | .fetcher dom _ => decide (dom = "e".toList) | _ => true) = true := by decide +kernel
  have hm : SysAct.fetcher Ex.syPrincipal.domain (.answer j (.answer 200 t b)) ∈ Ex.syRun "e".toList := by rw [heq]; simp
  have := hall _ hm
  simp only [decide_eq_true_eq] at this
  exact absurd this (by decide)

/-- It holds if the policy service answers a request for the policy of a domain only with assertions about roles of that domain, and no
domain has a colon.  Missing: the library does not check this itself. -/
theorem C63_own_roles_partial (cfg : SysCfg) (now : Int) (h : List SysAct) (s : Sys) (i : Nat) (q : AReq) (p : Principal)
    (hpol : cfg.auth.disablePolicyd = false) (hr : sysRun cfg (sysInit cfg now) h = some s)
    (hc : s.auth.calls i = some ⟨q, .done (.ok p)⟩)
    (hown : ∀ dom ∈ cfg.domains, ':' ∉ dom ∧ ∀ a, ReceivedAssertion cfg (sysInit cfg now) h dom a → ∃ r, a.role = dom ++ ":role.".toList ++ r)
    (hd : ':' ∉ p.domain) :
    p.domain ∈ cfg.domains ∧ ∀ role ∈ p.authorizedRoles, ∃ a, ReceivedAssertion cfg (sysInit cfg now) h p.domain a ∧
      a.role = p.domain ++ ":role.".toList ++ role ∧ ¬ IsDeny cfg.auth.U a := by
  obtain ⟨j, q', _, _, _, ho⟩ := C62_grant cfg now h s hr i q p hc
  obtain ⟨hne, seed, act, res, _, hg⟩ := ho hpol
  have key : ∀ role ∈ p.authorizedRoles, p.domain ∈ cfg.domains ∧ ∃ a, ReceivedAssertion cfg (sysInit cfg now) h p.domain a ∧
      a.role = p.domain ++ ":role.".toList ++ role ∧ ¬ IsDeny cfg.auth.U a := by
    intro role hrole
    obtain ⟨_, dom, hdom, a, hrec, hap, hnd⟩ := hg role hrole
    obtain ⟨hcol, hroles⟩ := hown dom hdom
    obtain ⟨r, hr'⟩ := hroles a hrec
    have heq : dom = p.domain := by
      have h1 : dom ++ ':' :: ("role.".toList ++ r) = p.domain ++ ':' :: ("role.".toList ++ role) := by
        have := hr'.symm.trans hap.1
        rw [List.append_assoc, List.append_assoc] at this
        exact this
      exact (colon_split hcol hd h1).1
    subst heq
    exact ⟨hdom, a, hrec, hap.1, hnd⟩
  obtain ⟨role, hrole⟩ := List.exists_mem_of_ne_nil _ hne
  exact ⟨(key role hrole).1, fun role hrole => (key role hrole).2⟩

/-- Whatever happens with these texts, the policy received for "dom" is about a role of "dom". -/
theorem Ex.sy_own (now : Int) (h : List SysAct) : ∀ dom ∈ (Ex.syCfg ["dom".toList]).domains, ':' ∉ dom ∧
    ∀ a, ReceivedAssertion (Ex.syCfg ["dom".toList]) (sysInit (Ex.syCfg ["dom".toList]) now) h dom a → ∃ r, a.role = dom ++ ":role.".toList ++ r := by
  intro dom hdom
  have hdom' : dom = "dom".toList := by simpa [Ex.syCfg] using hdom
  subst hdom'
  refine ⟨by decide, ?_⟩
  rintro a ⟨sp, d, ⟨pre, j, t, b, post, s1, _, _, hdec, _⟩, hdoc, ha⟩
  have hsp : sp = Ex.syPolicy := by
    simp only [Ex.syCfg] at hdec
    split at hdec
    · simpa using hdec.symm
    · simp at hdec
  subst hsp
  have hd' : docOf Ex.syPolicy = .ok ⟨[[Ex.syRaw]], Ex.auT 5000⟩ := by decide +kernel
  rw [← docOf_iff, hd'] at hdoc
  simp only [Res.ok.injEq] at hdoc
  subst hdoc
  simp only [List.flatten_cons, List.flatten_nil, List.append_nil, List.mem_singleton] at ha
  subst ha
  exact ⟨"admin".toList, by decide⟩

/-- A grant to which `C63_own_roles_partial` applies. -/
example : ':' ∉ Ex.syPrincipal.domain ∧ Ex.syPrincipal.authorizedRoles = ["admin".toList] ∧
    (∀ dom ∈ (Ex.syCfg ["dom".toList]).domains, ':' ∉ dom ∧ ∀ a, ReceivedAssertion (Ex.syCfg ["dom".toList])
      (sysInit (Ex.syCfg ["dom".toList]) (Ex.auT 1500)) (Ex.syRun "dom".toList) dom a → ∃ r, a.role = dom ++ ":role.".toList ++ r) ∧
    ∃ s, sysRun (Ex.syCfg ["dom".toList]) (sysInit (Ex.syCfg ["dom".toList]) (Ex.auT 1500)) (Ex.syRun "dom".toList) = some s ∧
      s.auth.calls 0 = some ⟨Ex.syReq, .done (.ok Ex.syPrincipal)⟩ := by
  obtain ⟨s, hs, hp⟩ := Ex.exists_of_map (o := sysRun (Ex.syCfg ["dom".toList]) (sysInit (Ex.syCfg ["dom".toList]) (Ex.auT 1500)) (Ex.syRun "dom".toList))
    (p := fun s => decide (Ex.doneOk s.auth 0 Ex.syReq = some Ex.syPrincipal)) (by decide +kernel)
  exact ⟨by decide, rfl, Ex.sy_own _ _, s, hs, Ex.doneOk_iff (by simpa using hp)⟩

/-- A call that waits for a check that has returned, and one that may begin its check (`C62_check_progress`). -/
example : ∃ s c, sysRun (Ex.syCfg ["dom".toList]) (sysInit (Ex.syCfg ["dom".toList]) (Ex.auT 1500))
      ((Ex.syRun "dom".toList).take 34 ++ [.auth (.call 1 Ex.syReq), .auth (.get 1), .auth (.validate 1), .auth (.translate 1 0)]) = some s ∧
      s.dead = false ∧ s.checkOf 0 = some 0 ∧ s.pd.checks[0]? = some c ∧ c.loaded.isSome = true ∧ c.cs.coll = .ret (.ok ["admin".toList]) ∧
      s.checkOf 1 = none ∧ ∃ p act res, s.auth.calls 1 = some ⟨Ex.syReq, .translated p act res⟩ := by
  obtain ⟨s, hs, hp⟩ := Ex.exists_of_map (o := sysRun (Ex.syCfg ["dom".toList]) (sysInit (Ex.syCfg ["dom".toList]) (Ex.auT 1500))
      ((Ex.syRun "dom".toList).take 34 ++ [.auth (.call 1 Ex.syReq), .auth (.get 1), .auth (.validate 1), .auth (.translate 1 0)]))
    (p := fun s => !s.dead && decide (s.checkOf 0 = some 0) && decide (s.checkOf 1 = none) &&
      (match s.pd.checks[0]? with | some c => c.loaded.isSome && decide (c.cs.coll = .ret (.ok ["admin".toList])) | none => false) &&
      (match s.auth.calls 1 with | some ⟨q, .translated _ _ _⟩ => decide (q = Ex.syReq) | _ => false)) (by decide +kernel)
  simp only [Bool.and_eq_true, Bool.not_eq_true', decide_eq_true_eq] at hp
  obtain ⟨⟨⟨⟨h1, h2⟩, h3⟩, h4⟩, h5⟩ := hp
  split at h4
  · rename_i c hc
    simp only [Bool.and_eq_true, decide_eq_true_eq] at h4
    split at h5
    · rename_i q p act res hq
      simp only [decide_eq_true_eq] at h5
      subst h5
      exact ⟨s, c, hs, h1, h2, hc, h4.1, h4.2, h3, p, act, res, hq⟩
    · simp at h5
  · simp at h4

end Athenz
