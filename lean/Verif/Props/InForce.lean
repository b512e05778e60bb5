import Verif.Proofs.AlikeSys
import Verif.Proofs.Withdraw
import Verif.Props.PolicydLocal
import Verif.Props.Fresh

/-!
# C68: a full check decides as the policies say which the last successful update got
-/

namespace Athenz
open Spec

/-- What becomes of a call whose policy check returned `r`. -/
def afterCheck (p : Principal) : Res (List Str) → Pc
  | .ok rs => .checked { p with authorizedRoles := rs }
  | .err e => .done (.err e)
  | .panic => .done .panic

/-- The full statement of C68, for executions without background refresh: when a call's policy check returns, the outcome is what the
policies prescribe that were in force at a moment during the call, unless one of them has expired. -/
def C68_statement : Prop :=
  ∀ (cfg : SysCfg) (now : Int) (h : List SysAct) (s s' : Sys) (i : Nat) (view : PolicyView) (sched : List CheckAct), 0 ≤ now →
    cfg.auth.disablePolicyd = false → (∀ n f, .pd (.hook n f) ∉ h) → sysRun cfg (sysInit cfg now) h = some s →
    sysStep cfg s (.endCheck i view sched) = some s' →
    ∃ q p act res r h1 h2 s1 docs, s.auth.calls i = some ⟨q, .translated p act res⟩ ∧ s'.auth.calls i = some ⟨q, afterCheck p r⟩ ∧
      h = h1 ++ h2 ∧ .beginCheck i ∈ h1 ∧ sysRun cfg (sysInit cfg now) h1 = some s1 ∧ InForce cfg (sysInit cfg now) h1 s1 docs ∧
      ((∀ d, some d ∈ docs → s.auth.now < d.expires ∧ d.expires + s.auth.now < 2 ^ 63) →
        Decision cfg.auth.U (allAssertions docs) ⟨p.domain, p.roles, act, cfg.auth.resourcePrefix ++ res⟩ r)

/-- **C68**.  In every execution there are documents in force: what the last update that returned nil got from the fetchers of all configured
domains.  As long as no refresh began while that update was the last, they are the published documents. -/
theorem C68_in_force_any (cfg : SysCfg) (now : Int) (h : List SysAct) (s : Sys)
    (hr : sysRun cfg (sysInit cfg now) h = some s) :
    ∃ docs, InForce cfg (sysInit cfg now) h s docs ∧ (NotRefreshed cfg (sysInit cfg now) h s h → s.pd.liveDocs = docs) := by
  have hi := forceAny_run hr
  have hver : NotRefreshed cfg (sysInit cfg now) h s h → ObjVer cfg.auth.U now s.pd.live s.pd := fun hn =>
    objVer_run (by simpa using noHookOn_of (h2 := []) hr (by simpa using hr) (by simpa using hn)) hr
  rcases hi.live with ⟨h0, h1⟩ | ⟨i, t, hlu, ht, ho⟩
  · refine ⟨[], .inl ⟨rfl, fun t ht => ?_⟩, fun hn => ?_⟩
    · obtain ⟨i, hi⟩ := List.mem_iff_getElem?.mp ht
      exact h1 i t hi
    · simp [PdState.liveDocs, h0, ((h0 ▸ hver hn).zero rfl).2]
  · have hlu' := hlu
    obtain ⟨⟨t', ht', hret⟩, _⟩ := hlu
    rw [ht] at ht'
    obtain rfl := Option.some.inj ht'
    have hu := (hi.upd ht hret).1
    obtain ⟨docs, extra, g1, g2, g3, g4⟩ := hi.tasks i t ht hu
    refine ⟨docs, .inr ⟨i, hlu', g2, fun j dom hdom => ?_⟩, fun hn => ?_⟩
    · have hj : j < t.jobs.length := by rw [g3, g2]; exact lt_of_getElem? hdom
      have hx := List.getElem?_eq_getElem hj
      have hok := hi.tinv.ok i t ht hret
      simp only [Task.allOk, List.all_eq_true] at hok
      have hpast : (t.jobs[j]).past = true := by
        have := hok _ (List.getElem_mem hj)
        split at this
        · rename_i hq; rw [hq]; rfl
        · simp at this
      obtain ⟨sp, d, k1, k2, k3⟩ := (g4 j _ hx).2.2 hpast
      have hdo : s.domOf i j = some dom := by
        unfold Sys.domOf
        rw [hi.doms i t ht hu]
        exact hdom
      obtain ⟨dom', n, retry, e, m1, m2, m3⟩ := fetchResult_calls.mp k1
      rw [hdo] at m1
      obtain rfl := Option.some.inj m1
      refine ⟨sp, d, hdo, k1, k2, k3, ((sysOrigin_run hr).2.fs dom).ret n retry sp e m3, ?_⟩
      rintro pre post s1 rfl hr1 hlen
      have hr2 : sysRun cfg s1 post = some s := by rw [sysRun_append, hr1] at hr; exact hr
      exact (freshInv_run hr1 hr2).calls dom n _ ((waitAny_run hr1 hr2).new i j n dom (by rw [(forceAny_run hr1).len]; exact hlen) m2 hdo) m3
    · have hlen := (hver hn).docs_len ht ho
      have hdocs : s.pd.liveDocs = docs ++ extra := by rw [PdState.liveDocs, ← ho, g1, Option.getD_some]
      rw [hdocs, List.length_append, g3] at hlen
      rw [hdocs, List.eq_nil_of_length_eq_zero (by omega : extra.length = 0), List.append_nil]

/-- **C68**.  Without background refresh the published documents are those in force: what the last update that returned nil got from the
fetchers of all configured domains. -/
theorem C68_in_force (cfg : SysCfg) (now : Int) (h : List SysAct) (s : Sys)
    (hnh : ∀ n f, .pd (.hook n f) ∉ h) (hr : sysRun cfg (sysInit cfg now) h = some s) :
    InForce cfg (sysInit cfg now) h s s.pd.liveDocs := by
  obtain ⟨docs, h1, h2⟩ := C68_in_force_any cfg now h s hr
  rw [h2 (NotRefreshed.of_noHook hnh)]
  exact h1

/-- **C68**, every check, also those for certificates: if the documents in force when it loaded the cache are regular for the roles asked
for, and the refreshes of expired entries that began while they were in force got nothing about these roles that these documents do not say, then
it decides as they prescribe.  Regular is also a document that had expired before the update was called that brought it into force.  Missing:
irregular documents, see `C68_refuted`, and checks during which, or before which, the documents in force were refreshed with others (C13). -/
theorem C68_check_since_partial (cfg : SysCfg) (now : Int) (hnow : 0 ≤ now) (h : List SysAct) (s : Sys)
    (hr : sysRun cfg (sysInit cfg now) h = some s) (k : Nat) (c : Chk) (r : Res (List Str))
    (hk : s.pd.checks[k]? = some c) (hret : c.cs.coll = .ret r) :
    ∃ h1 h2 s1 docs, h = h1 ++ .pd (.load k) :: h2 ∧ sysRun cfg (sysInit cfg now) h1 = some s1 ∧ InForce cfg (sysInit cfg now) h1 s1 docs ∧
      (∀ i, s.checkOf i = some k → .beginCheck i ∈ h1) ∧
      (∀ t0, InForceSince cfg (sysInit cfg now) h1 s1 t0 → (∀ role ∈ c.q.roles, RegularAt cfg.auth.U docs t0 s.auth.now s.auth.now (c.q.domain ++ ":role.".toList ++ role)) →
        RefreshedWith cfg (sysInit cfg now) h1 s1 h s (fun d => ∀ role ∈ c.q.roles, SaysAlike docs t0 s.auth.now (c.q.domain ++ ":role.".toList ++ role) d) →
        Decision cfg.auth.U (allAssertions docs) c.q r) := by
  have hl : c.loaded.isSome := by
    cases hl : c.loaded with
    | none =>
      rw [checksLoad_run hr k c hk hl] at hret
      simp at hret
    | some x => rfl
  obtain ⟨h1, h2, s1, rfl, hr1, hb⟩ := (loadInv_run hr).load k c hk hl
  obtain ⟨docs, hin, _⟩ := C68_in_force_any cfg now h1 s1 hr1
  refine ⟨h1, h2, s1, docs, rfl, hr1, hin, hb, fun t0 hsince hreg hrw => ?_⟩
  obtain ⟨n1, hinv⟩ := roleInv_run (K := fun k => ∃ role ∈ c.q.roles, k = c.q.domain ++ ":role.".toList ++ role) hnow hr1 hr hin hsince
    (by rintro k ⟨role, hrole, rfl⟩; exact hreg role hrole)
    (fun pre n f post s2 he hr2 hs sp d hf hp k ⟨role, hrole, hk⟩ => hk ▸ hrw pre n f post s2 he hr2 hs sp d hf hp role hrole)
  exact decision_changing ((hinv.checks k c _ _ hk (loaded_live hr hk rfl hr1) fun role hrole => ⟨role, hrole, rfl⟩).ret r hret)

/-- **C68**, every check, also those for certificates: if the documents in force when it loaded the cache are regular for the roles asked
for, and the refreshes of expired entries that began while they were in force got nothing about these roles that these documents do not say, then
it decides as they prescribe.  Missing: irregular documents, see `C68_refuted`, and checks during which, or before which, the documents in force
were refreshed with others (C13). -/
theorem C68_check_partial (cfg : SysCfg) (now : Int) (hnow : 0 ≤ now) (h : List SysAct) (s : Sys)
    (hr : sysRun cfg (sysInit cfg now) h = some s) (k : Nat) (c : Chk) (r : Res (List Str))
    (hk : s.pd.checks[k]? = some c) (hret : c.cs.coll = .ret r) :
    ∃ h1 h2 s1 docs, h = h1 ++ .pd (.load k) :: h2 ∧ sysRun cfg (sysInit cfg now) h1 = some s1 ∧ InForce cfg (sysInit cfg now) h1 s1 docs ∧
      (∀ i, s.checkOf i = some k → .beginCheck i ∈ h1) ∧
      ((∀ role ∈ c.q.roles, RegularAt cfg.auth.U docs now s.auth.now s.auth.now (c.q.domain ++ ":role.".toList ++ role)) →
        RefreshedWith cfg (sysInit cfg now) h1 s1 h s (fun d => ∀ role ∈ c.q.roles, SaysAlike docs now s.auth.now (c.q.domain ++ ":role.".toList ++ role) d) →
        Decision cfg.auth.U (allAssertions docs) c.q r) := by
  obtain ⟨h1, h2, s1, docs, e1, e2, e3, e4, e5⟩ := C68_check_since_partial cfg now hnow h s hr k c r hk hret
  exact ⟨h1, h2, s1, docs, e1, e2, e3, e4, e5 now (InForceSince.start h1 s1)⟩

/-- **C68**, a token call that does the full check: the token was valid and signed with a trusted key, and when the check returns, the call
goes on as the documents prescribe that were in force at a moment after the call had asked for the check, if these are regular for the
roles of the token, be it that they had expired before the update was called that brought them into force, and the refreshes of expired
entries that began while they were in force got nothing about these roles that these documents do not say.  Missing: irregular documents, see
`C68_refuted`, and calls during which, or before which, the documents in force were refreshed with others (C13). -/
theorem C68_call_since_partial (cfg : SysCfg) (now : Int) (hnow : 0 ≤ now) (h : List SysAct) (s s' : Sys)
    (hr : sysRun cfg (sysInit cfg now) h = some s) (i : Nat) (view : PolicyView) (sched : List CheckAct)
    (hs : sysStep cfg s (.endCheck i view sched) = some s') :
    ∃ q p seed act res r h1 h2 s1 docs, s.auth.calls i = some ⟨q, .translated p act res⟩ ∧ s'.auth.calls i = some ⟨q, afterCheck p r⟩ ∧
      TokenAccepted cfg (sysInit cfg now) h q p ∧ Translates cfg.auth seed p.domain q act res ∧
      h = h1 ++ h2 ∧ .beginCheck i ∈ h1 ∧ sysRun cfg (sysInit cfg now) h1 = some s1 ∧ InForce cfg (sysInit cfg now) h1 s1 docs ∧
      (∀ t0, InForceSince cfg (sysInit cfg now) h1 s1 t0 → (∀ role ∈ p.roles, RegularAt cfg.auth.U docs t0 s.auth.now s.auth.now (p.domain ++ ":role.".toList ++ role)) →
        RefreshedWith cfg (sysInit cfg now) h1 s1 h s (fun d => ∀ role ∈ p.roles, SaysAlike docs t0 s.auth.now (p.domain ++ ":role.".toList ++ role) d) →
        Decision cfg.auth.U (allAssertions docs) ⟨p.domain, p.roles, act, cfg.auth.resourcePrefix ++ res⟩ r) := by
  have ho := (sysOrigin_run hr).2
  obtain ⟨_, he⟩ := sysStep_effect hs
  cases he with
  | endCheck _ _ _ k c r auth' hk hc hl hret hv hst =>
    obtain ⟨c', hc', hlk⟩ := ho.links i k hk
    rw [hc] at hc'
    obtain rfl := Option.some.inj hc'
    obtain ⟨h1, h2, s1, docs, hh, hr1, hin, hb, hdec⟩ := C68_check_since_partial cfg now hnow h s hr k c r hc hret
    suffices hfin : ∃ q p act res, s.auth.calls i = some ⟨q, .translated p act res⟩ ∧ auth'.calls i = some ⟨q, afterCheck p r⟩ by
      obtain ⟨q, p, act, res, hcall, hafter⟩ := hfin
      rw [hcall] at hlk
      simp only [CheckLinked] at hlk
      rw [hlk] at hdec
      obtain ⟨hta, seed, htr⟩ := ho.auth.calls i q _ hcall
      exact ⟨q, p, seed, act, res, r, h1, .pd (.load k) :: h2, s1, docs, hcall, hafter, hta, htr, hh, hb i hk, hr1, hin, hdec⟩
    cases aStep_effect hst with
    | check _ _ _ q p act res rs hcall hcr =>
      have hq : c.q = ⟨p.domain, p.roles, act, cfg.auth.resourcePrefix ++ res⟩ := by rw [hcall] at hlk; exact hlk
      rw [hq, hcr] at hv
      simp only [Option.some.injEq] at hv
      subst hv
      exact ⟨q, p, act, res, hcall, by simp [AState.setPc, afterCheck]⟩
    | checkFail _ _ _ q p act res r' hcall hf hno =>
      have hq : c.q = ⟨p.domain, p.roles, act, cfg.auth.resourcePrefix ++ res⟩ := by rw [hcall] at hlk; exact hlk
      rw [hq] at hv
      rw [hv] at hf
      refine ⟨q, p, act, res, hcall, ?_⟩
      cases r with
      | ok rs => simp [Res.fail] at hf
      | err e =>
        simp only [Option.bind_some, Res.fail, Option.some.injEq] at hf
        subst hf
        simp [AState.setPc, afterCheck]
      | panic =>
        simp only [Option.bind_some, Res.fail, Option.some.injEq] at hf
        subst hf
        simp [AState.setPc, afterCheck]

/-- **C68**, a token call that does the full check: the token was valid and signed with a trusted key, and when the check returns, the call
goes on as the documents prescribe that were in force at a moment after the call had asked for the check, if these are regular for the
roles of the token and the refreshes of expired entries that began while they were in force got nothing about these roles that these documents
do not say.  Missing: irregular documents, see `C68_refuted`, and calls during which, or before which, the documents in force were refreshed with
others (C13). -/
theorem C68_call_partial (cfg : SysCfg) (now : Int) (hnow : 0 ≤ now) (h : List SysAct) (s s' : Sys)
    (hr : sysRun cfg (sysInit cfg now) h = some s) (i : Nat) (view : PolicyView) (sched : List CheckAct)
    (hs : sysStep cfg s (.endCheck i view sched) = some s') :
    ∃ q p seed act res r h1 h2 s1 docs, s.auth.calls i = some ⟨q, .translated p act res⟩ ∧ s'.auth.calls i = some ⟨q, afterCheck p r⟩ ∧
      TokenAccepted cfg (sysInit cfg now) h q p ∧ Translates cfg.auth seed p.domain q act res ∧
      h = h1 ++ h2 ∧ .beginCheck i ∈ h1 ∧ sysRun cfg (sysInit cfg now) h1 = some s1 ∧ InForce cfg (sysInit cfg now) h1 s1 docs ∧
      ((∀ role ∈ p.roles, RegularAt cfg.auth.U docs now s.auth.now s.auth.now (p.domain ++ ":role.".toList ++ role)) →
        RefreshedWith cfg (sysInit cfg now) h1 s1 h s (fun d => ∀ role ∈ p.roles, SaysAlike docs now s.auth.now (p.domain ++ ":role.".toList ++ role) d) →
        Decision cfg.auth.U (allAssertions docs) ⟨p.domain, p.roles, act, cfg.auth.resourcePrefix ++ res⟩ r) := by
  obtain ⟨q, p, seed, act, res, r, h1, h2, s1, docs, e1, e2, e3, e4, e5, e6, e7, e8, e9⟩ := C68_call_since_partial cfg now hnow h s s' hr i view sched hs
  exact ⟨q, p, seed, act, res, r, h1, h2, s1, docs, e1, e2, e3, e4, e5, e6, e7, e8, e9 now (InForceSince.start h1 s1)⟩

namespace Ex

/-- The policy allows and denies the same, in two policies of the document. -/
def ifDeny : RawAssertion := { syRaw with effect := "DENY".toList }

def ifPolicy : SignedPolicy :=
  { data := some { policyData := some ⟨"dom".toList, [some ⟨[some syRaw]⟩, some ⟨[some ifDeny]⟩]⟩, zmsSignature := "m".toList, zmsKeyId := "0".toList,
                   expires := some (auT 5000) },
    signature := "z".toList, keyId := "1".toList }

def ifDoc : PolicyDoc := ⟨[[syRaw], [ifDeny]], auT 5000⟩

def ifCfg : SysCfg :=
  { syCfg ["dom".toList] with
    fetch := { (syCfg ["dom".toList]).fetch with
      codec := { (syCfg ["dom".toList]).fetch.codec with
        decode := fun b => if b = "A".toList then some (some ifPolicy) else none } } }

/-- The goroutine that has the allow looks before the other one stores the deny, and stores after it. -/
def ifLoad : List SysAct :=
  [.pd (.update [some ifDoc]), .pd (.task 0 (.job 0 [])), .fetcher "dom".toList (.send 0),
   .fetcher "dom".toList (.answer 0 (.answer 200 "t".toList "A".toList))] ++
  ([.task 0 (.job 0 []), .task 0 (.merge 0 0), .task 0 (.merge 0 1), .task 0 (.merge 0 1), .task 0 (.merge 0 0), .task 0 (.job 0 [syRaw]),
    .task 0 (.job 0 []), .task 0 (.job 0 []), .task 0 (.job 0 []), .finish 0] : List PdAct).map .pd

/-- A call up to the end of its check. -/
def ifCall : List SysAct :=
  [.auth (.call 0 syReq), .auth (.get 0), .auth (.validate 0), .auth (.translate 0 0), .beginCheck 0, .pd (.load 0)] ++ schedR.map (fun a => .pd (.chk 0 a))

def checkedOk (s : Sys) : Option (AReq × Principal) :=
  match s.auth.calls 0 with
  | some ⟨q, .checked p⟩ => some (q, p)
  | _ => none

theorem checkedOk_some {s : Sys} {q : AReq} {p : Principal} (h : checkedOk s = some (q, p)) : s.auth.calls 0 = some ⟨q, .checked p⟩ := by
  unfold checkedOk at h
  split at h
  · rename_i q' p' hc
    simp only [Option.some.injEq, Prod.mk.injEq] at h
    rw [hc, h.1, h.2]
  · simp at h

end Ex

namespace Ex

def ifHist : List SysAct := syKeys ++ ifLoad ++ ifCall

def transOf (s : Sys) : Option (Principal × Str × Str) :=
  match s.auth.calls 0 with
  | some ⟨_, .translated p act res⟩ => some (p, act, res)
  | _ => none

/-- After every part of the history in which the call has asked for its check, the one update has returned nil with the policy. -/
def ifParts : Bool :=
  (List.range (ifHist.length + 1)).all fun n =>
    !(ifHist.take n).any (fun a => match a with | .beginCheck _ => true | _ => false) ||
      match sysRun ifCfg (sysInit ifCfg (auT 1500)) (ifHist.take n) with
      | none => true
      | some s => decide (s.pd.tasks.map (·.ret) = [some true]) && decide (s.fetchResult 0 0 = some (some ifPolicy))

theorem ifParts_spec {h1 h2 : List SysAct} {s1 : Sys} (hh : ifHist = h1 ++ h2) (hb : .beginCheck 0 ∈ h1)
    (hr : sysRun ifCfg (sysInit ifCfg (auT 1500)) h1 = some s1) :
    s1.pd.tasks.map (·.ret) = [some true] ∧ s1.fetchResult 0 0 = some (some ifPolicy) := by
  have hall : ifParts = true := by decide +kernel
  unfold ifParts at hall
  rw [List.all_eq_true] at hall
  have hle : h1.length < ifHist.length + 1 := by rw [hh, List.length_append]; omega
  have ht : ifHist.take h1.length = h1 := by rw [hh]; simp
  have := hall _ (List.mem_range.mpr hle)
  rw [ht, hr] at this
  have hany : h1.any (fun a => match a with | SysAct.beginCheck _ => true | _ => false) = true := List.any_eq_true.mpr ⟨_, hb, rfl⟩
  rw [hany] at this
  simpa using this

theorem ifParts_docs {h1 h2 : List SysAct} {s1 : Sys} {docs : List (Option PolicyDoc)} (hh : ifHist = h1 ++ h2) (hb : .beginCheck 0 ∈ h1)
    (hr : sysRun ifCfg (sysInit ifCfg (auT 1500)) h1 = some s1) (hin : InForce ifCfg (sysInit ifCfg (auT 1500)) h1 s1 docs) : docs = [some ifDoc] := by
  obtain ⟨hret, hfr⟩ := ifParts_spec hh hb hr
  rcases hin with ⟨_, hn⟩ | ⟨i, ⟨⟨t, ht, _⟩, _⟩, hlen, hf⟩
  · have : some true ∈ s1.pd.tasks.map (·.ret) := by rw [hret]; simp
    obtain ⟨t, ht, hr⟩ := List.mem_map.mp this
    exact absurd hr (hn t ht)
  · have h0 : i = 0 := by
      have h1 := lt_of_getElem? ht
      have h2 : s1.pd.tasks.length = 1 := by simpa using congrArg List.length hret
      omega
    subst h0
    obtain ⟨sp, d, _, h1, h2, h3, _⟩ := hf 0 "dom".toList rfl
    rw [hfr] at h1
    simp only [Option.some.injEq] at h1
    subst h1
    have : docOf ifPolicy = .ok ifDoc := by decide +kernel
    rw [← docOf_iff, this] at h2
    simp only [Res.ok.injEq] at h2
    subst h2
    match docs, hlen, h3 with
    | [x], _, h3 => simpa using h3
    | [], _, h3 => simp at h3
    | _ :: _ :: _, hlen, _ => simp [ifCfg, syCfg] at hlen

end Ex

/-- **C68** is false for the code: the merge loses the deny (C10), and the call is granted although the one policy in force, received with
valid signatures and unexpired, denies the request. -/
theorem C68_refuted : ¬ C68_statement := by
  intro hst
  obtain ⟨s, hs, hp⟩ := Ex.exists_of_map (o := sysRun Ex.ifCfg (sysInit Ex.ifCfg (Ex.auT 1500)) Ex.ifHist)
    (p := fun s => decide (Ex.transOf s = some ({ Ex.syPrincipal with authorizedRoles := [] }, "read".toList, "/x".toList)) && decide (s.auth.now = Ex.auT 1500) &&
      ((sysStep Ex.ifCfg s (.endCheck 0 Ex.auView Ex.schedR)).map (fun s' => decide (Ex.checkedOk s' = some (Ex.syReq, Ex.syPrincipal))) == some true))
    (by decide +kernel)
  simp only [Bool.and_eq_true, decide_eq_true_eq, beq_iff_eq] at hp
  obtain ⟨⟨htr, hnow⟩, hck⟩ := hp
  obtain ⟨s', hs', hck⟩ := Ex.exists_of_map hck
  simp only [decide_eq_true_eq] at hck
  have hhook : ∀ x ∈ Ex.ifHist, (match x with | .pd (.hook _ _) => false | _ => true) = true := by decide +kernel
  obtain ⟨q, p, act, res, r, h1, h2, s1, docs, hcall, hafter, hh, hb, hr1, hin, hdec⟩ :=
    hst Ex.ifCfg (Ex.auT 1500) Ex.ifHist s s' 0 Ex.auView Ex.schedR (by decide) rfl (fun n f hm => absurd (hhook _ hm) (by simp)) hs hs'
  obtain rfl := Ex.ifParts_docs hh hb hr1 hin
  have hdec := hdec (by
    intro d hd
    simp only [List.mem_singleton, Option.some.injEq] at hd
    subst hd
    rw [hnow]
    decide)
  unfold Ex.transOf at htr
  rw [hcall] at htr
  simp only [Option.some.injEq, Prod.mk.injEq] at htr
  obtain ⟨rfl, rfl, rfl⟩ := htr
  rw [Ex.checkedOk_some hck] at hafter
  cases r with
  | err e => simp [afterCheck] at hafter
  | panic => simp [afterCheck] at hafter
  | ok rs =>
    refine hdec.2.1 ⟨"admin".toList, by simp [Ex.syPrincipal], Ex.ifDeny, ?_, ?_⟩
    · simp [allAssertions, Ex.ifDoc]
    · refine ⟨?_, by decide +kernel⟩
      exact Ex.applies_of rfl (by decide +kernel)

/-- An execution to which `C68_call_partial` applies: the documents are regular for the role of the token, and the check has returned. -/
example : ∃ s s', sysRun (Ex.syCfg ["dom".toList]) (sysInit (Ex.syCfg ["dom".toList]) (Ex.auT 1500)) (Ex.syKeys ++ Ex.syLoad "dom".toList ++ Ex.ifCall) = some s ∧
    sysStep (Ex.syCfg ["dom".toList]) s (.endCheck 0 Ex.auView Ex.schedR) = some s' ∧ s'.auth.calls 0 = some ⟨Ex.syReq, .checked Ex.syPrincipal⟩ ∧
    s.pd.liveDocs = [some Ex.frDoc] ∧
    ∀ role ∈ Ex.syPrincipal.roles, RegularAt asciiCase s.pd.liveDocs (Ex.auT 1500) s.auth.now s.auth.now (Ex.syPrincipal.domain ++ ":role.".toList ++ role) := by
  obtain ⟨s, hs, hp⟩ := Ex.exists_of_map
    (o := sysRun (Ex.syCfg ["dom".toList]) (sysInit (Ex.syCfg ["dom".toList]) (Ex.auT 1500)) (Ex.syKeys ++ Ex.syLoad "dom".toList ++ Ex.ifCall))
    (p := fun s => decide (s.pd.liveDocs = [some Ex.frDoc]) && decide (s.auth.now = Ex.auT 1500) &&
      ((sysStep (Ex.syCfg ["dom".toList]) s (.endCheck 0 Ex.auView Ex.schedR)).map (fun s' => decide (Ex.checkedOk s' = some (Ex.syReq, Ex.syPrincipal))) == some true))
    (by decide +kernel)
  simp only [Bool.and_eq_true, decide_eq_true_eq, beq_iff_eq] at hp
  obtain ⟨⟨hdocs, hnow⟩, hck⟩ := hp
  obtain ⟨s', hs', hck⟩ := Ex.exists_of_map hck
  simp only [decide_eq_true_eq] at hck
  refine ⟨s, s', hs, hs', Ex.checkedOk_some hck, hdocs, ?_⟩
  rw [hdocs, hnow]
  intro role _
  refine .inr ⟨0, Ex.frDoc, ⟨rfl, ?_, .inr (by decide)⟩, ?_⟩
  · intro j d hj hd
    match j with
    | 0 => exact absurd rfl hj
    | n + 1 => simp at hd
  · intro a ha hr
    simp [Ex.frDoc] at ha
    subst ha
    refine ⟨fun b hb _ => by simp [Ex.frDoc] at hb; subst hb; exact ⟨rfl, rfl, rfl⟩, fun hd => absurd hd (by decide)⟩

namespace Ex

/-- The first answer of the server is the policy with a shorter life. -/
def rfCfg : SysCfg :=
  { syCfg ["dom".toList] with
    fetch := { (syCfg ["dom".toList]).fetch with
      codec := { (syCfg ["dom".toList]).fetch.codec with
        decode := fun b => if b = "A".toList then some (some syPolicy)
          else if b = "S".toList then some (some { syPolicy with data := syPolicy.data.map fun d => { d with expires := some (auT 1600) } })
          else none } } }

/-- The policy is loaded and expires. -/
def rfPre : List SysAct :=
  syKeys ++ [.pd (.update [some ⟨[[syRaw]], auT 1600⟩]), .pd (.task 0 (.job 0 [])), .fetcher "dom".toList (.send 0),
    .fetcher "dom".toList (.answer 0 (.answer 200 "s".toList "S".toList))] ++ frFill 0 ++
  [.pd (.finish 0), .tick 150000000000, .pd (.expire 1 "dom:role.admin".toList)]

/-- It is refreshed, and then loaded anew by an update. -/
def rfPost : List SysAct :=
  [.fetcher "dom".toList (.send 1), .fetcher "dom".toList (.answer 1 (.answer 200 "t".toList "A".toList))] ++ frFill 1 ++
  [.pd (.update [some frDoc]), .pd (.task 2 (.job 0 [])), .fetcher "dom".toList (.send 2), .fetcher "dom".toList (.answer 2 (.answer 304 [] []))] ++
  frFill 2

def rfCall : List SysAct := [.auth (.call 0 syReq), .auth (.get 0), .auth (.validate 0), .auth (.translate 0 0), .beginCheck 0]

end Ex

/-- An execution to which `C68_check_partial` applies although a refresh took place: it filled the object of an earlier update. -/
example : ∃ h1 h2 s1 s c, h1 = Ex.rfPre ++ .pd (.hook 0 (some Ex.frDoc)) :: (Ex.rfPost ++ .pd (.finish 2) :: Ex.rfCall) ∧
    sysRun Ex.rfCfg (sysInit Ex.rfCfg (Ex.auT 1500)) h1 = some s1 ∧ sysRun Ex.rfCfg (sysInit Ex.rfCfg (Ex.auT 1500)) (h1 ++ .pd (.load 0) :: h2) = some s ∧
    s.pd.checks[0]? = some c ∧ c.cs.coll = .ret (.ok ["admin".toList]) ∧ s1.pd.liveDocs = [some Ex.frDoc] ∧
    NotRefreshed Ex.rfCfg (sysInit Ex.rfCfg (Ex.auT 1500)) h1 s1 (h1 ++ .pd (.load 0) :: h2) := by
  obtain ⟨s1, hs1, hp1⟩ := Ex.exists_of_map
    (o := sysRun Ex.rfCfg (sysInit Ex.rfCfg (Ex.auT 1500)) (Ex.rfPre ++ .pd (.hook 0 (some Ex.frDoc)) :: (Ex.rfPost ++ .pd (.finish 2) :: Ex.rfCall)))
    (p := fun s => decide (s.pd.liveDocs = [some Ex.frDoc]) && decide (s.pd.tasks.map (·.ret) = [some true, none, some true]) &&
      ((sysRun Ex.rfCfg s (.pd (.load 0) :: Ex.schedR.map (fun a => .pd (.chk 0 a)))).map
        (fun s' => decide ((Ex.chkOk s').map (·.2) = some ["admin".toList])) == some true))
    (by decide +kernel)
  simp only [Bool.and_eq_true, decide_eq_true_eq, beq_iff_eq] at hp1
  obtain ⟨⟨hdocs, hrets⟩, hck⟩ := hp1
  obtain ⟨s, hs, hck⟩ := Ex.exists_of_map hck
  simp only [decide_eq_true_eq] at hck
  obtain ⟨c, hc, hret⟩ : ∃ c, s.pd.checks[0]? = some c ∧ c.cs.coll = .ret (.ok ["admin".toList]) := by
    unfold Ex.chkOk at hck
    split at hck
    · rename_i c hc
      split at hck
      · rename_i rs hrs
        simp only [Option.map_some, Option.some.injEq] at hck
        exact ⟨c, hc, hck ▸ hrs⟩
      · simp at hck
    · simp at hck
  refine ⟨_, Ex.schedR.map (fun a => .pd (.chk 0 a)), s1, s, c, rfl, hs1, ?_, hc, hret, hdocs, ?_⟩
  · rw [sysRun_append, hs1]; exact hs
  · have hlast : LastUpdate (Ex.rfPre ++ .pd (.hook 0 (some Ex.frDoc)) :: (Ex.rfPost ++ .pd (.finish 2) :: Ex.rfCall)) s1 2 := by
      have h2 := congrArg (fun l => l[2]?) hrets
      simp only [List.getElem?_map] at h2
      obtain ⟨t, ht, hr⟩ := Option.map_eq_some_iff.mp h2
      refine ⟨⟨t, ht, hr⟩, Ex.rfPre ++ .pd (.hook 0 (some Ex.frDoc)) :: Ex.rfPost, Ex.rfCall, by simp, ?_⟩
      intro i hi
      have : ∀ x ∈ Ex.rfCall, (match x with | .pd (.finish _) => false | _ => true) = true := by decide +kernel
      exact absurd (this _ hi) (by simp)
    refine NotRefreshed.of_before hlast ?_
    intro pre n f post s2 he hr2
    have hno : ∀ x ∈ Ex.rfPre ++ (Ex.rfPost ++ .pd (.finish 2) :: Ex.rfCall ++ .pd (.load 0) :: Ex.schedR.map (fun a => SysAct.pd (.chk 0 a))),
        (match x with | .pd (.hook _ _) => false | _ => true) = true := by decide +kernel
    obtain ⟨s0, hs0, hl⟩ := Ex.exists_of_map (o := sysRun Ex.rfCfg (sysInit Ex.rfCfg (Ex.auT 1500)) Ex.rfPre)
      (p := fun s => decide (s.pd.tasks.length = 1)) (by decide +kernel)
    simp only [decide_eq_true_eq] at hl
    have hpre : pre = Ex.rfPre := by
      simp only [List.append_assoc, List.cons_append] at he
      rcases List.append_eq_append_iff.mp he with ⟨z, h1, h2⟩ | ⟨z, h1, h2⟩
      · cases z with
        | nil => simpa using h1
        | cons y z =>
          simp only [List.cons_append, List.cons.injEq] at h2
          have : SysAct.pd (.hook n f) ∈ Ex.rfPost ++ .pd (.finish 2) :: Ex.rfCall ++ .pd (.load 0) :: Ex.schedR.map (fun a => SysAct.pd (.chk 0 a)) := by
            simp only [List.append_assoc, List.cons_append]
            rw [h2.2]; simp
          exact absurd (hno _ (List.mem_append_right _ this)) (by simp)
      · cases z with
        | nil => simpa using h1.symm
        | cons y z =>
          simp only [List.cons_append, List.cons.injEq] at h2
          have : SysAct.pd (.hook n f) ∈ Ex.rfPre := by rw [h1, h2.1]; simp
          exact absurd (hno _ (List.mem_append_left _ this)) (by simp)
    subst hpre
    rw [hs0] at hr2
    obtain rfl := Option.some.inj hr2
    omega

namespace Ex

/-- The policy is loaded, expires, and is loaded anew. -/
def rgFirst : List SysAct :=
  syKeys ++ [.pd (.update [some ⟨[[syRaw]], auT 1600⟩]), .pd (.task 0 (.job 0 [])), .fetcher "dom".toList (.send 0),
    .fetcher "dom".toList (.answer 0 (.answer 200 "s".toList "S".toList))] ++ frFill 0 ++ [.pd (.finish 0), .tick 150000000000] ++
  [.pd (.update [some frDoc]), .pd (.task 1 (.job 0 [])), .fetcher "dom".toList (.send 1),
    .fetcher "dom".toList (.answer 1 (.answer 200 "t".toList "A".toList))] ++ frFill 1

/-- Then the entry in the old cache object is swept. -/
def rgPre : List SysAct := rgFirst ++ [.pd (.finish 1), .pd (.expire 1 "dom:role.admin".toList)]

/-- The hook of the old entry refreshes the new object, and a call begins its check. -/
def rgPost : List SysAct :=
  [.fetcher "dom".toList (.send 2), .fetcher "dom".toList (.answer 2 (.answer 304 [] []))] ++ frFill 2 ++ rfCall

def rgAll : List SysAct := rgPre ++ .pd (.hook 0 (some frDoc)) :: rgPost

/-- The only hook of a history. -/
theorem hook_at {a b pre post : List SysAct} {n n' : Nat} {f f' : Option PolicyDoc} (he : a ++ .pd (.hook n f) :: b = pre ++ .pd (.hook n' f') :: post)
    (hno : ∀ x ∈ a ++ b, (match x with | .pd (.hook _ _) => false | _ => true) = true) : pre = a := by
  rcases List.append_eq_append_iff.mp he with ⟨z, h1, h2⟩ | ⟨z, h1, h2⟩
  · cases z with
    | nil => simpa using h1
    | cons y z =>
      simp only [List.cons_append, List.cons.injEq] at h2
      exact absurd (hno (.pd (.hook n' f')) (List.mem_append_right _ (by rw [h2.2]; simp))) (by simp)
  · cases z with
    | nil => simpa using h1.symm
    | cons y z =>
      simp only [List.cons_append, List.cons.injEq] at h2
      exact absurd (hno (.pd (.hook n' f')) (List.mem_append_left _ (by rw [h1, h2.1]; simp))) (by simp)

end Ex

/-- An execution to which `C68_check_partial` applies although the policies in force were refreshed: the refresh got what they say. -/
example : ∃ h2 s1 s c, sysRun Ex.rfCfg (sysInit Ex.rfCfg (Ex.auT 1500)) Ex.rgAll = some s1 ∧
    sysRun Ex.rfCfg (sysInit Ex.rfCfg (Ex.auT 1500)) (Ex.rgAll ++ .pd (.load 0) :: h2) = some s ∧
    s.pd.checks[0]? = some c ∧ c.cs.coll = .ret (.ok ["admin".toList]) ∧
    InForce Ex.rfCfg (sysInit Ex.rfCfg (Ex.auT 1500)) Ex.rgAll s1 [some Ex.frDoc] ∧
    (∀ k, RegularAt asciiCase [some Ex.frDoc] (Ex.auT 1500) s.auth.now s.auth.now k) ∧
    RefreshedWith Ex.rfCfg (sysInit Ex.rfCfg (Ex.auT 1500)) Ex.rgAll s1 (Ex.rgAll ++ .pd (.load 0) :: h2) s
      (fun d => ∀ k, SaysAlike [some Ex.frDoc] (Ex.auT 1500) s.auth.now k d) ∧
    ¬ NotRefreshed Ex.rfCfg (sysInit Ex.rfCfg (Ex.auT 1500)) Ex.rgAll s1 (Ex.rgAll ++ .pd (.load 0) :: h2) := by
  obtain ⟨s1, hs1, hp1⟩ := Ex.exists_of_map (o := sysRun Ex.rfCfg (sysInit Ex.rfCfg (Ex.auT 1500)) Ex.rgAll)
    (p := fun s => decide (s.fetchResult 1 0 = some (some Ex.syPolicy)) && decide (s.pd.tasks.map (·.ret) = [some true, some true, none]) &&
      ((sysRun Ex.rfCfg s (.pd (.load 0) :: Ex.schedR.map (fun a => .pd (.chk 0 a)))).map
        (fun s' => decide ((Ex.chkOk s').map (·.2) = some ["admin".toList]) && decide (s'.auth.now = Ex.auT 1650) &&
          decide (s'.fetchResult 2 0 = some (some Ex.syPolicy))) == some true))
    (by decide +kernel)
  simp only [Bool.and_eq_true, decide_eq_true_eq, beq_iff_eq] at hp1
  obtain ⟨⟨hgot, hrets⟩, hck⟩ := hp1
  obtain ⟨s, hs, hck⟩ := Ex.exists_of_map hck
  simp only [Bool.and_eq_true, decide_eq_true_eq] at hck
  obtain ⟨⟨hck, hnow⟩, hfr⟩ := hck
  obtain ⟨s0, hs0, hp0⟩ := Ex.exists_of_map (o := sysRun Ex.rfCfg (sysInit Ex.rfCfg (Ex.auT 1500)) Ex.rgPre)
    (p := fun s => decide (s.pd.tasks.map (·.ret) = [some true, some true])) (by decide +kernel)
  simp only [decide_eq_true_eq] at hp0
  have hdoc : ∀ d, PolicySays Ex.syPolicy d → d = Ex.frDoc := by
    intro d hd
    have h1 : docOf Ex.syPolicy = .ok Ex.frDoc := by decide +kernel
    rw [← docOf_iff, h1] at hd
    simpa using hd.symm
  obtain ⟨c, hc, hret⟩ : ∃ c, s.pd.checks[0]? = some c ∧ c.cs.coll = .ret (.ok ["admin".toList]) := by
    unfold Ex.chkOk at hck
    split at hck
    · rename_i c hc
      split at hck
      · rename_i rs hrs
        simp only [Option.map_some, Option.some.injEq] at hck
        exact ⟨c, hc, hck ▸ hrs⟩
      · simp at hck
    · simp at hck
  have last : ∀ {h t : List SysAct} {st : Sys}, h = Ex.rgFirst ++ .pd (.finish 1) :: t →
      (∀ x ∈ t, (match x with | .pd (.finish _) => false | _ => true) = true) → (st.pd.tasks.map (·.ret))[1]? = some (some true) → LastUpdate h st 1 := by
    intro h t st he hno hr
    rw [List.getElem?_map] at hr
    obtain ⟨t1, ht, hr⟩ := Option.map_eq_some_iff.mp hr
    exact ⟨⟨t1, ht, hr⟩, _, t, he, fun i hi => absurd (hno _ hi) (by simp)⟩
  have hl0 : LastUpdate Ex.rgPre s0 1 :=
    last (t := [.pd (.expire 1 "dom:role.admin".toList)]) rfl (by decide +kernel) (by rw [hp0]; rfl)
  have hl1 : LastUpdate Ex.rgAll s1 1 :=
    last (t := .pd (.expire 1 "dom:role.admin".toList) :: .pd (.hook 0 (some Ex.frDoc)) :: Ex.rgPost) (by simp [Ex.rgAll, Ex.rgPre]) (by decide +kernel)
      (by rw [hrets]; rfl)
  have hreg : ∀ k, RegularAt asciiCase [some Ex.frDoc] (Ex.auT 1500) s.auth.now s.auth.now k := by
    intro k
    rw [hnow]
    refine .inr ⟨0, Ex.frDoc, ⟨rfl, ?_, .inr (by decide)⟩, ?_⟩
    · intro j d hj hd
      match j with
      | 0 => exact absurd rfl hj
      | n + 1 => simp at hd
    · intro a ha hr
      simp [Ex.frDoc] at ha
      subst ha
      refine ⟨fun b hb _ => by simp [Ex.frDoc] at hb; subst hb; exact ⟨rfl, rfl, rfl⟩, fun hd => absurd hd (by decide)⟩
  refine ⟨Ex.schedR.map (fun a => .pd (.chk 0 a)), s1, s, c, hs1, ?_, hc, hret, ?_, hreg, ?_, ?_⟩
  · rw [sysRun_append, hs1]; exact hs
  · obtain ⟨docs, hin, _⟩ := C68_in_force_any _ _ _ _ hs1
    rcases hin with ⟨_, h1⟩ | ⟨i, hlu, hlen, hall⟩
    · obtain ⟨⟨t, ht, hr⟩, _⟩ := hl1
      exact absurd hr (h1 t (List.mem_of_getElem? ht))
    · obtain rfl := lastUpdate_unique hl1 hlu
      obtain ⟨sp, d, _, g2, g3, g4, _⟩ := hall 0 "dom".toList rfl
      rw [hgot] at g2
      simp only [Option.some.injEq] at g2
      subst g2
      obtain rfl := hdoc d g3
      obtain rfl : docs = [some Ex.frDoc] := by
        match docs, hlen, g4 with
        | [x], _, g4 => simpa using g4
      exact .inr ⟨1, hlu, hlen, hall⟩
  · intro pre n f post s2 he hr2 _ sp d hf hp k
    obtain rfl : pre = Ex.rgPre := by
      rw [Ex.rgAll, List.append_assoc, List.cons_append] at he
      exact Ex.hook_at he (by decide +kernel)
    rw [hs0] at hr2
    obtain rfl := Option.some.inj hr2
    have hlen : s0.pd.tasks.length = 2 := by simpa using congrArg List.length hp0
    rw [hlen, hfr] at hf
    simp only [Option.some.injEq] at hf
    subst hf
    obtain rfl := hdoc d hp
    exact (hreg k).alike (by simp)
  · intro hn
    exact (hn Ex.rgPre 0 (some Ex.frDoc) (Ex.rgPost ++ .pd (.load 0) :: Ex.schedR.map (fun a => .pd (.chk 0 a))) s0
      (by simp [Ex.rgAll]) hs0).1 1 hl1 hl0

end Athenz
