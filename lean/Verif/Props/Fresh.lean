import Verif.Proofs.FreshLive
import Verif.Props.System

/-!
# C67: how recent the policies are on which a grant is based
-/

namespace Athenz
open Spec

/-- The full statement of C67.  After `pre` an `Update` is called and, after `post1`, has returned nil; what a check that begins to read
the cache after that grants is allowed by policies which the policy server delivered or confirmed after the `Update` was called. -/
def C67_statement : Prop :=
  ∀ (cfg : SysCfg) (now : Int) (pre post1 post2 : List SysAct) (fetch : List (Option PolicyDoc)) (s0 s1 s : Sys) (t : Task),
    sysRun cfg (sysInit cfg now) pre = some s0 → sysRun cfg s0 (.pd (.update fetch) :: post1) = some s1 →
    s1.pd.tasks[s0.pd.tasks.length]? = some t → t.ret = some true → sysRun cfg s1 post2 = some s →
    ∀ (k : Nat) (c : Chk) (rs : List Str), (∀ c1, s1.pd.checks[k]? = some c1 → c1.loaded = none) → s.pd.checks[k]? = some c → c.cs.coll = .ret (.ok rs) →
      GrantedBy cfg (Confirmed cfg s0 (.pd (.update fetch) :: post1 ++ post2)) c.q rs

/-- The same for executions in which no fetcher gives up. -/
def C67_no_failure_statement : Prop :=
  ∀ (cfg : SysCfg) (now : Int) (pre post1 post2 : List SysAct) (fetch : List (Option PolicyDoc)) (s0 s1 s : Sys) (t : Task),
    sysRun cfg (sysInit cfg now) pre = some s0 → sysRun cfg s0 (.pd (.update fetch) :: post1) = some s1 →
    s1.pd.tasks[s0.pd.tasks.length]? = some t → t.ret = some true → sysRun cfg s1 post2 = some s →
    (∀ dom j, .fetcher dom (.giveUp j) ∉ pre ++ post1 ++ post2) →
    ∀ (k : Nat) (c : Chk) (rs : List Str), (∀ c1, s1.pd.checks[k]? = some c1 → c1.loaded = none) → s.pd.checks[k]? = some c → c.cs.coll = .ret (.ok rs) →
      GrantedBy cfg (Confirmed cfg s0 (.pd (.update fetch) :: post1 ++ post2)) c.q rs

/-- **C67**, all executions.  What a check grants from a cache that belongs to an `Update` called after `pre` is allowed by policies which
the policy server delivered or confirmed after `pre`, or which were kept because a fetcher had given up after `pre`. -/
theorem C67_origin (cfg : SysCfg) (now : Int) (pre h : List SysAct) (s0 s : Sys) (hr0 : sysRun cfg (sysInit cfg now) pre = some s0)
    (hr : sysRun cfg s0 h = some s) (k : Nat) (c : Chk) (rs : List Str) (o : Nat) (t : Int) (g : Gache (List Assertion))
    (hk : s.pd.checks[k]? = some c) (hl : c.loaded = some (o, t, g)) (hN : s0.pd.objs.length ≤ o) (hret : c.cs.coll = .ret (.ok rs)) :
    GrantedBy cfg (fun dom sp => Confirmed cfg s0 h dom sp ∨ KeptInstead cfg s0 h dom sp) c.q rs := by
  obtain ⟨A, hA, hg⟩ := (freshInv_run hr0 hr).pd
  obtain ⟨h1, h2⟩ := hg.grant (List.mem_of_getElem? hk) hl hN hret
  refine ⟨h1, fun role hrole => ?_⟩
  obtain ⟨h3, a, ha, h4⟩ := h2 role hrole
  obtain ⟨dom, hdom, sp, d, hc, hd, had⟩ := hA a ha
  exact ⟨h3, dom, hdom, sp, d, a, hc, hd, had, h4⟩

theorem Spec.GrantedBy.mono {cfg : SysCfg} {P Q : Str → SignedPolicy → Prop} {q : CheckReq} {rs : List Str} (h : GrantedBy cfg P q rs)
    (hPQ : ∀ dom sp, P dom sp → Q dom sp) : GrantedBy cfg Q q rs :=
  ⟨h.1, fun role hr => let ⟨h1, dom, hd, sp, d, a, hp, hx⟩ := h.2 role hr; ⟨h1, dom, hd, sp, d, a, hPQ dom sp hp, hx⟩⟩

theorem Spec.KeptInstead.giveUp {cfg : SysCfg} {s0 : Sys} {h : List SysAct} {dom : Str} {sp : SignedPolicy} (hk : KeptInstead cfg s0 h dom sp) :
    ∃ j, SysAct.fetcher dom (.giveUp j) ∈ h := by
  obtain ⟨h1, h2, j, s1, c, rfl, _⟩ := hk
  exact ⟨j, by simp⟩

/-- A check that reads the cache after an `Update` has returned nil reads that of an `Update` called no earlier, unless an earlier one
returns in the meantime. -/
theorem fresh_loaded {cfg : SysCfg} {post1 post2 : List SysAct} {fetch : List (Option PolicyDoc)} {s0 s1 s : Sys} {t : Task}
    (hr1 : sysRun cfg s0 (.pd (.update fetch) :: post1) = some s1)
    (ht : s1.pd.tasks[s0.pd.tasks.length]? = some t) (hret : t.ret = some true) (hr2 : sysRun cfg s1 post2 = some s)
    (hf : ∀ i < s0.pd.tasks.length, .pd (.finish i) ∉ post1 ++ post2) {k : Nat} (hk : ∀ c1, s1.pd.checks[k]? = some c1 → c1.loaded = none) :
    LoadedFrom s0.pd.objs.length k s.pd := by
  have h0 : LiveInv s0.pd.objs.length s0.pd.tasks.length s0.pd := by
    refine ⟨Nat.le_refl _, Nat.le_refl _, ?_⟩
    intro i t hi ht
    have := lt_of_getElem? ht
    omega
  obtain ⟨h1, _⟩ := h0.run hr1 (by
    intro i hi hm
    rcases List.mem_cons.mp hm with hm | hm
    · simp at hm
    · exact hf i hi (List.mem_append_left _ hm))
  refine LoadedFrom.run h1 ((h1.tasks _ t (Nat.le_refl _) ht).2 hret) ?_ hr2 fun i hi hm => hf i hi (List.mem_append_right _ hm)
  intro c o t g hc hl
  rw [hk c hc] at hl
  simp at hl

/-- **C67**.  The full statement holds if no fetcher gives up after the call of the `Update`, and no `Update` called earlier returns after
that.  Missing: see `C67_refuted` and `C67_order_refuted`. -/
theorem C67_fresh_partial (cfg : SysCfg) (now : Int) (pre post1 post2 : List SysAct) (fetch : List (Option PolicyDoc)) (s0 s1 s : Sys) (t : Task)
    (hr0 : sysRun cfg (sysInit cfg now) pre = some s0) (hr1 : sysRun cfg s0 (.pd (.update fetch) :: post1) = some s1)
    (ht : s1.pd.tasks[s0.pd.tasks.length]? = some t) (hret : t.ret = some true) (hr2 : sysRun cfg s1 post2 = some s)
    (hg : ∀ dom j, .fetcher dom (.giveUp j) ∉ post1 ++ post2) (hf : ∀ i < s0.pd.tasks.length, .pd (.finish i) ∉ post1 ++ post2)
    (k : Nat) (c : Chk) (rs : List Str) (hk1 : ∀ c1, s1.pd.checks[k]? = some c1 → c1.loaded = none) (hk : s.pd.checks[k]? = some c)
    (hc : c.cs.coll = .ret (.ok rs)) :
    GrantedBy cfg (Confirmed cfg s0 (.pd (.update fetch) :: post1 ++ post2)) c.q rs := by
  have hr : sysRun cfg s0 (.pd (.update fetch) :: post1 ++ post2) = some s := by rw [sysRun_append, hr1]; exact hr2
  have hall : sysRun cfg (sysInit cfg now) (pre ++ (.pd (.update fetch) :: post1 ++ post2)) = some s := by rw [sysRun_append, hr0]; exact hr
  cases hl : c.loaded with
  | none =>
    rw [checksLoad_run hall k c hk hl] at hc
    simp at hc
  | some x =>
    obtain ⟨o, t', g⟩ := x
    have hN := fresh_loaded hr1 ht hret hr2 hf hk1 c o t' g hk hl
    refine Spec.GrantedBy.mono (C67_origin cfg now pre _ s0 s hr0 hr k c rs o t' g hk hl hN hc) ?_
    rintro dom sp (h | h)
    · exact h
    · obtain ⟨j, hj⟩ := h.giveUp
      simp only [List.cons_append, List.mem_cons, reduceCtorEq, false_or] at hj
      exact absurd hj (hg dom j)

/-- A call gets to the end of its policy check only by that check. -/
theorem aStep_checked {cfg : AuthCfg} {s s' : AState} {a : AAct} (hpol : cfg.disablePolicyd = false) (hs : aStep cfg s a = some s') {i : Nat}
    {q : AReq} {p : Principal} (hc : s'.calls i = some ⟨q, .checked p⟩) :
    s.calls i = some ⟨q, .checked p⟩ ∨ ∃ view sched p0 act res rs, a = .check i view sched ∧ s.calls i = some ⟨q, .translated p0 act res⟩ ∧
      checkResult cfg.U ⟨p0.domain, p0.roles, act, cfg.resourcePrefix ++ res⟩ view sched = some (.ok rs) ∧ p = { p0 with authorizedRoles := rs } := by
  cases aStep_effect hs with
  | check i' view sched q' p' act res rs h hck =>
    simp only [AState.setPc, AState.note] at hc
    split at hc
    · rename_i hi
      subst hi
      simp only [Option.some.injEq, Call.mk.injEq, Pc.checked.injEq] at hc
      obtain ⟨rfl, rfl⟩ := hc
      exact .inr ⟨view, sched, p', act, res, rs, rfl, h, hck, rfl⟩
    · exact .inl hc
  | valid i' q' p' h hv =>
    simp only [AState.setPc, AState.note, hpol] at hc
    split at hc
    · simp at hc
    · exact .inl hc
  | _ =>
    simp only [AState.setPc, AState.note, AState.setSess] at hc
    first
      | exact .inl hc
      | (split at hc
         · simp at hc
         · exact .inl hc)

/-- **C67**, a token call that began after the `Update` had returned nil and does the full check: under the same conditions the grant is
based on policies which the policy server delivered or confirmed after the `Update` was called. -/
theorem C67_call_partial (cfg : SysCfg) (now : Int) (hpol : cfg.auth.disablePolicyd = false) (pre post1 post2 : List SysAct)
    (fetch : List (Option PolicyDoc)) (s0 s1 s s' : Sys) (t : Task) (hr0 : sysRun cfg (sysInit cfg now) pre = some s0)
    (hr1 : sysRun cfg s0 (.pd (.update fetch) :: post1) = some s1)
    (ht : s1.pd.tasks[s0.pd.tasks.length]? = some t) (hret : t.ret = some true) (hr2 : sysRun cfg s1 post2 = some s)
    (hg : ∀ dom j, .fetcher dom (.giveUp j) ∉ post1 ++ post2) (hf : ∀ i < s0.pd.tasks.length, .pd (.finish i) ∉ post1 ++ post2)
    (i : Nat) (hi : s1.auth.calls i = none) (hs : sysStep cfg s (.auth (.store i)) = some s') :
    ∃ q p seed act res, s'.auth.calls i = some ⟨q, .done (.ok p)⟩ ∧ Translates cfg.auth seed p.domain q act res ∧
      GrantedBy cfg (Confirmed cfg s0 (.pd (.update fetch) :: post1 ++ post2)) ⟨p.domain, p.roles, act, cfg.auth.resourcePrefix ++ res⟩
        p.authorizedRoles := by
  have hall1 : sysRun cfg (sysInit cfg now) (pre ++ (.pd (.update fetch) :: post1)) = some s1 := by rw [sysRun_append, hr0]; exact hr1
  -- the check of the call is begun after the update
  have key := sysRun_ind (cfg := cfg) (s0 := s1) (fun h2 s => (∀ dom j, .fetcher dom (.giveUp j) ∉ h2) →
      (∀ i < s0.pd.tasks.length, .pd (.finish i) ∉ h2) → s1.pd.checks.length ≤ s.pd.checks.length ∧ (∀ k, s.checkOf i = some k → s1.pd.checks.length ≤ k) ∧
      ∀ q p, s.auth.calls i = some ⟨q, .checked p⟩ → ∃ seed act res, Translates cfg.auth seed p.domain q act res ∧
        GrantedBy cfg (Confirmed cfg s0 (.pd (.update fetch) :: post1 ++ h2)) ⟨p.domain, p.roles, act, cfg.auth.resourcePrefix ++ res⟩
          p.authorizedRoles) ?_ ?_ post2 s hr2 (fun dom j hm => hg dom j (List.mem_append_right _ hm)) (fun i hi hm => hf i hi (List.mem_append_right _ hm))
  · obtain ⟨_, he⟩ := sysStep_effect hs
    cases he with
    | auth a auth' ha hst =>
      cases aStep_effect hst with
      | store _ q p hc =>
        obtain ⟨seed, act, res, h1, h2⟩ := key.2.2 q p hc
        exact ⟨q, p, seed, act, res, by simp [AState.note, AState.setPc], h1, h2⟩
  · intro _ _
    refine ⟨Nat.le_refl _, ?_, ?_⟩
    · intro k hk
      obtain ⟨c, _, hl⟩ := (sysOrigin_run hall1).2.links i k hk
      rw [hi] at hl
      exact hl.elim
    · intro q p hc
      rw [hi] at hc
      simp at hc
  · intro h2 s a s' ih hrun hs hg2 hf2
    obtain ⟨hlen, hk, hq⟩ := ih (fun dom j hm => hg2 dom j (List.mem_append_left _ hm)) (fun i hi hm => hf2 i hi (List.mem_append_left _ hm))
    have hall : sysRun cfg (sysInit cfg now) (pre ++ (.pd (.update fetch) :: post1) ++ h2) = some s := by rw [sysRun_append, hall1]; exact hrun
    have ho := (sysOrigin_run hall).2
    have hlen' : s1.pd.checks.length ≤ s'.pd.checks.length := by
      rcases sysStep_pd hs with ⟨n, hn⟩ | ⟨b, hb, _⟩
      · rw [hn]; exact hlen
      · cases hs1 : s1.pd.checks.length with
        | zero => exact Nat.zero_le _
        | succ n =>
          have hlt : n < s.pd.checks.length := by omega
          obtain ⟨c', hc', _⟩ := pdStep_checks hb (List.getElem?_eq_getElem hlt)
          have := lt_of_getElem? hc'
          omega
    have hq' : ∀ q p, s.auth.calls i = some ⟨q, .checked p⟩ → ∃ seed act res, Translates cfg.auth seed p.domain q act res ∧
        GrantedBy cfg (Confirmed cfg s0 (.pd (.update fetch) :: post1 ++ (h2 ++ [a]))) ⟨p.domain, p.roles, act, cfg.auth.resourcePrefix ++ res⟩
          p.authorizedRoles := by
      intro q p hc
      obtain ⟨seed, act, res, h3, h4⟩ := hq q p hc
      refine ⟨seed, act, res, h3, Spec.GrantedBy.mono h4 fun dom sp hx => ?_⟩
      have := hx.mono [a]
      rwa [List.append_assoc] at this
    refine ⟨hlen', ?_⟩
    obtain ⟨_, he⟩ := sysStep_effect hs
    cases he with
    | tick d => exact ⟨hk, hq'⟩
    | pk a pk' ha hp => exact ⟨hk, hq'⟩
    | jwk a jwk' hj => exact ⟨hk, hq'⟩
    | fetcher dom a f ha hf => exact ⟨hk, hq'⟩
    | pd a pd' D F W ha hp hD hF hbr => exact ⟨hk, hq'⟩
    | nilPolicy i j => exact ⟨hk, hq'⟩
    | beginCheck i' q p act res pd' hc hn hp =>
      refine ⟨?_, hq'⟩
      intro k hk'
      simp only at hk'
      split at hk'
      · simp only [Option.some.injEq] at hk'
        omega
      · exact hk k hk'
    | endCheck i' view sched k c r auth' hki hc hl hr hv hst =>
      refine ⟨hk, ?_⟩
      intro q p hcall
      rcases aStep_checked hpol hst hcall with hcall | ⟨view', sched', p0, act, res, rs, hact, hcall2, hcr, rfl⟩
      · exact hq' q p hcall
      · simp only [AAct.check.injEq] at hact
        obtain ⟨rfl, rfl, rfl⟩ := hact
        obtain ⟨_, seed, htr⟩ := ho.auth.calls i' q _ hcall2
        obtain ⟨c', hc', hlk⟩ := ho.links i' k hki
        rw [hc] at hc'
        obtain rfl := Option.some.inj hc'
        rw [hcall2] at hlk
        simp only [CheckLinked] at hlk
        rw [hlk, hcr] at hv
        simp only [Option.some.injEq] at hv
        subst hv
        have hnew : ∀ c1, s1.pd.checks[k]? = some c1 → c1.loaded = none := by
          intro c1 h1
          have := lt_of_getElem? h1
          have := hk k hki
          omega
        have hfin := C67_fresh_partial cfg now pre post1 h2 fetch s0 s1 s t hr0 hr1 ht hret hrun
          (fun dom j hm => (List.mem_append.mp hm).elim (fun hm => hg dom j (List.mem_append_left _ hm)) fun hm => hg2 dom j (List.mem_append_left _ hm))
          (fun i hi hm => (List.mem_append.mp hm).elim (fun hm => hf i hi (List.mem_append_left _ hm)) fun hm => hf2 i hi (List.mem_append_left _ hm))
          k c rs hnew hc hr
        rw [hlk] at hfin
        refine ⟨seed, act, res, htr, Spec.GrantedBy.mono hfin fun dom sp hx => ?_⟩
        have := hx.mono [.endCheck i' view sched]
        rwa [List.append_assoc] at this
    | auth a auth' ha hst =>
      refine ⟨hk, ?_⟩
      intro q p hcall
      rcases aStep_checked hpol hst hcall with hcall | ⟨view', sched', p0, act, res, rs, rfl, _⟩
      · exact hq' q p hcall
      · simp [AAct.own] at ha

namespace Ex

/-- A policy of "dom" that allows nothing any more. -/
def frPolicy : SignedPolicy :=
  { data := some { policyData := some ⟨"dom".toList, []⟩, zmsSignature := "m".toList, zmsKeyId := "0".toList, expires := some (auT 5000) },
    signature := "z".toList, keyId := "1".toList }

/-- The texts "A" and "B" are the old and the new policy. -/
def frCfg : SysCfg :=
  { syCfg ["dom".toList] with
    fetch := { (syCfg ["dom".toList]).fetch with
      codec := { (syCfg ["dom".toList]).fetch.codec with
        decode := fun b => if b = "A".toList then some (some syPolicy) else if b = "B".toList then some (some frPolicy) else none } } }

def frDoc : PolicyDoc := ⟨[[syRaw]], auT 5000⟩

/-- A goroutine of task `i` gets the policy `frDoc` into the cache. -/
def frFill (i : Nat) : List SysAct :=
  ([.task i (.job 0 []), .task i (.merge 0 0), .task i (.merge 0 0), .task i (.job 0 [syRaw]), .task i (.job 0 []), .task i (.job 0 []),
    .task i (.job 0 [])] : List PdAct).map .pd

/-- A check for the role. -/
def frCheck : List SysAct :=
  [.pd (.check ⟨"dom".toList, ["admin".toList], "read".toList, "/x".toList⟩), .pd (.load 0)] ++ schedR.map (fun a => .pd (.chk 0 a))

/-- The first update begins to fetch, and gets "A". -/
def frFirst : List SysAct :=
  [.pd (.update [some frDoc]), .pd (.task 0 (.job 0 [])), .fetcher "dom".toList (.send 0),
   .fetcher "dom".toList (.answer 0 (.answer 200 "t".toList "A".toList))] ++ frFill 0

/-- The second update: the three attempts fail, and the old policy is kept. -/
def frFail : List SysAct :=
  [.pd (.task 1 (.job 0 []))] ++
  (List.replicate 3 [SysAct.fetcher "dom".toList (.send 1), SysAct.fetcher "dom".toList (.answer 1 (.fail (.other "down")))]).flatten ++
  [.fetcher "dom".toList (.giveUp 1)] ++ frFill 1 ++ [.pd (.finish 1)]

/-- The second update gets "B". -/
def frNew : List SysAct :=
  [.pd (.task 1 (.job 0 [])), .fetcher "dom".toList (.send 1), .fetcher "dom".toList (.answer 1 (.answer 200 "u".toList "B".toList)),
   .pd (.task 1 (.job 0 [])), .pd (.task 1 (.job 0 [])), .pd (.task 1 (.job 0 [])), .pd (.finish 1)]

/-- The second update learns that the policy is not modified. -/
def frSame : List SysAct :=
  [.pd (.task 1 (.job 0 [])), .fetcher "dom".toList (.send 1), .fetcher "dom".toList (.answer 1 (.answer 304 [] []))] ++ frFill 1 ++ [.pd (.finish 1)]

/-- What check 0 has returned. -/
def chkOk (s : Sys) : Option (CheckReq × List Str) :=
  match s.pd.checks[0]? with
  | some c => match c.cs.coll with
    | .ret (.ok rs) => some (c.q, rs)
    | _ => none
  | none => none

/-- A run in three parts, as in the statements of C67. -/
def frTest (pre post1 post2 : List SysAct) (fetch : Option PolicyDoc) : Bool :=
  match sysRun frCfg (sysInit frCfg (auT 1500)) pre with
  | none => false
  | some s0 =>
    match sysRun frCfg s0 (.pd (.update [fetch]) :: post1) with
    | none => false
    | some s1 =>
      (match s1.pd.tasks[s0.pd.tasks.length]? with | some t => decide (t.ret = some true) | none => false) && s1.pd.checks.isEmpty &&
      match sysRun frCfg s1 post2 with
      | none => false
      | some s => decide (chkOk s = some (⟨"dom".toList, ["admin".toList], "read".toList, "/x".toList⟩, ["admin".toList]))

theorem frTest_spec {pre post1 post2 : List SysAct} {fetch : Option PolicyDoc} (h : frTest pre post1 post2 fetch = true) :
    ∃ s0 s1 s t c, sysRun frCfg (sysInit frCfg (auT 1500)) pre = some s0 ∧ sysRun frCfg s0 (.pd (.update [fetch]) :: post1) = some s1 ∧
      s1.pd.tasks[s0.pd.tasks.length]? = some t ∧ t.ret = some true ∧ sysRun frCfg s1 post2 = some s ∧ s1.pd.checks = [] ∧
      s.pd.checks[0]? = some c ∧ c.q = ⟨"dom".toList, ["admin".toList], "read".toList, "/x".toList⟩ ∧ c.cs.coll = .ret (.ok ["admin".toList]) := by
  unfold frTest at h
  split at h
  · simp at h
  · rename_i s0 h0
    split at h
    · simp at h
    · rename_i s1 h1
      simp only [Bool.and_eq_true] at h
      obtain ⟨⟨h2, h3⟩, h4⟩ := h
      split at h2
      · rename_i t ht
        split at h4
        · simp at h4
        · rename_i s hs
          simp only [decide_eq_true_eq] at h2 h4
          unfold chkOk at h4
          split at h4
          · rename_i c hc
            split at h4
            · rename_i rs hrs
              simp only [Option.some.injEq, Prod.mk.injEq] at h4
              obtain ⟨h5, rfl⟩ := h4
              exact ⟨s0, s1, s, t, c, h0, h1, ht, h2, hs, by simpa using h3, hc, h5, hrs⟩
            · simp at h4
          · simp at h4
      · simp at h2

/-- A policy that is confirmed by some exchange is one of the answers, or one that was cached. -/
theorem confirmed_mem {cfg : SysCfg} {s0 : Sys} {h : List SysAct} {dom : Str} {sp : SignedPolicy} (hc : Confirmed cfg s0 h dom sp) :
    (∃ j eTag body, .fetcher dom (.answer j (.answer 200 eTag body)) ∈ h ∧ cfg.fetch.codec.decode body = some (some sp)) ∨
    ∃ j eTag body, .fetcher dom (.answer j (.answer 304 eTag body)) ∈ h := by
  rcases hc with ⟨s1, eTag, body, ⟨h1, h2, h3, j, rfl, _⟩, hd⟩ | ⟨s1, eTag, body, c, ⟨h1, h2, h3, j, rfl, _⟩, _⟩
  · exact .inl ⟨j, eTag, body, by simp, hd⟩
  · exact .inr ⟨j, eTag, body, by simp⟩

end Ex

/-- The full statement is false: `FetchWithRetry` returns the cached policy together with the error when it gives up, and `Update` looks at
the error only if there is no policy (policy/fetcher.go:166-175, policy/daemon.go:301-306).  Here the policy server cannot be reached any more,
the second `Update` returns nil all the same, and the check grants on the old policy. -/
theorem C67_refuted : ¬ C67_statement := by
  intro hst
  obtain ⟨s0, s1, s, t, c, h0, h1, ht, hr, h2, hn, hc, _, hcoll⟩ := Ex.frTest_spec (pre := Ex.syKeys ++ Ex.frFirst ++ [.pd (.finish 0)]) (post1 := Ex.frFail)
    (post2 := Ex.frCheck) (fetch := some Ex.frDoc) (by decide +kernel)
  obtain ⟨_, hg⟩ := hst _ _ _ _ _ _ s0 s1 s t h0 h1 ht hr h2 0 c _ (by rw [hn]; simp) hc hcoll
  obtain ⟨_, dom, _, sp, d, a, hconf, _⟩ := hg "admin".toList (by simp)
  have hall : ∀ x ∈ SysAct.pd (.update [some Ex.frDoc]) :: Ex.frFail ++ Ex.frCheck,
      (match x with | .fetcher _ (.answer _ (.answer _ _ _)) => false | _ => true) = true := by decide +kernel
  rcases Ex.confirmed_mem hconf with ⟨j, eTag, body, hm, _⟩ | ⟨j, eTag, body, hm⟩
  · exact absurd (hall _ hm) (by simp)
  · exact absurd (hall _ hm) (by simp)

/-- Nor does it hold if the policy server always answers: an `Update` that was called earlier and returns later replaces the newer policies
by its own (policy/daemon.go:198-199).  Here the second `Update` gets a policy that allows nothing and returns nil, then the first one returns,
and then the check grants on the policy which the first one had got. -/
theorem C67_order_refuted : ¬ C67_no_failure_statement := by
  intro hst
  obtain ⟨s0, s1, s, t, c, h0, h1, ht, hr, h2, hn, hc, _, hcoll⟩ := Ex.frTest_spec (pre := Ex.syKeys ++ Ex.frFirst) (post1 := Ex.frNew)
    (post2 := .pd (.finish 0) :: Ex.frCheck) (fetch := some ⟨[], Ex.auT 5000⟩) (by decide +kernel)
  have hgu : ∀ x ∈ Ex.syKeys ++ Ex.frFirst ++ Ex.frNew ++ .pd (.finish 0) :: Ex.frCheck, (match x with | .fetcher _ (.giveUp _) => false | _ => true) = true := by
    decide +kernel
  obtain ⟨_, hg⟩ := hst _ _ _ _ _ _ s0 s1 s t h0 h1 ht hr h2 (fun dom j hm => absurd (hgu _ hm) (by simp)) 0 c _ (by rw [hn]; simp) hc hcoll
  obtain ⟨_, dom, _, sp, d, a, hconf, hdoc, ha, _⟩ := hg "admin".toList (by simp)
  have hall : ∀ x ∈ SysAct.pd (.update [some ⟨[], Ex.auT 5000⟩]) :: Ex.frNew ++ .pd (.finish 0) :: Ex.frCheck,
      (match x with | .fetcher _ (.answer _ (.answer st _ b)) => decide (st = 200 ∧ b = "B".toList) | _ => true) = true := by decide +kernel
  rcases Ex.confirmed_mem hconf with ⟨j, eTag, body, hm, hdec⟩ | ⟨j, eTag, body, hm⟩
  · have hb := hall _ hm
    simp only [decide_eq_true_eq, true_and] at hb
    subst hb
    have : Ex.frCfg.fetch.codec.decode "B".toList = some (some Ex.frPolicy) := by decide +kernel
    rw [this] at hdec
    simp only [Option.some.injEq] at hdec
    subst hdec
    have : docOf Ex.frPolicy = .ok ⟨[], Ex.auT 5000⟩ := by decide +kernel
    rw [← docOf_iff, this] at hdoc
    simp only [Res.ok.injEq] at hdoc
    subst hdoc
    simp at ha
  · exact absurd (hall _ hm) (by simp)

/-- An execution to which `C67_fresh_partial` applies, with an answer that the policy is not modified. -/
example : ∃ s0 s1 s t c, sysRun Ex.frCfg (sysInit Ex.frCfg (Ex.auT 1500)) (Ex.syKeys ++ Ex.frFirst ++ [.pd (.finish 0)]) = some s0 ∧
    sysRun Ex.frCfg s0 (.pd (.update [some Ex.frDoc]) :: Ex.frSame) = some s1 ∧
    s1.pd.tasks[s0.pd.tasks.length]? = some t ∧ t.ret = some true ∧ sysRun Ex.frCfg s1 Ex.frCheck = some s ∧
    (∀ dom j, .fetcher dom (.giveUp j) ∉ Ex.frSame ++ Ex.frCheck) ∧ (∀ i < s0.pd.tasks.length, .pd (.finish i) ∉ Ex.frSame ++ Ex.frCheck) ∧
    (∀ c1, s1.pd.checks[0]? = some c1 → c1.loaded = none) ∧ s.pd.checks[0]? = some c ∧ c.cs.coll = .ret (.ok ["admin".toList]) ∧
    ∃ o u g, c.loaded = some (o, u, g) ∧ s0.pd.objs.length ≤ o := by
  obtain ⟨s0, s1, s, t, c, h0, h1, ht, hr, h2, hn, hc, _, hcoll⟩ := Ex.frTest_spec (pre := Ex.syKeys ++ Ex.frFirst ++ [.pd (.finish 0)]) (post1 := Ex.frSame)
    (post2 := Ex.frCheck) (fetch := some Ex.frDoc) (by decide +kernel)
  have hgu : ∀ x ∈ Ex.frSame ++ Ex.frCheck, (match x with | .fetcher _ (.giveUp _) => false | .pd (.finish i) => decide (i = 1) | _ => true) = true := by
    decide +kernel
  obtain ⟨s0', hs0', hlen⟩ := Ex.exists_of_map (o := sysRun Ex.frCfg (sysInit Ex.frCfg (Ex.auT 1500)) (Ex.syKeys ++ Ex.frFirst ++ [.pd (.finish 0)]))
    (p := fun s => decide (s.pd.tasks.length = 1)) (by decide +kernel)
  rw [h0] at hs0'
  obtain rfl := Option.some.inj hs0'
  simp only [decide_eq_true_eq] at hlen
  have hfi : ∀ i < s0.pd.tasks.length, SysAct.pd (.finish i) ∉ Ex.frSame ++ Ex.frCheck := by
    intro i hi hm
    have := hgu _ hm
    simp only [decide_eq_true_eq] at this
    omega
  have hk : ∀ c1, s1.pd.checks[0]? = some c1 → c1.loaded = none := by rw [hn]; simp
  refine ⟨s0, s1, s, t, c, h0, h1, ht, hr, h2, fun dom j hm => absurd (hgu _ hm) (by simp), hfi, hk, hc, hcoll, ?_⟩
  cases hl : c.loaded with
  | none =>
    have hall : sysRun Ex.frCfg (sysInit Ex.frCfg (Ex.auT 1500)) (Ex.syKeys ++ Ex.frFirst ++ [.pd (.finish 0)] ++ (.pd (.update [some Ex.frDoc]) :: Ex.frSame) ++ Ex.frCheck) = some s := by
      rw [sysRun_append, sysRun_append, h0]; simp only [Option.bind_some]; rw [h1]; exact h2
    rw [checksLoad_run hall 0 c hc hl] at hcoll
    simp at hcoll
  | some x =>
    obtain ⟨o, u, g⟩ := x
    exact ⟨o, u, g, rfl, fresh_loaded h1 ht hr h2 hfi hk c o u g hc hl⟩

/-- A call to which `C67_call_partial` applies. -/
example : ∃ s0 s1 s s' t, Ex.frCfg.auth.disablePolicyd = false ∧
    sysRun Ex.frCfg (sysInit Ex.frCfg (Ex.auT 1500)) (Ex.syKeys ++ Ex.frFirst ++ [.pd (.finish 0)]) = some s0 ∧
    sysRun Ex.frCfg s0 (.pd (.update [some Ex.frDoc]) :: Ex.frSame) = some s1 ∧
    s1.pd.tasks[s0.pd.tasks.length]? = some t ∧ t.ret = some true ∧
    sysRun Ex.frCfg s1 (.auth (.call 0 Ex.syReq) :: (Ex.syCall 0).dropLast) = some s ∧
    (∀ dom j, .fetcher dom (.giveUp j) ∉ Ex.frSame ++ .auth (.call 0 Ex.syReq) :: (Ex.syCall 0).dropLast) ∧
    (∀ i < s0.pd.tasks.length, .pd (.finish i) ∉ Ex.frSame ++ .auth (.call 0 Ex.syReq) :: (Ex.syCall 0).dropLast) ∧
    s1.auth.calls 0 = none ∧ sysStep Ex.frCfg s (.auth (.store 0)) = some s' ∧ s'.auth.calls 0 = some ⟨Ex.syReq, .done (.ok Ex.syPrincipal)⟩ := by
  obtain ⟨s0, h0, hlen⟩ := Ex.exists_of_map (o := sysRun Ex.frCfg (sysInit Ex.frCfg (Ex.auT 1500)) (Ex.syKeys ++ Ex.frFirst ++ [.pd (.finish 0)]))
    (p := fun s => decide (s.pd.tasks.length = 1) && match sysRun Ex.frCfg s (.pd (.update [some Ex.frDoc]) :: Ex.frSame) with
      | none => false
      | some s1 => (match s1.pd.tasks[1]? with | some t => decide (t.ret = some true) | none => false) && decide (s1.auth.calls 0 = none) &&
        match sysRun Ex.frCfg s1 (.auth (.call 0 Ex.syReq) :: (Ex.syCall 0).dropLast) with
        | none => false
        | some s => match sysStep Ex.frCfg s (.auth (.store 0)) with
          | none => false
          | some s' => decide (Ex.doneOk s'.auth 0 Ex.syReq = some Ex.syPrincipal)) (by decide +kernel)
  simp only [Bool.and_eq_true, decide_eq_true_eq] at hlen
  obtain ⟨hlen, hp⟩ := hlen
  have hgu : ∀ x ∈ Ex.frSame ++ .auth (.call 0 Ex.syReq) :: (Ex.syCall 0).dropLast,
      (match x with | .fetcher _ (.giveUp _) => false | .pd (.finish i) => decide (i = 1) | _ => true) = true := by
    decide +kernel
  split at hp
  · simp at hp
  · rename_i s1 h1
    simp only [Bool.and_eq_true] at hp
    obtain ⟨⟨h2, h3⟩, h4⟩ := hp
    split at h2
    · rename_i t ht
      split at h4
      · simp at h4
      · rename_i s hs
        split at h4
        · simp at h4
        · rename_i s' hs'
          simp only [decide_eq_true_eq] at h2 h3 h4
          refine ⟨s0, s1, s, s', t, rfl, h0, h1, by rw [hlen]; exact ht, h2, hs, fun dom j hm => absurd (hgu _ hm) (by simp), ?_, h3, hs', Ex.doneOk_iff h4⟩
          intro i hi hm
          have := hgu _ hm
          simp only [decide_eq_true_eq] at this
          omega
    · simp at h2

end Athenz
