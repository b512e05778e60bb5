import Verif.Props.Revoke

/-!
# C62, C69, C72: grants when policy checks are disabled, and what irregular policies do to calls
-/

namespace Athenz
open Spec

/-- What the JWK daemon got stays in its log. -/
theorem sysRun_jwkLog {cfg : SysCfg} {h : List SysAct} {s s' : Sys} (hr : sysRun cfg s h = some s') {e : JwkEvent} (he : e ∈ s.jwk.log) :
    e ∈ s'.jwk.log := by
  induction h generalizing s with
  | nil => simp only [sysRun, Option.some.injEq] at hr; subst hr; exact he
  | cons a h ih =>
    simp only [sysRun] at hr
    split at hr
    · simp at hr
    · rename_i s1 hs
      refine ih hr ?_
      obtain ⟨_, hx⟩ := sysStep_effect hs
      cases hx with
      | jwk b jwk' hb =>
        cases jwkStep_effect hb with
        | update => exact he
        | _ => exact List.mem_append_left _ he
      | _ => exact he

/-- **C62**.  As long as ZTS has not served a complete key list and no set of JSON web keys came from a configured URL, nothing is granted to
anybody, even if policy checks are disabled. -/
theorem C62_no_trust (cfg : SysCfg) (now : Int) (h : List SysAct) (s : Sys) (hr : sysRun cfg (sysInit cfg now) h = some s)
    (hk : ∀ es, ¬ KeysServed cfg h .zts es)
    (hj : ∀ j url set, ConfiguredURL cfg.jwk url → JwkEvent.fetched j url (some set) ∉ s.jwk.log) (i : Nat) (q : AReq) (p : Principal) :
    s.auth.calls i ≠ some ⟨q, .done (.ok p)⟩ := by
  intro hc
  obtain ⟨j, q', _, _, ⟨pre, post, s1, rfl, hr1, hsig, _⟩, _⟩ := C62_grant cfg now h s hr i q p hc
  unfold SignedToken at hsig
  split at hsig
  · obtain ⟨_, _, _, _, _, ⟨es, hes, _⟩, _⟩ := hsig
    exact hk es (KeysServed.mono hes)
  · obtain ⟨_, _, _, _, _, _, url, _, _, _, _, ⟨hu, j', set, hm, _⟩, _⟩ := hsig
    refine hj j' url set hu ?_
    rw [sysRun_append, hr1] at hr
    exact sysRun_jwkLog hr hm

/-- **C69**, with policy checks disabled.  A call is granted if its token is valid as long as it runs. -/
theorem C69_granted_unchecked (cfg : SysCfg) (now : Int) (hpol : cfg.auth.disablePolicyd = true) (x : SysExec cfg now)
    (hf : SysFair x) (n i : Nat) (q : AReq) (p : Principal)
    (hc : (x.state n).auth.calls i = some ⟨q, .start⟩) (hen : ModeEnabled cfg.auth q.mode)
    (htok : ∀ m, n ≤ m → Running x i m →
      TokenSays cfg.auth (x.state m).auth.now (x.state m).auth.keys (x.state m).auth.jwkp q p) :
    ∃ m p', n ≤ m ∧ (x.state m).auth.calls i = some ⟨q, .done (.ok p')⟩ := by
  let good : Pc → Prop := fun pc => match pc with
    | .start => True
    | .miss => True
    | .validated _ => False
    | .translated _ _ _ => False
    | .checked _ => True
    | .done r => ∃ p', r = .ok p'
  have hgood : ∀ m, n ≤ m → ∃ pc, (x.state m).auth.calls i = some ⟨q, pc⟩ ∧ good pc := by
    refine from_ind ⟨.start, hc, trivial⟩ ?_
    rintro m hnm ⟨pc, h1, h2⟩
    obtain ⟨pc', h3, h4⟩ := sysStep_calls (x.next m) h1
    refine ⟨pc', h3, ?_⟩
    by_cases hdone : ∃ r, pc = .done r
    · rw [h4 hdone]; exact h2
    have hrun : Running x i m := by
      intro q' r hq
      rw [h1] at hq
      simp only [Option.some.injEq, Call.mk.injEq] at hq
      exact hdone ⟨r, hq.2⟩
    have hval := validateToken_of_says hen (htok m hnm hrun)
    rcases sysStep_auth (x.next m) with ⟨h5, _⟩ | ⟨b, _, hst, _⟩
    · rw [h5, h1] at h3
      simp only [Option.some.injEq, Call.mk.injEq, true_and] at h3
      subst h3; exact h2
    · obtain ⟨pc3, k1, k2, k3⟩ := aStep_call hst h1
      rw [h3] at k1
      simp only [Option.some.injEq, Call.mk.injEq, true_and] at k1
      subst k1
      cases hb : b.ofCall i with
      | false => rw [k2 hb]; exact h2
      | true =>
        generalize (x.state (m + 1)).auth = auth' at hst h3
        have pin : ∀ {j : Nat} {q0 : AReq} {pc0 pc1 : Pc}, j = i → (x.state m).auth.calls j = some ⟨q0, pc0⟩ →
            ((x.state m).auth.setPc j q0 pc1).calls i = some ⟨q, pc'⟩ → q0 = q ∧ pc0 = pc ∧ pc' = pc1 := by
          rintro j q0 pc0 pc1 rfl e1 e2
          rw [h1] at e1
          simp only [AState.setPc, if_true, Option.some.injEq, Call.mk.injEq] at e1 e2
          exact ⟨e2.1, e1.2.symm, e2.2.symm⟩
        cases aStep_effect hst with
        | bad j q0 h0 hbad => simp [hpol] at hbad
        | hit j q0 p0 h0 hbad hg =>
          obtain ⟨_, _, rfl⟩ := pin (by simpa [AAct.ofCall] using hb) h0 h3
          exact ⟨p0, rfl⟩
        | miss j q0 h0 hbad hg =>
          obtain ⟨_, _, rfl⟩ := pin (by simpa [AAct.ofCall] using hb) h0 h3
          trivial
        | valid j q0 p0 h0 hv =>
          obtain ⟨_, _, rfl⟩ := pin (by simpa [AAct.ofCall] using hb) h0 h3
          simp [hpol, good]
        | invalid j q0 r h0 hv hr =>
          obtain ⟨rfl, _, rfl⟩ := pin (by simpa [AAct.ofCall] using hb) h0 h3
          rw [hval] at hv
          exact absurd hv.symm (hr _)
        | trans j seed q0 p0 act res h0 ht =>
          obtain ⟨_, rfl, _⟩ := pin (by simpa [AAct.ofCall] using hb) h0 h3
          exact h2.elim
        | transFail j seed q0 p0 r h0 _ _ =>
          obtain ⟨_, rfl, _⟩ := pin (by simpa [AAct.ofCall] using hb) h0 h3
          exact h2.elim
        | check j view sched q0 p0 act res rs h0 _ =>
          obtain ⟨_, rfl, _⟩ := pin (by simpa [AAct.ofCall] using hb) h0 h3
          exact h2.elim
        | checkFail j view sched q0 p0 act res r h0 _ _ =>
          obtain ⟨_, rfl, _⟩ := pin (by simpa [AAct.ofCall] using hb) h0 h3
          exact h2.elim
        | store j q0 p0 h0 =>
          obtain ⟨_, _, rfl⟩ := pin (by simpa [AAct.ofCall] using hb) h0 h3
          exact ⟨p0, rfl⟩
        | _ => simp [AAct.ofCall] at hb
  obtain ⟨m, r, hm, hr⟩ := C69_call_returns cfg now x hf n i q .start hc
  obtain ⟨pc, h1, h2⟩ := hgood m hm
  rw [hr] at h1
  simp only [Option.some.injEq, Call.mk.injEq, true_and] at h1
  subst h1
  obtain ⟨p', rfl⟩ := h2
  exact ⟨m, p', hm, hr⟩

namespace Ex

/-- The schedule, and then nothing but the passing of no time. -/
def fxAct (acts : List SysAct) (n : Nat) : SysAct := (acts[n]?).getD (.tick 0)

def fxStates (cfg : SysCfg) (acts : List SysAct) : Nat → Sys
  | 0 => sysInit cfg (auT 1500)
  | n + 1 => (sysStep cfg (fxStates cfg acts n) (fxAct acts n)).getD (fxStates cfg acts n)

/-- Nothing is left to do. -/
def fxEnd (cfg : SysCfg) (s : Sys) : Bool :=
  !s.dead && s.pd.checks.all (fun c => decide (c.left = (0, 0, 0))) && decide (s.callLeft 0 = (0, 0, 0, 0)) &&
  s.pd.tasks.all (fun t => decide (t.left = 0)) &&
  cfg.domains.all fun dom => (s.fs dom).calls.all fun c => match c.pc with | .ret _ _ => true | _ => false

/-- No call but call 0, no session, no hook, no cancellation. -/
def fxPlain : SysAct → Bool
  | .auth (.call i _) => i == 0
  | .auth (.sub _ _) => false
  | .auth (.opened _ _ _ _) => false
  | .pd (.hook _ _) => false
  | .pd (.chk _ .cancel) => false
  | .pd (.task _ .cancel) => false
  | _ => true

/-- What is checked of a schedule by evaluation. -/
structure FxOk (cfg : SysCfg) (acts : List SysAct) : Prop where
  steps : ∀ n, n < acts.length → (sysStep cfg (fxStates cfg acts n) (fxAct acts n)).isSome = true
  ends : fxEnd cfg (fxStates cfg acts acts.length) = true
  plain : acts.all fxPlain = true

variable {cfg : SysCfg} {acts : List SysAct}

theorem fxAct_end (n : Nat) : fxAct acts (acts.length + n) = .tick 0 := by simp [fxAct]

theorem fxStates_end (n : Nat) : fxStates cfg acts (acts.length + n) = fxStates cfg acts acts.length := by
  induction n with
  | zero => rfl
  | succ n ih =>
    show (sysStep cfg (fxStates cfg acts (acts.length + n)) (fxAct acts (acts.length + n))).getD _ = _
    rw [ih, fxAct_end]
    simp only [sysStep]
    split
    · exact ih
    · simp

def fxExec (h : FxOk cfg acts) : SysExec cfg (auT 1500) where
  state := fxStates cfg acts
  act := fxAct acts
  init := rfl
  next := by
    intro n
    show sysStep cfg (fxStates cfg acts n) (fxAct acts n) = some ((sysStep cfg (fxStates cfg acts n) (fxAct acts n)).getD (fxStates cfg acts n))
    have hsome : (sysStep cfg (fxStates cfg acts n) (fxAct acts n)).isSome = true := by
      by_cases hn : n < acts.length
      · exact h.steps n hn
      · obtain ⟨k, rfl⟩ : ∃ k, n = acts.length + k := ⟨n - acts.length, by omega⟩
        rw [fxStates_end, fxAct_end]
        have := h.ends
        simp only [fxEnd, Bool.and_eq_true, Bool.not_eq_true'] at this
        simp [sysStep, this.1.1.1.1]
    obtain ⟨s, hs⟩ := Option.isSome_iff_exists.mp hsome
    rw [hs]; rfl

theorem fxExec_end (h : FxOk cfg acts) (n : Nat) : (fxExec h).state (acts.length + n) = (fxExec h).state acts.length := fxStates_end n

theorem fxActs (P : SysAct → Bool) (h1 : P (.tick 0) = true) (h2 : acts.all P = true) (n : Nat) : P (fxAct acts n) = true := by
  show P ((acts[n]?).getD (.tick 0)) = true
  cases h : acts[n]? with
  | none => simpa using h1
  | some a => simpa using List.all_eq_true.mp h2 a (List.mem_of_getElem? h)

theorem fxAlone (h : FxOk cfg acts) (n : Nat) : (∀ i, i ≠ 0 → ((fxExec h).state n).auth.calls i = none) ∧
    ∀ k, ((fxExec h).state n).auth.sess k = none := by
  induction n with
  | zero => exact ⟨fun _ _ => rfl, fun _ => rfl⟩
  | succ n ih =>
    obtain ⟨_, he⟩ := sysStep_effect ((fxExec h).next n)
    have hp : fxPlain ((fxExec h).act n) = true := fxActs fxPlain rfl h.plain n
    generalize (fxExec h).act n = a at he hp
    generalize (fxExec h).state (n + 1) = s' at he
    generalize (fxExec h).state n = s at he ih
    have set : ∀ (i : Nat) (q : AReq) (pc : Pc) (c : Call), s.auth.calls i = some c → ∀ i', i' ≠ 0 →
        (if i' = i then some ⟨q, pc⟩ else s.auth.calls i') = none := by
      intro i q pc c hc i' hi'
      split
      · rename_i h; subst h; rw [ih.1 i' hi'] at hc; simp at hc
      · exact ih.1 i' hi'
    cases he with
    | auth b auth' ha hst =>
      cases aStep_effect hst with
      | call i q h =>
        have : i = 0 := by simpa [fxPlain] using hp
        subst this
        refine ⟨fun i hi => ?_, ih.2⟩
        simp only [AState.note, AState.setPc, if_neg hi]
        exact ih.1 i hi
      | opened k r act res h => simp [fxPlain] at hp
      | sub k i q rest tried hs h => simp [fxPlain] at hp
      | finFails k e rest tried hs => rw [ih.2 k] at hs; simp at hs
      | fin k c rest i tried q r hs h => rw [ih.2 k] at hs; simp at hs
      | tick => exact ih
      | setKeys => exact ih
      | setJwkp => exact ih
      | sweep => exact ih
      | clear => exact ih
      | _ => exact ⟨set _ _ _ _ (by assumption), ih.2⟩
    | endCheck i view sched k c r auth' hk hck hl hret hv hst =>
      cases aStep_effect hst with
      | check _ _ _ q p act res rs h _ => exact ⟨set _ _ _ _ h, ih.2⟩
      | checkFail _ _ _ q p act res r h _ _ => exact ⟨set _ _ _ _ h, ih.2⟩
    | _ => exact ih

theorem fxFair (h : FxOk cfg acts) : SysFair (fxExec h) := by
  intro th n hen
  exfalso
  obtain ⟨a, ha, hs⟩ := hen (acts.length + n) (by omega)
  have hrun := SysExec.run (fxExec h) (acts.length + n)
  obtain ⟨hcalls, hsess⟩ := fxAlone h (acts.length + n)
  have hend := h.ends
  rw [← fxStates_end n] at hend
  change fxEnd cfg ((fxExec h).state (acts.length + n)) = true at hend
  generalize (fxExec h).state (acts.length + n) = s at ha hs hrun hcalls hsess hend
  obtain ⟨s', hs⟩ := Option.isSome_iff_exists.mp hs
  simp only [fxEnd, Bool.and_eq_true, Bool.not_eq_true', decide_eq_true_eq] at hend
  obtain ⟨⟨⟨⟨hdead, hleft⟩, hcl⟩, _⟩, _⟩ := hend
  have hchk : ∀ k, ¬ OfCheck k a := by
    intro k hk
    cases hc : s.pd.checks[k]? with
    | some c =>
      obtain ⟨c', _, _, hl, _⟩ := sysStep_chk hs hc
      have hl := hl hk
      have h0 : c.left = (0, 0, 0) := by simpa using List.all_eq_true.mp hleft c (List.mem_of_getElem? hc)
      rw [h0] at hl
      rcases Prod.lex_def.mp hl with h | ⟨_, h⟩
      · simp at h
      · rcases Prod.lex_def.mp h with h | ⟨_, h⟩ <;> simp at h
    | none =>
      obtain ⟨_, he⟩ := sysStep_effect hs
      cases he with
      | pd b pd' D F W hb hp =>
        cases b with
        | load k' =>
          simp only [OfCheck] at hk; subst hk
          simp only [pdStep, hc] at hp; split at hp <;> simp at hp
        | chk k' b =>
          have : k' = k := by cases b <;> simp_all [OfCheck]
          subst this
          simp only [pdStep, hc] at hp; split at hp <;> simp at hp
        | _ => simp [OfCheck] at hk
      | _ => simp [OfCheck] at hk
  have hcall : ∀ i, ¬ OfCall s i a := by
    intro i hi
    cases hc : s.auth.calls i with
    | some c =>
      have hi0 : i = 0 := Classical.byContradiction fun hne => by rw [hcalls i hne] at hc; simp at hc
      subst hi0
      obtain ⟨q, pc⟩ := c
      obtain ⟨_, _, hl, _⟩ := sysStep_call hrun hs hc
      have hl := hl hi
      rw [hcl] at hl
      rcases Prod.lex_def.mp hl with h | ⟨_, h⟩
      · simp at h
      · rcases Prod.lex_def.mp h with h | ⟨_, h⟩
        · simp at h
        · rcases Prod.lex_def.mp h with h | ⟨_, h⟩ <;> simp at h
    | none =>
      rcases hi with ⟨k, _, hk⟩ | hi
      · exact hchk k hk
      · obtain ⟨_, he⟩ := sysStep_effect hs
        cases he with
        | auth b auth' hb hst =>
          cases b with
          | get j => simp only at hi; subst hi; simp [aStep, hc] at hst
          | validate j => simp only at hi; subst hi; simp [aStep, hc] at hst
          | translate j seed => simp only at hi; subst hi; simp [aStep, hc] at hst
          | store j => simp only at hi; subst hi; simp [aStep, hc] at hst
          | _ => exact hi.elim
        | beginCheck j q p act res pd' hcl => simp only at hi; subst hi; rw [hc] at hcl; simp at hcl
        | endCheck j view sched k c r auth' hk hck hl hret hv hst => simp only at hi; subst hi; simp [aStep, hc] at hst
        | _ => exact hi.elim
  cases th with
  | check k => exact hchk k ha
  | call i => exact hcall i ha
  | sess k =>
    rcases ha with ⟨i, rfl⟩ | rfl | ⟨y, i, hy, _, hi⟩
    · simp [sysStep, hdead, aStep, hsess k] at hs
    · simp [sysStep, hdead, aStep, hsess k] at hs
    · exact hcall i hi

theorem fxUpdFair (h : FxOk cfg acts) : UpdFair (fxExec h) := by
  intro th n hen
  exfalso
  obtain ⟨a, ha, hs⟩ := hen (acts.length + n) (by omega)
  obtain ⟨s', hs⟩ := Option.isSome_iff_exists.mp hs
  have hno : ∀ dom, dom ∉ cfg.domains → (((fxExec h).state (acts.length + n)).fs dom).calls = [] := fun dom hd => SysExec.noOther (fxExec h) hd _
  have hend := h.ends
  rw [← fxStates_end n] at hend
  change fxEnd cfg ((fxExec h).state (acts.length + n)) = true at hend
  generalize (fxExec h).state (acts.length + n) = s at hs hend hno
  simp only [fxEnd, Bool.and_eq_true, Bool.not_eq_true'] at hend
  obtain ⟨⟨⟨⟨hdead, _⟩, _⟩, htasks⟩, hfs⟩ := hend
  obtain ⟨_, he⟩ := sysStep_effect hs
  cases th with
  | fetch dom k =>
    have hcall : ∀ c, (s.fs dom).calls[k]? = some c → ∃ sp e, c.pc = .ret sp e := by
      intro c hc
      by_cases hd : dom ∈ cfg.domains
      · have := List.all_eq_true.mp (List.all_eq_true.mp hfs dom hd) c (List.mem_of_getElem? hc)
        split at this
        · exact ⟨_, _, by assumption⟩
        · simp at this
      · rw [hno dom hd] at hc
        simp at hc
    cases he with
    | fetcher dom' b f hb hf =>
      have : dom' = dom ∧ b.ofCall k := by cases b <;> simp_all [UpdThread.Does, OfFetch, FAct.ofCall]
      obtain ⟨rfl, hk⟩ := this
      cases hck : (s.fs dom').calls[k]? with
      | none => cases b <;> simp_all [FAct.ofCall, fStep]
      | some c =>
        obtain ⟨retry, pc⟩ := c
        obtain ⟨sp, e, hpc⟩ := hcall _ hck
        simp only at hpc
        subst hpc
        cases b <;> simp_all [FAct.ofCall, fStep]
    | pd b => cases b <;> simp [UpdThread.Does, OfFetch] at ha
    | _ => simp [UpdThread.Does, OfFetch] at ha
  | update i =>
    cases ht : s.pd.tasks[i]? with
    | some t =>
      obtain ⟨t', _, _, hl⟩ := sysStep_work hs ht ha
      have := List.all_eq_true.mp htasks t (List.mem_of_getElem? ht)
      rw [decide_eq_true_eq.mp this] at hl
      omega
    | none =>
      cases he with
      | pd b pd' D F W hb hp =>
        cases b with
        | task k u =>
          cases u <;> simp only [UpdThread.Does, OfUpdate] at ha
          all_goals (subst ha; simp only [pdStep, ht] at hp; split at hp <;> simp at hp)
        | finish k => simp only [UpdThread.Does, OfUpdate] at ha; subst ha; simp only [pdStep, ht] at hp; split at hp <;> simp at hp
        | abort k => simp only [UpdThread.Does, OfUpdate] at ha; subst ha; simp only [pdStep, ht] at hp; split at hp <;> simp at hp
        | _ => simp [UpdThread.Does, OfUpdate] at ha
      | _ => simp [UpdThread.Does, OfUpdate] at ha

theorem fxForetold (h : FxOk cfg acts) (hall : ∀ n, n ≤ acts.length → chForeB (fxStates cfg acts n) = true) : Foretold (fxExec h) := by
  intro n i j t f r ht hj hr
  change (fxStates cfg acts n).pd.tasks[i]? = some t at ht
  change (fxStates cfg acts n).fetchResult i j = some r at hr
  have hn : chForeB (fxStates cfg acts n) = true := by
    by_cases hn : n ≤ acts.length
    · exact hall n hn
    · obtain ⟨k, rfl⟩ : ∃ k, n = acts.length + k := ⟨n - acts.length, by omega⟩
      rw [fxStates_end]
      exact hall _ (Nat.le_refl _)
  exact asSaid_iff.mp (chForeB_spec hn ht hj hr)

end Ex

namespace Ex

/-- What the token's role is allowed, -/
def gxAllow : RawAssertion := ⟨"dom:role.admin".toList, "read".toList, "dom:/x,e:y".toList, "ALLOW".toList⟩
/-- and an assertion about a resource of another domain that has the same key in the merge. -/
def gxOther : RawAssertion := ⟨"dom:role.admin".toList, "read,dom:/x".toList, "e:y".toList, "DENY".toList⟩

def gxPolicy : SignedPolicy :=
  { data := some { policyData := some ⟨"dom".toList, [some ⟨[some gxAllow, some gxOther]⟩]⟩, zmsSignature := "m".toList, zmsKeyId := "0".toList,
                   expires := some (auT 5000) },
    signature := "z".toList, keyId := "1".toList }

def gxDoc : PolicyDoc := ⟨[[gxAllow, gxOther]], auT 5000⟩

def gxCfg : SysCfg :=
  { syCfg ["dom".toList] with
    fetch := { (syCfg ["dom".toList]).fetch with
      codec := { (syCfg ["dom".toList]).fetch.codec with
        decode := fun b => if b = "A".toList then some (some gxPolicy) else none } } }

def gxLoad : List SysAct :=
  [.pd (.update [some gxDoc]), .pd (.task 0 (.job 0 [])), .fetcher "dom".toList (.send 0),
   .fetcher "dom".toList (.answer 0 (.answer 200 "t".toList "A".toList))] ++
  ([.task 0 (.job 0 []), .task 0 (.merge 0 0), .task 0 (.merge 0 0), .task 0 (.merge 0 0), .task 0 (.merge 0 0), .task 0 (.job 0 [gxOther]),
    .task 0 (.job 0 []), .task 0 (.job 0 []), .task 0 (.job 0 []), .finish 0] : List PdAct).map .pd

def gxReq : AReq := { syReq with res := "/x,e:y".toList }

def gxPre : List SysAct := syKeys ++ gxLoad ++ [.auth (.call 0 gxReq)]

def gxAll : List SysAct := gxPre ++
  [.auth (.get 0), .auth (.validate 0), .auth (.translate 0 0), .beginCheck 0, .pd (.load 0)] ++
  schedNo.map (fun a => .pd (.chk 0 a)) ++ [.endCheck 0 auView schedNo]


theorem gxOk : FxOk gxCfg gxAll := ⟨by decide +kernel, by decide +kernel, by decide +kernel⟩

def gxExec : SysExec gxCfg (auT 1500) := fxExec gxOk

/-- From the moment at which the call is made, the one update has returned with the policy; time stands still, and the token is valid. -/
def gxAt (s : Sys) : Bool :=
  decide (s.pd.tasks.map (·.ret) = [some true]) && decide (s.fetchResult 0 0 = some (some gxPolicy)) && decide (s.auth.now = auT 1500) &&
  decide (validateToken gxCfg.auth s.auth.keys s.auth.jwkp (clock s.auth.now) gxReq = .ok { syPrincipal with authorizedRoles := [] })

theorem gxAt_all {m : Nat} (hm : gxPre.length ≤ m) : gxAt (gxExec.state m) = true := by
  have hall : ∀ n, n < gxAll.length + 1 → gxPre.length ≤ n → gxAt (fxStates gxCfg gxAll n) = true := by decide +kernel
  by_cases hn : m < gxAll.length + 1
  · exact hall m hn hm
  · obtain ⟨k, rfl⟩ : ∃ k, m = gxAll.length + k := ⟨m - gxAll.length, by omega⟩
    show gxAt (fxStates gxCfg gxAll _) = true
    rw [fxStates_end]
    exact hall _ (by omega) (by decide +kernel)

theorem gxDocs {m : Nat} (hm : gxPre.length ≤ m) {docs : List (Option PolicyDoc)}
    (hin : InForce gxCfg (sysInit gxCfg (auT 1500)) (gxExec.hist m) (gxExec.state m) docs) : docs = [some gxDoc] := by
  have hat := gxAt_all hm
  simp only [gxAt, Bool.and_eq_true, decide_eq_true_eq] at hat
  obtain ⟨⟨⟨hret, hfr⟩, _⟩, _⟩ := hat
  generalize gxExec.state m = s1 at hin hret hfr
  rcases hin with ⟨_, hn⟩ | ⟨i, ⟨⟨t, ht, _⟩, _⟩, hlen, hf⟩
  · have : some true ∈ s1.pd.tasks.map (·.ret) := by rw [hret]; simp
    obtain ⟨t, ht, hr⟩ := List.mem_map.mp this
    exact absurd hr (hn t ht)
  · have h0 : i = 0 := by
      have h1 := lt_of_getElem? ht
      have h2 : s1.pd.tasks.length = 1 := by simpa using congrArg List.length hret
      omega
    subst h0
    obtain ⟨sp, d, _, h1, h2, h3, _⟩ := hf 0 "dom".toList rfl
    rw [hfr] at h1
    simp only [Option.some.injEq] at h1
    subst h1
    have : docOf gxPolicy = .ok gxDoc := by decide +kernel
    rw [← docOf_iff, this] at h2
    simp only [Res.ok.injEq] at h2
    subst h2
    match docs, hlen, h3 with
    | [x], _, h3 => simpa using h3
    | [], _, h3 => simp at h3
    | _ :: _ :: _, hlen, _ => simp [gxCfg, syCfg] at hlen

theorem gxAllowed : Allowed asciiCase (allAssertions [some gxDoc]) "dom".toList "admin".toList "read".toList "/x,e:y".toList :=
  ⟨gxAllow, by decide, applies_of rfl (by decide +kernel), by decide +kernel⟩

theorem gxNotDenied : ¬ Denied asciiCase (allAssertions [some gxDoc]) "dom".toList "admin".toList "read".toList "/x,e:y".toList := by
  rintro ⟨a, ha, hap, hd⟩
  have : a = gxAllow ∨ a = gxOther := by simpa [allAssertions, gxDoc] using ha
  rcases this with rfl | rfl
  · exact absurd hd (by decide +kernel)
  · obtain ⟨_, rd, rr, h1, h2, h3, _⟩ := hap
    obtain ⟨h4, _⟩ := append_sep_inj (c := ':') (a := "e".toList) (b := "y".toList) (by rw [← h1]; decide) (by decide) h2
    rw [← h4] at h3
    exact absurd h3 (by decide)

theorem gxNew : NewPolicies gxExec 0 [gxDoc] := by
  refine ⟨rfl, ?_, ?_, ?_⟩
  · intro j dom d hdom hd n _ k r hact
    have hd' : d = gxDoc := by
      cases j with
      | zero => simpa using hd.symm
      | succ j => simp at hd
    subst hd'
    have hall : ∀ n, n < gxAll.length → (match fxAct gxAll n with | .fetcher _ (.answer _ _) => n == 14 | _ => true) = true := by decide +kernel
    have hn : n = 14 := by
      refine Classical.byContradiction fun hne => ?_
      by_cases hn : n < gxAll.length
      · have := hall n hn
        rw [show fxAct gxAll n = _ from hact] at this
        simp [hne] at this
      · have : fxAct gxAll n = .tick 0 := by simp [fxAct, List.getElem?_eq_none (Nat.le_of_not_lt hn)]
        rw [show fxAct gxAll n = _ from hact] at this
        simp at this
    subst hn
    have hact' : fxAct gxAll 14 = .fetcher "dom".toList (.answer 0 (.answer 200 "t".toList "A".toList)) := rfl
    rw [show fxAct gxAll 14 = _ from hact] at hact'
    simp only [SysAct.fetcher.injEq, FAct.answer.injEq] at hact'
    obtain ⟨rfl, rfl, rfl⟩ := hact'
    obtain ⟨c, hc, hp⟩ := exists_of_map (o := ((fxStates gxCfg gxAll 14).fs "dom".toList).calls[0]?)
      (p := fun c => match c.pc with | .sent _ _ => true | _ => false) (by decide +kernel)
    have hver : verifyPolicy gxCfg.fetch.codec ((fxStates gxCfg gxAll 14).fs "dom".toList).keys ((fxStates gxCfg gxAll 14).fs "dom".toList).now
        (some gxPolicy) = .ok () := by decide +kernel
    split at hp
    · rename_i a tp hpc
      exact ⟨gxPolicy, .inl ⟨"t".toList, 0, "A".toList, rfl, ⟨c, a, tp, hc, hpc⟩, by decide, verifyPolicy_ok.mp hver⟩, docOf_iff.mp (by decide +kernel)⟩
    · simp at hp
  · intro d hd a ha
    rw [List.mem_singleton.mp hd] at ha
    have : a = gxAllow ∨ a = gxOther := by simpa [gxDoc] using ha
    rcases this with rfl | rfl <;> decide
  · intro n i _ hact
    have := fxActs fxPlain rfl gxOk.plain n
    rw [show fxAct gxAll n = _ from hact] at this
    simp [fxPlain] at this

theorem gxEnd (n : Nat) : gxExec.state (gxAll.length + n) = gxExec.state gxAll.length := fxExec_end gxOk n

theorem gxForetold : Foretold gxExec :=
  fxForetold gxOk (fun n hn => (by decide +kernel : ∀ n, n < gxAll.length + 1 → chForeB (fxStates gxCfg gxAll n) = true) n (by omega))

end Ex

/-- The full statement of the second half of C69: a call is granted if its token is valid as long as it runs, the policies in force meanwhile have
not expired, allow one of the roles of the token and deny none of them the request, and its context is not cancelled. -/
def C69_statement : Prop :=
  ∀ (cfg : SysCfg) (now : Int) (x : SysExec cfg now) (n i : Nat) (q : AReq) (p : Principal), 0 ≤ now → cfg.auth.disablePolicyd = false →
    SysFair x → (x.state n).auth.calls i = some ⟨q, .start⟩ → ModeEnabled cfg.auth q.mode → q.act ≠ [] → q.res ≠ [] →
    (∀ m, n ≤ m → Running x i m → TokenSays cfg.auth (x.state m).auth.now (x.state m).auth.keys (x.state m).auth.jwkp q p) →
    (∀ seed, ∃ act res, Translates cfg.auth seed p.domain q act res) →
    (∀ m m' docs seed act res, n ≤ m → m ≤ m' → Running x i m' → InForce cfg (sysInit cfg now) (x.hist m) (x.state m) docs →
      Translates cfg.auth seed p.domain q act res →
      (∀ d, some d ∈ docs → (x.state m').auth.now < d.expires ∧ d.expires + (x.state m').auth.now < 2 ^ 63) ∧
      (∃ role ∈ p.roles, Allowed cfg.auth.U (allAssertions docs) p.domain role act (cfg.auth.resourcePrefix ++ res)) ∧
      ¬ ∃ role ∈ p.roles, Denied cfg.auth.U (allAssertions docs) p.domain role act (cfg.auth.resourcePrefix ++ res)) →
    (∀ m k, (x.state m).checkOf i = some k → x.act m ≠ .pd (.chk k .cancel)) →
    ∃ m p', n ≤ m ∧ (x.state m).auth.calls i = some ⟨q, .done (.ok p')⟩

/-- It is false for the code: the merge of the policy loses the assertion that allows the request, because another one about a resource of another
domain has the same key (C08), and the call is refused. -/
theorem C69_refuted : ¬ C69_statement := by
  intro hst
  have hend : (Ex.gxExec.state Ex.gxAll.length).auth.calls 0 = some ⟨Ex.gxReq, .done (.err .noMatch)⟩ := by decide +kernel
  obtain ⟨m, p', hm, hd⟩ := hst Ex.gxCfg (Ex.auT 1500) Ex.gxExec Ex.gxPre.length 0 Ex.gxReq { Ex.syPrincipal with authorizedRoles := [] } (by decide) rfl
    (Ex.fxFair Ex.gxOk) (by decide +kernel) rfl (by decide) (by decide)
    (by
      intro m hm _
      have := Ex.gxAt_all hm
      simp only [Ex.gxAt, Bool.and_eq_true, decide_eq_true_eq] at this
      exact (validateToken_ok this.2).1)
    (fun seed => ⟨_, _, fun _ => ⟨rfl, rfl⟩, fun t ht => by simp [Ex.gxCfg, Ex.syCfg] at ht⟩)
    (by
      intro m m' docs seed act res hm hmm _ hin htr
      obtain rfl := Ex.gxDocs hm hin
      obtain ⟨rfl, rfl⟩ := htr.1 rfl
      have := Ex.gxAt_all (Nat.le_trans hm hmm)
      simp only [Ex.gxAt, Bool.and_eq_true, decide_eq_true_eq] at this
      rw [this.1.2]
      refine ⟨?_, ⟨"admin".toList, by decide, Ex.gxAllowed⟩, ?_⟩
      · intro d hd
        simp only [List.mem_singleton, Option.some.injEq] at hd
        subst hd
        decide
      · rintro ⟨role, hr, hden⟩
        have : role = "admin".toList := by simpa [Ex.syPrincipal] using hr
        subst this
        exact Ex.gxNotDenied hden)
    (by
      intro m k _ h
      have := Ex.fxActs Ex.fxPlain rfl Ex.gxOk.plain m
      rw [show Ex.fxAct Ex.gxAll m = _ from h] at this
      simp [Ex.fxPlain] at this)
  have hstay : ∀ k, (Ex.gxExec.state (m + k)).auth.calls 0 = some ⟨Ex.gxReq, .done (.ok p')⟩ := by
    intro k
    induction k with
    | zero => exact hd
    | succ k ih =>
      obtain ⟨pc, h1, h2⟩ := sysStep_calls (Ex.gxExec.next (m + k)) ih
      rw [h2 ⟨_, rfl⟩] at h1
      exact h1
  have h1 := hstay Ex.gxAll.length
  have h2 : Ex.gxExec.state (m + Ex.gxAll.length) = Ex.gxExec.state Ex.gxAll.length := by
    rw [Nat.add_comm]; exact Ex.gxEnd m
  rw [h2, hend] at h1
  simp at h1

/-- The full statement of the second half of C72: a check begun once nothing but the new policies is in force, and stays so, decides as they say,
as long as they have not expired. -/
def C72_statement : Prop :=
  ∀ (cfg : SysCfg) (now : Int) (x : SysExec cfg now) (N : Nat) (D : List PolicyDoc) (M : Nat), 0 ≤ now → cfg.auth.disablePolicyd = false →
    SysFair x → UpdFair x → Foretold x → NewPolicies x N D → N ≤ M →
    (∀ m docs, M ≤ m → InForce cfg (sysInit cfg now) (x.hist m) (x.state m) docs → docs = D.map some) →
    ∀ m k c r, M ≤ m → (x.state M).pd.checks.length ≤ k → (x.state m).pd.checks[k]? = some c → c.cs.coll = .ret r →
      (∀ d ∈ D, (x.state m).auth.now < d.expires ∧ d.expires + (x.state m).auth.now < 2 ^ 63) →
      Decision cfg.auth.U (allAssertions (D.map some)) c.q r

/-- It is false for the code, for the same reason. -/
theorem C72_refuted : ¬ C72_statement := by
  intro hst
  obtain ⟨c, hc, hp⟩ := Ex.exists_of_map (o := (Ex.gxExec.state Ex.gxAll.length).pd.checks[0]?)
    (p := fun c : Chk => decide (c.q = ⟨"dom".toList, ["admin".toList], "read".toList, "/x,e:y".toList⟩) &&
      (match c.cs.coll with | .ret (.err .noMatch) => true | _ => false)) (by decide +kernel)
  simp only [Bool.and_eq_true, decide_eq_true_eq] at hp
  obtain ⟨hq, hr⟩ := hp
  have hr : c.cs.coll = .ret (.err .noMatch) := by
    split at hr
    · assumption
    · simp at hr
  have hle : Ex.gxPre.length ≤ Ex.gxAll.length := by decide
  have := hst Ex.gxCfg (Ex.auT 1500) Ex.gxExec 0 [Ex.gxDoc] Ex.gxPre.length (by decide) rfl (Ex.fxFair Ex.gxOk) (Ex.fxUpdFair Ex.gxOk) Ex.gxForetold
    Ex.gxNew (Nat.zero_le _) (fun m docs hm hin => Ex.gxDocs hm hin) Ex.gxAll.length 0 c _ hle (by decide +kernel) hc hr
    (by
      have := Ex.gxAt_all hle
      simp only [Ex.gxAt, Bool.and_eq_true, decide_eq_true_eq] at this
      rw [this.1.2]
      intro d hd
      rw [List.mem_singleton.mp hd]
      decide)
  rw [hq] at this
  rcases this with h | ⟨h, _⟩ | ⟨_, h⟩
  · simp at h
  · simp at h
  · exact (h "admin".toList (by simp)).1 Ex.gxAllowed

namespace Ex

/-- Policy checks are disabled. -/
def uxCfg : SysCfg := { gxCfg with auth := { gxCfg.auth with disablePolicyd := true } }

def uxPre : List SysAct := syKeys ++ [.auth (.call 0 gxReq)]

def uxAll : List SysAct := uxPre ++ [.auth (.get 0), .auth (.validate 0), .auth (.store 0)]

theorem uxOk : FxOk uxCfg uxAll := ⟨by decide +kernel, by decide +kernel, by decide +kernel⟩

def uxAt (s : Sys) : Bool :=
  decide (validateToken uxCfg.auth s.auth.keys s.auth.jwkp (clock s.auth.now) gxReq = .ok { syPrincipal with authorizedRoles := [] })

theorem uxAt_all {m : Nat} (hm : uxPre.length ≤ m) : uxAt ((fxExec uxOk).state m) = true := by
  have hall : ∀ n, n < uxAll.length + 1 → uxPre.length ≤ n → uxAt (fxStates uxCfg uxAll n) = true := by decide +kernel
  by_cases hn : m < uxAll.length + 1
  · exact hall m hn hm
  · obtain ⟨k, rfl⟩ : ∃ k, m = uxAll.length + k := ⟨m - uxAll.length, by omega⟩
    show uxAt (fxStates uxCfg uxAll _) = true
    rw [fxStates_end]
    exact hall _ (by omega) (by decide +kernel)

end Ex

/-- The hypotheses of `C69_granted_unchecked` are met. -/
example : Ex.uxCfg.auth.disablePolicyd = true ∧ SysFair (Ex.fxExec Ex.uxOk) ∧
    ((Ex.fxExec Ex.uxOk).state Ex.uxPre.length).auth.calls 0 = some ⟨Ex.gxReq, .start⟩ ∧ ModeEnabled Ex.uxCfg.auth Ex.gxReq.mode ∧
    ∀ m, Ex.uxPre.length ≤ m → Running (Ex.fxExec Ex.uxOk) 0 m →
      TokenSays Ex.uxCfg.auth ((Ex.fxExec Ex.uxOk).state m).auth.now ((Ex.fxExec Ex.uxOk).state m).auth.keys
        ((Ex.fxExec Ex.uxOk).state m).auth.jwkp Ex.gxReq { Ex.syPrincipal with authorizedRoles := [] } := by
  refine ⟨rfl, Ex.fxFair Ex.uxOk, by decide +kernel, rfl, fun m hm _ => ?_⟩
  have := Ex.uxAt_all hm
  simp only [Ex.uxAt, decide_eq_true_eq] at this
  exact (validateToken_ok this).1

/-- Only ZMS has served its keys: the call is refused, even without policy checks. -/
example : ∃ s, sysRun Ex.uxCfg (sysInit Ex.uxCfg (Ex.auT 1500)) ((Ex.syKeys.take 1 ++ Ex.syKeys.drop 6) ++
      [.auth (.call 0 Ex.gxReq), .auth (.get 0), .auth (.validate 0)]) = some s ∧
    (∀ es, ¬ KeysServed Ex.uxCfg ((Ex.syKeys.take 1 ++ Ex.syKeys.drop 6) ++
      [.auth (.call 0 Ex.gxReq), .auth (.get 0), .auth (.validate 0)]) .zts es) ∧ s.jwk.log = [] ∧ (s.pk.zms.load "0".toList).isSome = true ∧
    ∃ e, s.auth.calls 0 = some ⟨Ex.gxReq, .done (.err e)⟩ := by
  obtain ⟨s, hs, hp⟩ := Ex.exists_of_map (o := sysRun Ex.uxCfg (sysInit Ex.uxCfg (Ex.auT 1500)) ((Ex.syKeys.take 1 ++ Ex.syKeys.drop 6) ++
      [.auth (.call 0 Ex.gxReq), .auth (.get 0), .auth (.validate 0)]))
    (p := fun s => s.jwk.log.isEmpty && (s.pk.zms.load "0".toList).isSome && (match s.auth.calls 0 with
      | some ⟨q, .done (.err _)⟩ => decide (q = Ex.gxReq) | _ => false)) (by decide +kernel)
  simp only [Bool.and_eq_true] at hp
  refine ⟨s, hs, ?_, by simpa using hp.1.1, hp.1.2, ?_⟩
  · rintro es ⟨j, x, b, o, hm, he, _⟩
    have hall : ∀ a ∈ (Ex.syKeys.take 1 ++ Ex.syKeys.drop 6) ++ [.auth (.call 0 Ex.gxReq), .auth (.get 0), .auth (.validate 0)],
        (match a with | SysAct.pk (.answer j _ _) => decide (jobEnv j ≠ .zts) | _ => true) = true := by decide +kernel
    have := hall _ hm
    simp [he] at this
  · have := hp.2
    split at this
    · rename_i q e hc
      simp only [decide_eq_true_eq] at this
      subst this
      exact ⟨e, hc⟩
    · simp at this

end Athenz
