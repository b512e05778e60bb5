import Verif.Props.Running
import Verif.Props.SysGrant
import Verif.Spec.CutOff

/-!
# C81: an authorizer that is cut off from the policy server

Expiry times are checked when a policy is received, and a policy is kept in the cache until it expires.  But the fetchers keep the last policy
they got, whatever its expiry time, and return it when they give up; and an entry that is stored after its expiry time never expires.  So an
authorizer that is cut off from the policy server goes on deciding as the last policies say, long after these have expired.
-/

namespace Athenz
open Spec

/-! ### Calls of the fetchers during the outage -/

/-- A call of `FetchWithRetry` begun during the outage. -/
def OutCall (d : PolicyDoc) (c : FetchCall) : Prop :=
  c.retry = true ∧ match c.pc with
    | .ret sp _ => ∃ p, sp = some p ∧ PolicySays p d
    | _ => True

theorem outCall_step {cfg : FetchCfg} {f f' : FState} {a : FAct} {d : PolicyDoc} {K : Nat} (hs : fStep cfg f a = some f')
    (hcall : a ≠ .call false) (hans : ∀ j r sp, a = .answer j r → a.succeeds cfg f sp → PolicySays sp d)
    (hcache : ∃ c, f.cache = some c ∧ PolicySays c.sp d) (h : ∀ (k : Nat) (c : FetchCall), K ≤ k → f.calls[k]? = some c → OutCall d c) :
    (∃ c, f'.cache = some c ∧ PolicySays c.sp d) ∧ ∀ (k : Nat) (c : FetchCall), K ≤ k → f'.calls[k]? = some c → OutCall d c := by
  unfold fStep at hs
  split at hs
  · simp at hs
  cases a with
  | tick d => simp only [Option.some.injEq] at hs; subst hs; exact ⟨hcache, h⟩
  | setKeys ks => simp only [Option.some.injEq] at hs; subst hs; exact ⟨hcache, h⟩
  | call retry =>
    simp only [Option.some.injEq] at hs; subst hs
    refine ⟨hcache, fun k c hk hc => ?_⟩
    rcases getElem?_append_cases hc with hc | ⟨_, rfl⟩
    · exact h k c hk hc
    · cases retry with
      | false => exact absurd rfl hcall
      | true => exact ⟨rfl, trivial⟩
  | send j =>
    simp only at hs
    split at hs
    · rename_i retry i e hj
      split at hs
      · simp at hs
      · simp only [Option.some.injEq] at hs; subst hs
        refine ⟨hcache, fun k c hk hc => ?_⟩
        rcases getElem?_set_cases' hc with ⟨rfl, rfl⟩ | ⟨_, hc⟩
        · exact ⟨(h _ _ hk hj).1, trivial⟩
        · exact h k c hk hc
    · simp at hs
  | answer j r =>
    have hno := fun sp => hans j r sp rfl
    simp only at hs
    split at hs
    · rename_i retry i tp hj
      rcases fetchAnswer_cases cfg tp f.keys f.now r with ⟨e, h1, _⟩ | ⟨h1, _⟩ | ⟨t, e, b, rfl, rfl, h1⟩ | ⟨t, b, sp, dd, e, rfl, h2, h3, h4, h5, h1⟩
      · rw [h1] at hs
        simp only at hs
        split at hs
        · simp only [Option.some.injEq] at hs; subst hs
          refine ⟨hcache, fun k c hk hc => ?_⟩
          rcases getElem?_set_cases' hc with ⟨rfl, rfl⟩ | ⟨_, hc⟩
          · exact ⟨(h _ _ hk hj).1, trivial⟩
          · exact h k c hk hc
        · rename_i hret
          simp only [Option.some.injEq] at hs; subst hs
          refine ⟨hcache, fun k c hk hc => ?_⟩
          rcases getElem?_set_cases' hc with ⟨rfl, rfl⟩ | ⟨_, hc⟩
          · exact absurd (h _ _ hk hj).1 hret
          · exact h k c hk hc
      · rw [h1] at hs
        simp only [Option.some.injEq] at hs; subst hs
        exact ⟨hcache, h⟩
      · have hs' := hno t.sp (.inr ⟨j, e, b, _, i, t, rfl, hj, rfl, rfl⟩)
        rw [h1] at hs
        simp only [Option.some.injEq] at hs; subst hs
        refine ⟨hcache, fun k c hk hc => ?_⟩
        rcases getElem?_set_cases' hc with ⟨rfl, rfl⟩ | ⟨_, hc⟩
        · exact ⟨(h _ _ hk hj).1, t.sp, rfl, hs'⟩
        · exact h k c hk hc
      · have hs' := hno sp (.inl ⟨t, j, b, rfl, ⟨_, i, tp, hj, rfl⟩, h2, h3⟩)
        rw [h1] at hs
        simp only [Option.some.injEq] at hs; subst hs
        refine ⟨⟨_, rfl, hs'⟩, fun k c hk hc => ?_⟩
        rcases getElem?_set_cases' hc with ⟨rfl, rfl⟩ | ⟨_, hc⟩
        · exact ⟨(h _ _ hk hj).1, sp, rfl, hs'⟩
        · exact h k c hk hc
    · simp at hs
  | giveUp j =>
    simp only at hs
    split at hs
    · rename_i i e hj
      split at hs
      · simp at hs
      · simp only [Option.some.injEq] at hs; subst hs
        refine ⟨hcache, fun k c hk hc => ?_⟩
        rcases getElem?_set_cases' hc with ⟨rfl, rfl⟩ | ⟨_, hc⟩
        · obtain ⟨c0, hc0, hs0⟩ := hcache
          exact ⟨rfl, c0.sp, by simp [hc0], hs0⟩
        · exact h k c hk hc
    · simp at hs

theorem Spec.NoNews.calls {cfg : SysCfg} {now : Int} {x : SysExec cfg now} {N : Nat} {D : List PolicyDoc} (h : NoNews x N D) {j : Nat} {dom : Str} {d : PolicyDoc}
    (hj : cfg.domains[j]? = some dom) (hd : D[j]? = some d) : ∀ m, N ≤ m →
      (∃ c, ((x.state m).fs dom).cache = some c ∧ PolicySays c.sp d) ∧ ∀ (k : Nat) (c : FetchCall), ((x.state N).fs dom).calls.length ≤ k →
        ((x.state m).fs dom).calls[k]? = some c → OutCall d c := by
  intro m hm
  induction hm with
  | refl =>
    refine ⟨h.had j dom d hj hd, fun k c hk hc => ?_⟩
    have := lt_of_getElem? hc
    omega
  | @step m hm ih =>
    obtain ⟨ih1, ih2⟩ := ih
    have hst := x.next m
    obtain ⟨_, he⟩ := sysStep_effect hst
    have hsm := h.same j dom d hj hd m hm
    simp only [Nat.succ_eq_add_one]
    generalize x.state (m + 1) = s' at he
    generalize x.act m = a at he hsm
    cases he with
    | fetcher dom' b f hb hf =>
      by_cases hdom : dom = dom'
      · subst hdom
        simp only [if_true]
        exact outCall_step hf (by rintro rfl; simp [FAct.own] at hb) (fun j r sp hb => by subst hb; exact hsm j r sp rfl) ih1 ih2
      · simp only [if_neg hdom]
        exact ⟨ih1, ih2⟩
    | pd b pd' D F W hb hp hD hF hbr =>
      rcases hF with rfl | ⟨dom', f, hf, rfl⟩
      · exact ⟨ih1, ih2⟩
      · simp only
        by_cases hdom : dom = dom'
        · subst hdom
          simp only [if_true]
          exact outCall_step hf (by simp) (by simp) ih1 ih2
        · simp only [if_neg hdom]
          exact ⟨ih1, ih2⟩
    | _ => exact ⟨ih1, ih2⟩

theorem Spec.NoNews.later {cfg : SysCfg} {now : Int} {x : SysExec cfg now} {N n : Nat} {D : List PolicyDoc} (h : NoNews x N D) (hn : N ≤ n) :
    NoNews x n D :=
  ⟨h.len, fun _ _ _ hj hd => (h.calls hj hd n hn).1, fun j dom d hj hd m hm => h.same j dom d hj hd m (by omega), h.good,
    fun m i hm => h.noCancel m i (by omega)⟩

theorem Spec.NoNews.yields {cfg : SysCfg} {now : Int} {x : SysExec cfg now} {N : Nat} {D : List PolicyDoc} (h : NoNews x N D) : Yields x N D :=
  ⟨h.len, fun _ _ _ hj hd m hm k _ _ _ hk hc => ((h.calls hj hd m hm).2 k _ hk hc).2, h.good, h.noCancel⟩

/-- If requests succeed no more, there are no news. -/
theorem Spec.CutOff.noNews {cfg : SysCfg} {now : Int} {x : SysExec cfg now} {N : Nat} (h : CutOff x N) {D : List PolicyDoc}
    (hlen : D.length = cfg.domains.length) (hhad : ∀ (j : Nat) (dom : Str) (d : PolicyDoc), cfg.domains[j]? = some dom → D[j]? = some d →
      ∃ c, ((x.state N).fs dom).cache = some c ∧ PolicySays c.sp d)
    (hgood : ∀ d ∈ D, ∀ a ∈ d.policies.flatten, ':' ∈ a.resource) (hno : ∀ n i, N ≤ n → x.act n ≠ .pd (.task i .cancel)) : NoNews x N D :=
  ⟨hlen, hhad, fun _ dom _ _ _ n hn k r sp ha hs => absurd hs (h dom n hn k r sp ha), hgood, hno⟩

/-- If the servers go on giving what the fetchers already have, there are no news. -/
theorem Spec.NewPolicies.noNews {cfg : SysCfg} {now : Int} {x : SysExec cfg now} {N n : Nat} {D : List PolicyDoc} (h : NewPolicies x N D) (hn : N ≤ n)
    (hhad : ∀ (j : Nat) (dom : Str) (d : PolicyDoc), cfg.domains[j]? = some dom → D[j]? = some d →
      ∃ c, ((x.state n).fs dom).cache = some c ∧ PolicySays c.sp d) : NoNews x n D := by
  refine ⟨h.len, hhad, fun j dom d hj hd m hm k r sp hact hs => ?_, h.good, fun m i hm => h.noCancel m i (by omega)⟩
  obtain ⟨sp', hs', hd'⟩ := h.serves j dom d hj hd m (by omega) k r hact
  have hst := x.next m
  obtain ⟨_, he⟩ := sysStep_effect hst
  rw [hact] at he
  generalize x.state (m + 1) = s2 at he
  cases he with
  | fetcher _ _ f hb hf =>
    obtain ⟨j1, r1, c1, e1, g1, g2, _⟩ := C18_first_success _ _ _ _ _ hf hs [] _ rfl
    obtain ⟨j2, r2, c2, e2, g3, g4, _⟩ := C18_first_success _ _ _ _ _ hf hs' [] _ rfl
    simp only [FAct.answer.injEq] at e1 e2
    rw [← e1.1] at g1
    rw [← e2.1, g1] at g3
    obtain rfl := Option.some.inj g3
    rw [g2] at g4
    simp only [FetchPc.ret.injEq, Option.some.injEq, and_true] at g4
    rw [g4]; exact hd'

/-! ### The theorems -/

/-- **C81**.  A call of `Update` made after the last news returns nil, even if all its requests fail. -/
theorem C81_update_ok (cfg : SysCfg) (now : Int) (x : SysExec cfg now) (hf : UpdFair x) (hfore : Foretold x) (N : Nat) (D : List PolicyDoc)
    (hD : NoNews x N D) (n : Nat) (hn : N ≤ n) (fetch : List (Option PolicyDoc)) (hact : x.act n = .pd (.update fetch)) :
    ∃ m t, n < m ∧ (x.state m).pd.tasks[(x.state n).pd.tasks.length]? = some t ∧ t.ret = some true :=
  yields_update_ok cfg now x hf hfore N D hD.yields n hn fetch hact

/-- **C81**.  An update is called when those called before it have returned: then the last policies received are in force from some moment on, for
ever, and the update that brought them into force was not called earlier than this one. -/
theorem C81_in_force (cfg : SysCfg) (now : Int) (x : SysExec cfg now) (hf : UpdFair x) (hfore : Foretold x) (N : Nat) (D : List PolicyDoc)
    (hD : NoNews x N D) (n : Nat) (hn : N ≤ n)
    (hold : ∀ (i : Nat) (t : Task), (x.state n).pd.tasks[i]? = some t → t.isUpdate = true → t.ret ≠ none)
    (fetch : List (Option PolicyDoc)) (hact : x.act n = .pd (.update fetch)) :
    ∃ M, n ≤ M ∧ ∀ m, M ≤ m → (InForce cfg (sysInit cfg now) (x.hist m) (x.state m) (D.map some) ∧
      ∀ docs, InForce cfg (sysInit cfg now) (x.hist m) (x.state m) docs → docs = D.map some) ∧
      InForceSince cfg (sysInit cfg now) (x.hist m) (x.state m) (x.state n).auth.now :=
  have ⟨M, hM, h⟩ := yields_in_force cfg now x hf hfore n D (hD.later hn).yields n (Nat.le_refl n) (fun i t _ => hold i t) fetch hact
  ⟨M, hM, fun m hm => ⟨(h m hm).1, (h m hm).2.1⟩⟩

/-- **C81**.  If `Update` is called again and again, the last policies received are, for every moment `n` after the last news, in force from some
moment on by updates that were called after `n`. -/
theorem C81_again (cfg : SysCfg) (now : Int) (x : SysExec cfg now) (hf : UpdFair x) (hfore : Foretold x) (N : Nat) (D : List PolicyDoc)
    (hD : NoNews x N D) (hagain : ∀ n, ∃ m fetch, n ≤ m ∧ x.act m = .pd (.update fetch)) (n : Nat) (hn : N ≤ n) :
    ∃ M, n ≤ M ∧ ∀ m, M ≤ m → (InForce cfg (sysInit cfg now) (x.hist m) (x.state m) (D.map some) ∧
      ∀ docs, InForce cfg (sysInit cfg now) (x.hist m) (x.state m) docs → docs = D.map some) ∧
      InForceSince cfg (sysInit cfg now) (x.hist m) (x.state m) (x.state n).auth.now :=
  have ⟨M, hM, h⟩ := yields_takes_effect cfg now x hf hfore n D (hD.later hn).yields hagain
  ⟨M, hM, fun m hm => ⟨(h m hm).1, (h m hm).2.1⟩⟩

/-- A check is loaded after the moment before which it did not exist. -/
theorem load_after {cfg : SysCfg} {now : Int} (x : SysExec cfg now) {M k : Nat} {h1 h2 : List SysAct} {m : Nat}
    (hh : x.hist m = h1 ++ .pd (.load k) :: h2) (hk : (x.state M).pd.checks.length ≤ k) : M ≤ h1.length := by
  obtain ⟨_, _, hp2, _⟩ := hist_split hh
  refine Classical.byContradiction fun hlt => ?_
  have hst := x.next h1.length
  obtain ⟨_, he⟩ := sysStep_effect hst
  rw [hp2] at he
  obtain ⟨c1, hc1⟩ : ∃ c1, (x.state h1.length).pd.checks[k]? = some c1 := by
    generalize x.state (h1.length + 1) = s' at he
    cases he with
    | pd a pd' D F W ha hp hD hF hbr =>
      unfold pdStep at hp
      split at hp
      · simp at hp
      · cases hck : (x.state h1.length).pd.checks[k]? with
        | none => simp [hck] at hp
        | some c1 => exact ⟨c1, rfl⟩
  have : ∀ m, h1.length ≤ m → ∃ c2, (x.state m).pd.checks[k]? = some c2 := by
    intro m hm
    induction hm with
    | refl => exact ⟨c1, hc1⟩
    | @step m hm ih =>
      obtain ⟨c2, h2⟩ := ih
      obtain ⟨c3, h3, _⟩ := sysStep_chk (x.next m) h2
      exact ⟨c3, h3⟩
  obtain ⟨c2, hc2⟩ := this M (by omega)
  have := lt_of_getElem? hc2
  omega

/-- What the documents have to satisfy for role `k`, whatever their expiry times: none speaks about it, or just one, in which no assertion collides with
another one (C08) and every policy denies what one of them denies (C12). -/
def RegularFor (U : CaseFns) (docs : List (Option PolicyDoc)) (k : Str) : Prop :=
  Silent docs k ∨ ∃ i d, docs[i]? = some (some d) ∧ OwnedBy docs k i ∧
    ∀ a ∈ d.policies.flatten, a.role = k → Unambiguous d a ∧ (Spec.IsDeny U a → Spec.DeniedByAll U d.policies a)

theorem RegularFor.at {U : CaseFns} {D : List PolicyDoc} {k : Str} (h : RegularFor U (D.map some) k) {t0 : Int} (hexp : ∀ d ∈ D, d.expires ≤ t0)
    (T t : Int) : RegularAt U (D.map some) t0 T t k := by
  rcases h with h | ⟨i, d, h1, h2, h3⟩
  · exact .inl h
  · refine .inr ⟨i, d, ⟨h1, h2, .inl (hexp d ?_)⟩, h3⟩
    have := List.mem_of_getElem? h1
    simpa using this

/-- **C81**.  An update is called when those called before it have returned and all the policies have expired.  Then from some moment on every check
decides as the expired policies say, for ever, where they are regular in the sense of C68, even if they are refreshed.  Missing: policies that are
not regular, as in C68. -/
theorem C81_check_partial (cfg : SysCfg) (now : Int) (hnow : 0 ≤ now) (x : SysExec cfg now) (hf : UpdFair x) (hfore : Foretold x) (N : Nat)
    (D : List PolicyDoc) (hD : NoNews x N D) (n : Nat) (hn : N ≤ n)
    (hold : ∀ (i : Nat) (t : Task), (x.state n).pd.tasks[i]? = some t → t.isUpdate = true → t.ret ≠ none)
    (fetch : List (Option PolicyDoc)) (hact : x.act n = .pd (.update fetch)) (hexp : ∀ d ∈ D, d.expires ≤ (x.state n).auth.now) :
    ∃ M, n ≤ M ∧ ∀ m k c r, M ≤ m → (x.state M).pd.checks.length ≤ k → (x.state m).pd.checks[k]? = some c → c.cs.coll = .ret r →
      (∀ role ∈ c.q.roles, RegularFor cfg.auth.U (D.map some) (c.q.domain ++ ":role.".toList ++ role)) →
      Decision cfg.auth.U (allAssertions (D.map some)) c.q r := by
  obtain ⟨M, hM, hin⟩ := yields_in_force cfg now x hf hfore n D (hD.later hn).yields n (Nat.le_refl n) (fun i t _ => hold i t) fetch hact
  refine ⟨M, hM, fun m k c r hm hk hc hret hreg => ?_⟩
  obtain ⟨h1, h2, s1, docs, hh, hr1, hdocs, _, hdec⟩ := C68_check_since_partial cfg now hnow (x.hist m) (x.state m)
    (SysExec.run x m) k c r hc hret
  have hr1' := hr1
  obtain ⟨e1, hp1, hp2, _⟩ := hist_split hh
  have hge := load_after x hh hk
  rw [e1, SysExec.run x] at hr1
  obtain rfl := Option.some.inj hr1
  have hsince := (hin h1.length hge).2.1
  rw [e1] at hdocs
  simp only [SysExec.hist, List.length_map, List.length_range] at hdocs
  have := (hin h1.length hge).1.2 docs hdocs
  subst this
  have hal := yields_alike (hD.later hn).yields (m := m) (hin h1.length hge).2.2
    (K := fun k => ∃ role ∈ c.q.roles, k = c.q.domain ++ ":role.".toList ++ role) (t0 := (x.state n).auth.now) (T := (x.state m).auth.now)
    (by rintro _ ⟨role, hr, rfl⟩; exact (hreg role hr).at hexp _ _)
  refine hdec (x.state n).auth.now ?_ (fun role hr => (hreg role hr).at hexp _ _) ?_
  · rw [e1]
    simpa [SysExec.hist] using hsince
  · rw [e1]
    simpa [SysExec.hist] using hal.imp fun d h role hr => h _ ⟨role, hr, rfl⟩

/-- **C81**.  A call made then is granted what the expired policies allow: its token is valid while it runs, they are regular for the roles of the
token, allow one of them and deny none of them the request, and its context is not cancelled.  Missing: as above. -/
theorem C81_granted_partial (cfg : SysCfg) (now : Int) (hnow : 0 ≤ now) (hpol : cfg.auth.disablePolicyd = false) (x : SysExec cfg now)
    (hsf : SysFair x) (hf : UpdFair x) (hfore : Foretold x) (N : Nat) (D : List PolicyDoc) (hD : NoNews x N D)
    (n0 : Nat) (hn0 : N ≤ n0) (hold : ∀ (i : Nat) (t : Task), (x.state n0).pd.tasks[i]? = some t → t.isUpdate = true → t.ret ≠ none)
    (fetch : List (Option PolicyDoc)) (hact : x.act n0 = .pd (.update fetch)) (hexp : ∀ d ∈ D, d.expires ≤ (x.state n0).auth.now) :
    ∃ M, n0 ≤ M ∧ ∀ n i q p, M ≤ n → (x.state n).auth.calls i = some ⟨q, .start⟩ → ModeEnabled cfg.auth q.mode → q.act ≠ [] → q.res ≠ [] →
      (∀ m, n ≤ m → Running x i m → TokenSays cfg.auth (x.state m).auth.now (x.state m).auth.keys (x.state m).auth.jwkp q p) →
      (∀ seed, ∃ act res, Translates cfg.auth seed p.domain q act res) →
      (∀ role ∈ p.roles, RegularFor cfg.auth.U (D.map some) (p.domain ++ ":role.".toList ++ role)) →
      (∀ seed act res, Translates cfg.auth seed p.domain q act res →
        (∃ role ∈ p.roles, Allowed cfg.auth.U (allAssertions (D.map some)) p.domain role act (cfg.auth.resourcePrefix ++ res)) ∧
        ¬ ∃ role ∈ p.roles, Denied cfg.auth.U (allAssertions (D.map some)) p.domain role act (cfg.auth.resourcePrefix ++ res)) →
      (∀ m k, (x.state m).checkOf i = some k → x.act m ≠ .pd (.chk k .cancel)) →
      ∃ m p', n ≤ m ∧ (x.state m).auth.calls i = some ⟨q, .done (.ok p')⟩ := by
  obtain ⟨M, hM, hin⟩ := yields_in_force cfg now x hf hfore n0 D (hD.later hn0).yields n0 (Nat.le_refl n0) (fun i t _ => hold i t) fetch hact
  refine ⟨M, hM, fun n i q p hn hc hen hact hres htok htr hreg hall hcancel => ?_⟩
  refine C69_granted_since_partial cfg now hnow hpol x hsf n i q p hc hen hact hres htok htr ?_ hcancel
  intro m m' docs seed act res hm hm' hrun hdocs ht
  have hat := hin m (by omega)
  obtain rfl := hat.1.2 docs hdocs
  refine ⟨⟨_, hat.2.1, fun role hr => (hreg role hr).at hexp _ _, ?_⟩, hall seed act res ht⟩
  exact (yields_alike (hD.later hn0).yields hat.2.2 (K := fun k => ∃ role ∈ p.roles, k = p.domain ++ ":role.".toList ++ role)
    (by rintro _ ⟨role, hr, rfl⟩; exact (hreg role hr).at hexp _ _)).imp fun d h role hr => h _ ⟨role, hr, rfl⟩

/-- **C81**, a started authorizer.  `Start` calls `Update` by itself again and again, so the last policies received stay in force, and for
every moment they are in force from some moment on by updates called after it. -/
theorem C81_started (cfg : SysCfg) (ce : Str) (now : Int) (on : LKind → Bool) (hon : on .policyd = true) (x : RsExec cfg ce now on)
    (hl : ChildFair x .policyd) (hrd : ErrorsRead x) (hns : Uncancelled x) (hf : UpdFair x.sys) (hfore : Foretold x.sys) (N : Nat)
    (D : List PolicyDoc) (hD : NoNews x.sys N D) (n : Nat) (hn : N ≤ n) :
    ∃ M, n ≤ M ∧ ∀ m, M ≤ m → (InForce cfg (sysInit cfg now) (x.sys.hist m) (x.state m).sys (D.map some) ∧
      ∀ docs, InForce cfg (sysInit cfg now) (x.sys.hist m) (x.state m).sys docs → docs = D.map some) ∧
      InForceSince cfg (sysInit cfg now) (x.sys.hist m) (x.state m).sys (x.state n).sys.auth.now :=
  C81_again cfg now x.sys hf hfore N D hD (rs_updates (C79_again cfg ce now on x .policyd hon hl (fun _ => hrd) hns ⟨hf, hfore⟩)) n hn

namespace Ex

/-- A policy that expires soon. -/
def cuPolicy : SignedPolicy :=
  { data := some { policyData := some ⟨"dom".toList, [some ⟨[some syRaw]⟩]⟩, zmsSignature := "m".toList, zmsKeyId := "0".toList,
                   expires := some (auT 1600) },
    signature := "z".toList, keyId := "1".toList }

def cuDoc : PolicyDoc := ⟨[[syRaw]], auT 1600⟩

def cuCfg : SysCfg :=
  { syCfg ["dom".toList] with
    fetch := { (syCfg ["dom".toList]).fetch with
      codec := { (syCfg ["dom".toList]).fetch.codec with
        decode := fun b => if b = "A".toList then some (some cuPolicy) else none } } }

/-- What update `i` does with the policy. -/
def cuFill (i : Nat) : List SysAct :=
  ([.task i (.job 0 []), .task i (.merge 0 0), .task i (.merge 0 0), .task i (.job 0 [syRaw]),
    .task i (.job 0 []), .task i (.job 0 []), .task i (.job 0 []), .finish i] : List PdAct).map .pd

/-- The keys and the policy are loaded, and 200 seconds pass. -/
def cuPre : List SysAct := syKeys ++
  [.pd (.update [some cuDoc]), .pd (.task 0 (.job 0 [])), .fetcher "dom".toList (.send 0),
   .fetcher "dom".toList (.answer 0 (.answer 200 "t".toList "A".toList))] ++ cuFill 0 ++ [.tick 200000000000]

/-- One request that fails. -/
def cuTry : List SysAct := [.fetcher "dom".toList (.send 1), .fetcher "dom".toList (.answer 1 (.fail (.other "unreachable")))]

/-- Three requests fail, and the fetcher gives up. -/
def cuOut : List SysAct := [.pd (.update [some cuDoc]), .pd (.task 1 (.job 0 []))] ++ cuTry ++ cuTry ++ cuTry ++ [.fetcher "dom".toList (.giveUp 1)] ++ cuFill 1

def cuAll : List SysAct := cuPre ++ cuOut ++ (.auth (.call 0 syReq) :: syCall 0)

theorem cuOk : FxOk cuCfg cuAll := ⟨by decide +kernel, by decide +kernel, by decide +kernel⟩

def cuExec : SysExec cuCfg (auT 1500) := fxExec cuOk

theorem cuForetold : Foretold cuExec :=
  fxForetold cuOk (fun n hn => (by decide +kernel : ∀ n, n < cuAll.length + 1 → chForeB (fxStates cuCfg cuAll n) = true) n (by omega))

/-- Of the answers only the first one gives a policy. -/
theorem cuAnswers (n : Nat) (hn : cuPre.length ≤ n) (dom : Str) (k : Nat) (r : HttpResult) (h : fxAct cuAll n = .fetcher dom (.answer k r)) :
    r = .fail (.other "unreachable") := by
  have hall : ∀ n, n < cuAll.length → cuPre.length ≤ n → (match fxAct cuAll n with
      | .fetcher _ (.answer _ r) => decide (r = .fail (.other "unreachable")) | _ => true) = true := by decide +kernel
  by_cases hl : n < cuAll.length
  · have := hall n hl hn
    rw [h] at this
    simpa using this
  · have : fxAct cuAll n = .tick 0 := by simp [fxAct, List.getElem?_eq_none (Nat.le_of_not_lt hl)]
    rw [h] at this
    simp at this

theorem cuCut : CutOff cuExec cuPre.length := by
  intro dom n hn k r sp hact hs
  obtain rfl := cuAnswers n hn dom k r hact
  rcases hs with ⟨t, j, b, h1, _⟩ | ⟨j, e, b, c, i, t, h1, _⟩ <;> simp at h1

theorem cuNoNews : NoNews cuExec cuPre.length [cuDoc] := by
  refine cuCut.noNews rfl ?_ ?_ ?_
  · intro j dom d hj hd
    have h0 : j = 0 := by
      have := lt_of_getElem? hd
      simp at this
      omega
    subst h0
    obtain rfl : "dom".toList = dom := by simpa [cuCfg, syCfg] using hj
    obtain rfl : cuDoc = d := by simpa using hd
    obtain ⟨c, hc, hp⟩ := exists_of_map (o := ((fxStates cuCfg cuAll cuPre.length).fs "dom".toList).cache)
      (p := fun c => decide (docOf c.sp = .ok cuDoc)) (by decide +kernel)
    exact ⟨c, hc, docOf_iff.mp (by simpa using hp)⟩
  · intro d hd a ha
    rw [List.mem_singleton.mp hd] at ha
    have : a = syRaw := by simpa [cuDoc] using ha
    subst this
    decide
  · intro n i _ hact
    have := fxActs fxPlain rfl cuOk.plain n
    rw [show fxAct cuAll n = _ from hact] at this
    simp [fxPlain] at this

/-- When the update is called, the one called before has returned. -/
theorem cuHold : ∀ (i : Nat) (t : Task), (cuExec.state cuPre.length).pd.tasks[i]? = some t → t.isUpdate = true → t.ret ≠ none := by
  have hall : (cuExec.state cuPre.length).pd.tasks.all (fun t => decide (t.ret ≠ none)) = true := by decide +kernel
  intro i t ht _
  have := List.all_eq_true.mp hall t (List.mem_of_getElem? ht)
  simpa using this

theorem cuNoHook : ∀ n j f, cuExec.act n ≠ .pd (.hook j f) := by
  intro n j f hact
  have := fxActs fxPlain rfl cuOk.plain n
  rw [show fxAct cuAll n = _ from hact] at this
  simp [fxPlain] at this

theorem cuRegular : RegularFor asciiCase ([cuDoc].map some) "dom:role.admin".toList := by
  refine .inr ⟨0, cuDoc, rfl, ?_, ?_⟩
  · intro j d hj hd
    cases j with
    | zero => exact absurd rfl hj
    | succ j => simp at hd
  · intro a ha _
    have : a = syRaw := by simpa [cuDoc] using ha
    subst this
    refine ⟨fun b hb _ => ?_, fun hd => absurd hd (by decide)⟩
    have : b = syRaw := by simpa [cuDoc] using hb
    subst this
    exact ⟨rfl, rfl, rfl⟩

theorem cuAllowed : Allowed asciiCase (allAssertions ([cuDoc].map some)) "dom".toList "admin".toList "read".toList "/x".toList :=
  ⟨syRaw, by decide, applies_of rfl (by decide +kernel), by decide +kernel⟩

theorem chNoNews : NoNews chExec (chLen + 4) [chDoc] := by
  refine chNew.noNews (by omega) ?_
  intro j dom d hj hd
  have h0 : j = 0 := by
    have := lt_of_getElem? hd
    simp at this
    omega
  subst h0
  obtain rfl : chDom = dom := by simpa [chCfg, syCfg] using hj
  obtain rfl : chDoc = d := by simpa using hd
  obtain ⟨c, hc, hp⟩ := exists_of_map (o := ((chStates (chLen + 4)).fs chDom).cache)
    (p := fun c => decide (docOf c.sp = .ok chDoc)) (by decide +kernel)
  exact ⟨c, hc, docOf_iff.mp (by simpa using hp)⟩

theorem lpNoNews : NoNews lpExec.sys (chLen + 5) [chDoc] := by
  refine lpNew.noNews (by omega) ?_
  have : lpExec.sys.state (chLen + 5) = chExec.state (chLen + 4) := by rw [lpSys]; rfl
  rw [this]
  exact chNoNews.had

end Ex

/-- The policy expires 100 seconds after it was loaded, and 100 seconds later the next update is called, whose requests all fail. -/
example : Ex.cuCfg.auth.disablePolicyd = false ∧ SysFair Ex.cuExec ∧ UpdFair Ex.cuExec ∧ Foretold Ex.cuExec ∧ CutOff Ex.cuExec Ex.cuPre.length ∧
    NoNews Ex.cuExec Ex.cuPre.length [Ex.cuDoc] ∧
    (∀ (i : Nat) (t : Task), (Ex.cuExec.state Ex.cuPre.length).pd.tasks[i]? = some t → t.isUpdate = true → t.ret ≠ none) ∧
    Ex.cuExec.act Ex.cuPre.length = .pd (.update [some Ex.cuDoc]) ∧ (∀ d ∈ [Ex.cuDoc], d.expires ≤ (Ex.cuExec.state Ex.cuPre.length).auth.now) ∧
    RegularFor Ex.cuCfg.auth.U ([Ex.cuDoc].map some) "dom:role.admin".toList ∧
    Allowed Ex.cuCfg.auth.U (allAssertions ([Ex.cuDoc].map some)) "dom".toList "admin".toList "read".toList "/x".toList :=
  ⟨rfl, Ex.fxFair Ex.cuOk, Ex.fxUpdFair Ex.cuOk, Ex.cuForetold, Ex.cuCut, Ex.cuNoNews, Ex.cuHold, rfl, by
    intro d hd
    rw [List.mem_singleton.mp hd]
    decide +kernel, Ex.cuRegular, Ex.cuAllowed⟩

/-- So the expired policy is in force for ever. -/
example : ∃ M, ∀ m, M ≤ m → ∀ docs, InForce Ex.cuCfg (sysInit Ex.cuCfg (Ex.auT 1500)) (Ex.cuExec.hist m) (Ex.cuExec.state m) docs →
    docs = [some ⟨[[Ex.syRaw]], Ex.auT 1600⟩] := by
  obtain ⟨M, _, h⟩ := C81_in_force Ex.cuCfg (Ex.auT 1500) Ex.cuExec (Ex.fxUpdFair Ex.cuOk) Ex.cuForetold _ _ Ex.cuNoNews _ (Nat.le_refl _) Ex.cuHold _ rfl
  exact ⟨M, fun m hm docs hd => (h m hm).1.2 docs hd⟩

/-- The hypotheses of `C81_again` are met by an execution in which `Update` is called again and again. -/
example : UpdFair Ex.chExec ∧ Foretold Ex.chExec ∧ NoNews Ex.chExec (Ex.chLen + 4) [Ex.chDoc] ∧
    (∀ n, ∃ m fetch, n ≤ m ∧ Ex.chExec.act m = .pd (.update fetch)) := ⟨Ex.chFair, Ex.chForetold, Ex.chNoNews, Ex.chAgain⟩

/-- The hypotheses of `C81_started` are met by an execution in which the goroutine of `Start` calls `Update` again and again. -/
example : Ex.rpOn .policyd = true ∧ ChildFair Ex.rpExec .policyd ∧ ErrorsRead Ex.rpExec ∧ Uncancelled Ex.rpExec ∧ UpdFair Ex.rpExec.sys ∧
    Foretold Ex.rpExec.sys ∧ NoNews Ex.rpExec.sys (Ex.chLen + 5) [Ex.chDoc] := by
  rw [Ex.rp_sys]
  exact ⟨rfl, Ex.rp_fair, Ex.rp_read, Ex.rp_uncancelled, Ex.lpUpdFair, Ex.lpFore, Ex.lpNoNews⟩

/-- What one would expect instead: a call made when every policy that was ever received has expired is not granted. -/
def C81_statement : Prop :=
  ∀ (cfg : SysCfg) (now : Int) (h1 h2 : List SysAct) (s1 s : Sys) (i : Nat) (q : AReq) (p : Principal), 0 ≤ now → cfg.auth.disablePolicyd = false →
    sysRun cfg (sysInit cfg now) h1 = some s1 → sysRun cfg (sysInit cfg now) (h1 ++ .auth (.call i q) :: h2) = some s →
    (∀ dom sp d, PolicyReceived cfg (sysInit cfg now) (h1 ++ .auth (.call i q) :: h2) dom sp → PolicySays sp d → d.expires < s1.auth.now) →
    s.auth.calls i ≠ some ⟨q, .done (.ok p)⟩

/-- It is false: a call that is made 100 seconds after the only policy has expired is granted by that policy. -/
theorem C81_refuted : ¬ C81_statement := by
  intro hst
  obtain ⟨s1, hs1, hn⟩ := Ex.exists_of_map (o := sysRun Ex.cuCfg (sysInit Ex.cuCfg (Ex.auT 1500)) (Ex.cuPre ++ Ex.cuOut))
    (p := fun s => decide (Ex.auT 1600 < s.auth.now)) (by decide +kernel)
  obtain ⟨s, hs, hp⟩ := Ex.exists_of_map (o := sysRun Ex.cuCfg (sysInit Ex.cuCfg (Ex.auT 1500)) Ex.cuAll)
    (p := fun s => decide (Ex.doneOk s.auth 0 Ex.syReq = some Ex.syPrincipal)) (by decide +kernel)
  refine hst Ex.cuCfg (Ex.auT 1500) (Ex.cuPre ++ Ex.cuOut) (Ex.syCall 0) s1 s 0 Ex.syReq Ex.syPrincipal (by decide) rfl hs1 hs ?_ (Ex.doneOk_iff (by simpa using hp))
  rintro dom sp d ⟨pre, j, eTag, body, post, s2, _, _, hdec, _⟩ hsays
  have hsp : sp = Ex.cuPolicy := by
    simp only [Ex.cuCfg] at hdec
    split at hdec
    · simpa using hdec.symm
    · simp at hdec
  subst hsp
  have : docOf Ex.cuPolicy = .ok Ex.cuDoc := by decide +kernel
  rw [← docOf_iff, this] at hsays
  simp only [Res.ok.injEq] at hsays
  subst hsays
  simpa [Ex.cuDoc] using hn

end Athenz
