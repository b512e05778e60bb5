import Verif.Spec.Paced
import Verif.Spec.Stale
import Verif.Props.Pace
import Verif.Props.Withdraw
import Verif.Props.CutOff

/-! # C101: how long it takes in the assembled authorizer until new policies decide -/

namespace Athenz
open Spec

namespace PacedP

variable {cfg : SysCfg} {now : Int} {x : SysExec cfg now}

theorem now_mono (x : SysExec cfg now) {n m : Nat} (h : n ≤ m) : (x.state n).auth.now ≤ (x.state m).auth.now := sysRun_now (SysExec.runFrom x h)

/-- A later time is a later step. -/
theorem later {n m : Nat} (h : (x.state n).auth.now < (x.state m).auth.now) : n ≤ m := by
  refine Classical.byContradiction fun hlt => ?_
  have := now_mono x (show m ≤ n by omega)
  omega

/-- Every update was called. -/
theorem born (x : SysExec cfg now) : ∀ (m i : Nat) (t : Task), (x.state m).pd.tasks[i]? = some t → t.isUpdate = true →
    ∃ n fetch, n < m ∧ x.act n = .pd (.update fetch) ∧ (x.state n).pd.tasks.length = i := by
  intro m
  induction m with
  | zero =>
    intro i t ht
    rw [x.init] at ht
    simp [sysInit, pdInit] at ht
  | succ m ih =>
    intro i t ht hu
    have old : ∀ t0, (x.state m).pd.tasks[i]? = some t0 → ∃ n fetch, n < m + 1 ∧ x.act n = .pd (.update fetch) ∧ (x.state n).pd.tasks.length = i := by
      intro t0 h0
      obtain ⟨t', h1, h2, _⟩ := ret_stays x (Nat.le_succ m) h0
      rw [ht] at h1
      obtain rfl := Option.some.inj h1
      obtain ⟨n, fetch, g1, g2, g3⟩ := ih i t0 h0 (by rw [← h2]; exact hu)
      exact ⟨n, fetch, by omega, g2, g3⟩
    rcases sysStep_pd (x.next m) with ⟨k, hk⟩ | ⟨b, hb, hab⟩
    · rw [hk] at ht
      exact old t ht
    · rcases pdStep_newTask hb ht with ⟨t0, h0⟩ | ⟨rfl, _, ⟨fetch, rfl, _⟩ | ⟨n, f, _, hf, _⟩⟩
      · exact old t0 h0
      · rcases hab with hab | ⟨q, hq⟩
        · exact ⟨m, fetch, by omega, hab, rfl⟩
        · cases hq
      · rw [hu] at hf; cases hf

variable {pace : PaceCfg} {env : Nat → Int → TFetch} {pick : Nat → Bool} {T : Int} {call done : Nat → Nat}

/-- One after the other. -/
theorem ordered (hp : 0 < pace.period) (hx : PacedUntil x (paceUpd pace env pick) T call done) {k k' : Nat} (h : k ≤ k')
    (hk : (paceUpd pace env pick k').start ≤ T) : call k ≤ call k' ∧ (k < k' → done k ≤ call k') := by
  induction h with
  | refl => exact ⟨Nat.le_refl _, fun h => absurd h (Nat.lt_irrefl _)⟩
  | @step m hm ih =>
    have hg := ((C94_gap pace env pick hp).2 m).1
    have h0 : (paceUpd pace env pick m).start ≤ stops (paceUpd pace env pick m) := by unfold stops; omega
    simp only [Nat.succ_eq_add_one] at hk ⊢
    have hn := hx.next m hk
    have ho := hx.order m (by omega)
    obtain ⟨h1, h2⟩ := ih (by omega)
    refine ⟨by omega, fun _ => ?_⟩
    by_cases he : k = m
    · subst he; exact hn
    · have := h2 (by omega)
      omega

/-- When an update is called, all earlier ones have returned. -/
theorem hold (hp : 0 < pace.period) (hx : PacedUntil x (paceUpd pace env pick) T call done) {k : Nat} (hk : (paceUpd pace env pick k).start ≤ T)
    (i : Nat) (t : Task) (ht : (x.state (call k)).pd.tasks[i]? = some t)
    (hu : t.isUpdate = true) : t.ret ≠ none := by
  obtain ⟨n, fetch, h1, h2, h3⟩ := born x _ i t ht hu
  have stay : ∀ {m : Nat} {t0 : Task}, m ≤ call k → (x.state m).pd.tasks[i]? = some t0 → t0.ret ≠ none → t.ret ≠ none := by
    intro m t0 hm h0 hr
    obtain ⟨t', g1, _, g3⟩ := ret_stays x hm h0
    rw [ht] at g1
    obtain rfl := Option.some.inj g1
    rw [g3 hr]; exact hr
  have hnow := (hx.called k hk).2
  rcases hx.only n fetch h2 (by have := now_mono x (Nat.le_of_lt h1); omega) with ⟨k', hk', rfl⟩ | ⟨t0, g1, g2⟩
  · have hlt : k' < k := by
      refine Classical.byContradiction fun hge => ?_
      have := (ordered hp hx (show k ≤ k' by omega) hk').1
      omega
    obtain ⟨o1, o2⟩ := ordered hp hx (Nat.le_of_lt hlt) hk
    have hs : stops (paceUpd pace env pick k') ≤ T := by
      have := ((C94_gap pace env pick hp).2 k').1
      have := PaceP.start_mono (env := env) (pick := pick) hp (show k' + 1 ≤ k by omega)
      omega
    obtain ⟨_, t0, g1, g2⟩ := hx.returned k' hs
    rw [h3] at g1
    exact stay (o2 hlt) g1 g2
  · rw [h3] at g1
    exact stay (ordered hp hx (Nat.zero_le k) hk).1 g1 g2

/-- A call that there is has begun. -/
theorem begun_of_call {h : List SysAct} {s : Sys} (hr : sysRun cfg (sysInit cfg now) h = some s) {j : Nat} {c : Call}
    (hc : s.auth.calls j = some c) : ∃ tb, .begun j tb ∈ s.auth.log ∧ tb ≤ s.auth.now := by
  refine sysRun_ind (fun _ s => ∀ c, s.auth.calls j = some c → ∃ tb, .begun j tb ∈ s.auth.log ∧ tb ≤ s.auth.now)
    (by simp [sysInit, aInit]) ?_ h s hr c hc
  intro h s a s' ih hr hs c hc
  have hnow := sysStep_now hs
  have hlog := (sysStep_log hs).1
  have keep : (∃ tb, AEvent.begun j tb ∈ s.auth.log ∧ tb ≤ s.auth.now) → ∃ tb, .begun j tb ∈ s'.auth.log ∧ tb ≤ s'.auth.now :=
    fun ⟨tb, g1, g2⟩ => ⟨tb, hlog _ g1, by omega⟩
  cases hcs : s.auth.calls j with
  | some c0 => exact keep (ih c0 hcs)
  | none =>
    rcases sysStep_auth hs with ⟨h1, _⟩ | ⟨b, _, hst, _⟩
    · rw [h1, hcs] at hc; cases hc
    · have heff := aStep_effect hst
      have hle : s.auth.now ≤ s'.auth.now := hnow
      generalize s'.auth = sx at heff hc hle
      cases heff <;>
        simp only [AState.setPc, AState.note, AState.setSess] at hc hle ⊢ <;>
        first
        | (rw [hcs] at hc; cases hc)
        | (split at hc
           · rename_i he
             subst he
             first
             | exact ⟨_, List.mem_append.mpr (.inr (List.mem_singleton.mpr rfl)), hle⟩
             | (rename_i h _; rw [hcs] at h; cases h)
           · rw [hcs] at hc; cases hc)

variable {U : Nat} {N : Nat} {D : List PolicyDoc}

/-- What is in force once the update that begins after `t` is over. -/
theorem in_force (hR : 0 ≤ cfg.fetch.retryAttempts) (hD : NewPolicies x N D) {t : Int} (hN : ∀ n, t ≤ (x.state n).auth.now → N ≤ n)
    (hp : 0 < pace.period) (ht : pace.t0 ≤ t) (hU : Takes U env) (hx : PacedUntil x (paceUpd pace env pick) T call done)
    (hT : t + max pace.period (U + pace.delay.toNat) + U ≤ T) :
    ∃ M, N ≤ M ∧ (x.state M).auth.now ≤ t + max pace.period (U + pace.delay.toNat) + U ∧ ∀ m, M ≤ m →
      (InForce cfg (sysInit cfg now) (x.hist m) (x.state m) (D.map some) ∧
        ∀ docs, InForce cfg (sysInit cfg now) (x.hist m) (x.state m) docs → docs = D.map some) ∧
      InForceSince cfg (sysInit cfg now) (x.hist m) (x.state m) (x.state N).auth.now ∧
      ∃ i, LastUpdate (x.hist m) (x.state m) i ∧ (x.state N).pd.tasks.length ≤ i := by
  obtain ⟨k, h1, _, h3⟩ := C94_begins pace env pick U hp hU t ht
  have hs : (paceUpd pace env pick k).start ≤ stops (paceUpd pace env pick k) := by unfold stops; omega
  have hcall := hx.called k (by omega)
  have hN' : N ≤ call k := hN _ (by rw [hcall.2]; exact h1)
  have hle := hx.order k (by omega)
  obtain ⟨hnow, t', g1, g2⟩ := hx.returned k (by omega)
  refine ⟨done k, by omega, by omega, fun m hm => ?_⟩
  exact yields_in_force_at cfg now x N D (hD.yields hR) (call k) hN' (fun i t _ => hold hp hx (by omega) i t) (done k) _ t' hle (Nat.le_refl _) g1 g2
    m hm

end PacedP

/-- **C101**.  The servers give the policies `D` from the time `t` on, and the updates are made as the policy daemon makes them.  Then, at the
latest a period (or an update and a pause) and an update after `t`, exactly these policies are in force, and stay so. -/
theorem C101_in_force (cfg : SysCfg) (now : Int) (hR : 0 ≤ cfg.fetch.retryAttempts) (x : SysExec cfg now) (N : Nat) (D : List PolicyDoc)
    (hD : NewPolicies x N D) (t : Int) (hN : ∀ n, t ≤ (x.state n).auth.now → N ≤ n) (pace : PaceCfg) (env : Nat → Int → TFetch) (pick : Nat → Bool)
    (U : Nat) (hp : 0 < pace.period) (ht : pace.t0 ≤ t) (hU : Takes U env) (T : Int) (call done : Nat → Nat)
    (hx : PacedUntil x (paceUpd pace env pick) T call done) (hT : t + max pace.period (U + pace.delay.toNat) + U ≤ T) (m : Nat)
    (hm : t + max pace.period (U + pace.delay.toNat) + U < (x.state m).auth.now) (docs : List (Option PolicyDoc)) :
    InForce cfg (sysInit cfg now) (x.hist m) (x.state m) docs ↔ docs = D.map some := by
  obtain ⟨M, _, h2, h3⟩ := PacedP.in_force hR hD hN hp ht hU hx hT
  have := (h3 m (PacedP.later (x := x) (by omega))).1
  exact ⟨this.2 docs, fun h => by rw [h]; exact this.1⟩

/-- **C101**.  A check that begins later than that decides as `D` says, where `D` is regular in the sense of C68.  Missing: policies that are not
regular (`C101_refuted`). -/
theorem C101_check_partial (cfg : SysCfg) (now : Int) (hnow : 0 ≤ now) (hR : 0 ≤ cfg.fetch.retryAttempts) (x : SysExec cfg now) (N : Nat)
    (D : List PolicyDoc) (hD : NewPolicies x N D) (t : Int) (hN : ∀ n, t ≤ (x.state n).auth.now → N ≤ n) (pace : PaceCfg)
    (env : Nat → Int → TFetch) (pick : Nat → Bool) (U : Nat) (hp : 0 < pace.period) (ht : pace.t0 ≤ t) (hU : Takes U env) (T : Int)
    (call done : Nat → Nat) (hx : PacedUntil x (paceUpd pace env pick) T call done)
    (hT : t + max pace.period (U + pace.delay.toNat) + U ≤ T) (n m k : Nat) (c : Chk) (r : Res (List Str))
    (hn : t + max pace.period (U + pace.delay.toNat) + U < (x.state n).auth.now) (hk : (x.state n).pd.checks.length ≤ k)
    (hc : (x.state m).pd.checks[k]? = some c) (hret : c.cs.coll = .ret r)
    (hreg : ∀ role ∈ c.q.roles, RegularAt cfg.auth.U (D.map some) now (x.state m).auth.now (x.state m).auth.now
      (c.q.domain ++ ":role.".toList ++ role)) :
    Decision cfg.auth.U (allAssertions (D.map some)) c.q r := by
  obtain ⟨M, _, h2, hin⟩ := PacedP.in_force hR hD hN hp ht hU hx hT
  obtain ⟨h1, h2, s1, docs, hh, hr1, hdocs, _, hdec⟩ := C68_check_partial cfg now hnow (x.hist m) (x.state m)
    (SysExec.run x m) k c r hc hret
  obtain ⟨e1, hp1, hp2, _⟩ := hist_split hh
  have hge : M ≤ h1.length := Nat.le_trans (PacedP.later (x := x) (by omega)) (load_after x hh hk)
  rw [e1, SysExec.run x] at hr1
  obtain rfl := Option.some.inj hr1
  rw [e1] at hdocs
  simp only [SysExec.hist, List.length_map, List.length_range] at hdocs
  have := (hin h1.length hge).1.2 docs hdocs
  subst this
  refine hdec hreg ?_
  have := yields_alike (hD.yields hR) (m := m) (hin h1.length hge).2.2 (K := fun k => ∃ role ∈ c.q.roles, k = c.q.domain ++ ":role.".toList ++ role)
    (by rintro _ ⟨role, hr, rfl⟩; exact hreg role hr)
  rw [e1]
  simpa [SysExec.hist] using this.imp fun d h role hr => h _ ⟨role, hr, rfl⟩

/-- **C101**.  A call that begins when also the time in which calls store their results and the lifetime of cached results have passed is granted
only what `D` allows.  Missing: as above. -/
theorem C101_withdrawn_partial (cfg : SysCfg) (now : Int) (h0 : 0 ≤ now) (hpol : cfg.auth.disablePolicyd = false) (hexp : 0 < cfg.auth.cacheExp)
    (hR : 0 ≤ cfg.fetch.retryAttempts) (x : SysExec cfg now) (N : Nat)
    (D : List PolicyDoc) (hD : NewPolicies x N D) (t : Int) (hN : ∀ n, t ≤ (x.state n).auth.now → N ≤ n) (pace : PaceCfg)
    (env : Nat → Int → TFetch) (pick : Nat → Bool) (U : Nat) (hp : 0 < pace.period) (ht : pace.t0 ≤ t) (hU : Takes U env) (T : Int)
    (call done : Nat → Nat) (hx : PacedUntil x (paceUpd pace env pick) T call done)
    (hT : t + max pace.period (U + pace.delay.toNat) + U ≤ T) (m : Nat) (L : Nat) (hL : StoresWithin L (x.state m).auth.log)
    (hbig : (x.state m).auth.now + cfg.auth.cacheExp < 2 ^ 63) (i : Nat) (q : AReq) (p : Principal)
    (hlate : ∀ tb, .begun i tb ∈ (x.state m).auth.log → t + max pace.period (U + pace.delay.toNat) + U + L + cfg.auth.cacheExp < tb)
    (hc : (x.state m).auth.calls i = some ⟨q, .done (.ok p)⟩)
    (hreg : ∀ role ∈ p.roles, RegularAt cfg.auth.U (D.map some) now (x.state m).auth.now (x.state m).auth.now
      (p.domain ++ ":role.".toList ++ role)) :
    ∃ q' seed act res, cacheKey cfg.auth q' = cacheKey cfg.auth q ∧ TokenAccepted cfg (sysInit cfg now) (x.hist m) q' p ∧
      Translates cfg.auth seed p.domain q' act res ∧
      Decision cfg.auth.U (allAssertions (D.map some)) ⟨p.domain, p.roles, act, cfg.auth.resourcePrefix ++ res⟩ (.ok p.authorizedRoles) := by
  obtain ⟨M, _, hMt, hin⟩ := PacedP.in_force hR hD hN hp ht hU hx hT
  have split : ∀ {h1 h2 : List SysAct}, x.hist m = h1 ++ h2 → h1 = x.hist h1.length ∧ h1.length ≤ m := by
    intro h1 h2 he
    have := congrArg (List.take h1.length) he
    rw [List.take_append_of_le_length (Nat.le_refl _), List.take_length] at this
    have hle : h1.length ≤ m := by
      have := congrArg List.length he
      simp only [SysExec.hist, List.length_map, List.length_range, List.length_append] at this
      omega
    refine ⟨?_, hle⟩
    conv => lhs; rw [← this]
    simp only [SysExec.hist, ← List.map_take, List.take_range, Nat.min_eq_left hle]
  -- what a call has noted by step `M` it has noted by step `m`
  have logs : ∀ {e : AEvent} {m}, M ≤ m → e ∈ (x.state M).auth.log → e ∈ (x.state m).auth.log := by
    intro e m hm he
    clear hL hbig hlate hc hreg split
    induction hm with
    | refl => exact he
    | step _ ih => exact (sysStep_log (x.next _)).1 _ ih
  have key : ∀ j q' h1 docs', (M ≤ m → (x.state M).auth.calls j = none) → M ≤ m → cacheKey cfg.auth q' = cacheKey cfg.auth q →
      DecidedBy cfg now (x.hist m) (x.state m) j q' p h1 docs' →
      ∃ q' seed act res, cacheKey cfg.auth q' = cacheKey cfg.auth q ∧ TokenAccepted cfg (sysInit cfg now) (x.hist m) q' p ∧
        Translates cfg.auth seed p.domain q' act res ∧
        Decision cfg.auth.U (allAssertions (D.map some)) ⟨p.domain, p.roles, act, cfg.auth.resourcePrefix ++ res⟩ (.ok p.authorizedRoles) := by
    intro j q' h1 docs' hj hMm hk hd
    obtain ⟨htok, h2, sx, pc, seed, act, res, he, hxr, hjx, _, hdocs, htr, hdec⟩ := hd
    obtain ⟨e1, hle⟩ := split he
    rw [e1, SysExec.run x] at hxr
    obtain rfl := Option.some.inj hxr
    have hge : M ≤ h1.length := by
      refine Classical.byContradiction fun hlt => ?_
      obtain ⟨pc', h3, _⟩ := sysRun_calls (SysExec.runFrom x (show h1.length ≤ M by omega)) hjx
      rw [hj hMm] at h3; simp at h3
    rw [e1] at hdocs
    simp only [SysExec.hist, List.length_map, List.length_range] at hdocs
    have := (hin h1.length hge).1.2 docs' hdocs
    subst this
    refine ⟨q', seed, act, res, hk, htok, htr, hdec hreg ?_⟩
    have := yields_alike (hD.yields hR) (m := m) (hin h1.length hge).2.2
      (K := fun k => ∃ role ∈ p.roles, k = p.domain ++ ":role.".toList ++ role) (by rintro _ ⟨role, hr, rfl⟩; exact hreg role hr)
    rw [e1]
    simpa [SysExec.hist] using this.imp fun d h role hr => h _ ⟨role, hr, rfl⟩
  have hpast := log_past (SysExec.run x m)
  obtain ⟨tb0, hb0, hb0'⟩ := PacedP.begun_of_call (SysExec.run x m) hc
  have hMm : M ≤ m := PacedP.later (x := x) (by have := hlate tb0 hb0; omega)
  -- a call that there was at `M` began by then
  have none_ : ∀ j, (∀ tb, .begun j tb ∈ (x.state m).auth.log → (x.state M).auth.now < tb) → (x.state M).auth.calls j = none := by
    intro j hj
    cases hcj : (x.state M).auth.calls j with
    | none => rfl
    | some c =>
      obtain ⟨tb, g1, g2⟩ := PacedP.begun_of_call (SysExec.run x M) hcj
      have := hj tb (logs hMm g1)
      omega
  rcases C73_grant_partial cfg now h0 hpol _ _ (SysExec.run x m) i q p hc with ⟨h1, docs', hd⟩ |
    ⟨j, q', tb, th, ts, h1, docs', hb, hle, _, hst, hfr, hcj, hk, hd⟩
  · exact key i q h1 docs' (fun _ => none_ i fun tb h => by have := hlate tb h; omega) hMm rfl hd
  · refine key j q' h1 docs' (fun _ => none_ j fun tbj hj => ?_) hMm hk hd
    have h1 := hL j tbj ts _ _ hj hst
    have h2 := hlate tb hb
    have h3 := hpast.1 _ _ _ _ hst
    have h4 := hfr.2 hexp (by omega)
    omega

namespace Ex

/-- What the old policy allows. -/
def paRaw : RawAssertion := ⟨"dom:role.admin".toList, "write".toList, "dom:/x".toList, "ALLOW".toList⟩

def paOld : SignedPolicy :=
  { data := some { policyData := some ⟨"dom".toList, [some ⟨[some paRaw]⟩]⟩, zmsSignature := "m".toList, zmsKeyId := "0".toList,
                   expires := some (auT 5000) },
    signature := "z".toList, keyId := "1".toList }

def paDoc : PolicyDoc := ⟨[[syRaw]], auT 5000⟩

def paCfg : SysCfg :=
  { syCfg ["dom".toList] with
    fetch := { (syCfg ["dom".toList]).fetch with
      codec := { (syCfg ["dom".toList]).fetch.codec with
        decode := fun b => if b = "O".toList then some (some paOld) else if b = "A".toList then some (some syPolicy) else none } } }

def paFill (i : Nat) (a : RawAssertion) : List SysAct :=
  ([.task i (.job 0 []), .task i (.merge 0 0), .task i (.merge 0 0), .task i (.job 0 [a]),
    .task i (.job 0 []), .task i (.job 0 []), .task i (.job 0 []), .finish i] : List PdAct).map .pd

/-- `Init` loads the keys and the old policy, and 50 seconds pass. -/
def paPre : List SysAct := syKeys ++
  [.pd (.update [some ⟨[[paRaw]], auT 5000⟩]), .pd (.task 0 (.job 0 [])), .fetcher "dom".toList (.send 0),
   .fetcher "dom".toList (.answer 0 (.answer 200 "o".toList "O".toList))] ++ paFill 0 paRaw ++ [.tick 50000000000]

/-- Another 50 seconds later the new policy is loaded. -/
def paUpd : List SysAct :=
  [.pd (.update [some paDoc]), .pd (.task 1 (.job 0 [])), .fetcher "dom".toList (.send 1), .tick 1,
   .fetcher "dom".toList (.answer 1 (.answer 200 "t".toList "A".toList))] ++ paFill 1 syRaw

def paMid : List SysAct := paPre ++ [.tick 50000000000] ++ paUpd

/-- 200 seconds later there is a call. -/
def paAll : List SysAct := paMid ++ [.tick 200000000000] ++ (.auth (.call 0 syReq) :: syCall 0)

theorem paOk : FxOk paCfg paAll := ⟨by decide +kernel, by decide +kernel, by decide +kernel⟩

def paExec : SysExec paCfg (auT 1500) := fxExec paOk

/-- The answer gives the policy `sp`. -/
def paGives (cfg : SysCfg) (sp : SignedPolicy) (s : Sys) : SysAct → Bool
  | .fetcher dom (.answer j (.answer st _ b)) => decide (st = 200) &&
    (match (s.fs dom).calls[j]? with | some c => (match c.pc with | .sent _ _ => true | _ => false) | none => false) &&
    decide (cfg.fetch.codec.decode b = some (some sp)) && decide (verifyPolicy cfg.fetch.codec (s.fs dom).keys (s.fs dom).now (some sp) = .ok ())
  | .fetcher _ (.answer _ _) => false
  | _ => true

theorem paNew {cfg : SysCfg} {acts : List SysAct} (h : FxOk cfg acts) {dom : Str} (hdom : cfg.domains = [dom]) {N : Nat} {sp : SignedPolicy}
    {d : PolicyDoc} (hd : docOf sp = .ok d) (hgood : ∀ a ∈ d.policies.flatten, ':' ∈ a.resource)
    (hg : ∀ n, n < acts.length → (n < N || paGives cfg sp (fxStates cfg acts n) (fxAct acts n)) = true) : NewPolicies (fxExec h) N [d] := by
  refine ⟨by rw [hdom]; rfl, ?_, ?_, ?_⟩
  · intro j dom' d' _ hd' n hn k r hact
    obtain rfl : d = d' := by
      cases j with
      | zero => simpa using hd'
      | succ j => simp at hd'
    have hb : paGives cfg sp (fxStates cfg acts n) (fxAct acts n) = true := by
      by_cases hl : n < acts.length
      · simpa [Nat.not_lt.mpr hn] using hg n hl
      · have : fxAct acts n = .tick 0 := by simp [fxAct, List.getElem?_eq_none (Nat.le_of_not_lt hl)]
        rw [this]; rfl
    rw [show fxAct acts n = _ from hact] at hb
    cases r with
    | fail e => simp [paGives] at hb
    | answer st e b =>
      simp only [paGives, Bool.and_eq_true, decide_eq_true_eq] at hb
      obtain ⟨⟨⟨rfl, hb1⟩, hb2⟩, hb3⟩ := hb
      split at hb1
      · rename_i c hc
        split at hb1
        · rename_i a tp hpc
          exact ⟨sp, .inl ⟨e, k, b, rfl, ⟨c, a, tp, hc, hpc⟩, hb2, verifyPolicy_ok.mp hb3⟩, docOf_iff.mp hd⟩
        · simp at hb1
      · simp at hb1
  · intro d' hd' a ha
    rw [List.mem_singleton.mp hd'] at ha
    exact hgood a ha
  · intro n i _ hact
    have := fxActs fxPlain rfl h.plain n
    rw [show fxAct acts n = _ from hact] at this
    simp [fxPlain] at this

/-- A period of 100 seconds, and no pause. -/
def paPace : PaceCfg := ⟨100000000000, 0, false, auT 1500⟩

/-- Every update takes one nanosecond. -/
def paEnv : Nat → Int → TFetch := fun _ _ => ⟨1, true⟩

theorem paTakes : Takes 1 paEnv := fun _ _ => ⟨Nat.le_refl _, Nat.le_refl _⟩

/-- What is checked by evaluation: at 1600 seconds an update is called in step `c`, which has returned one nanosecond later, before step `d`; the
only other one was called in step `i` and has returned before. -/
structure PaOk (cfg : SysCfg) (acts : List SysAct) (i c d : Nat) : Prop where
  le : c ≤ d
  act : (match fxAct acts c with | .pd (.update _) => true | _ => false) = true
  begins : (fxStates cfg acts c).auth.now = auT 1600
  ends : (fxStates cfg acts d).auth.now = auT 1600 + 1
  this : (((fxStates cfg acts d).pd.tasks[(fxStates cfg acts c).pd.tasks.length]?).map fun t => decide (t.ret ≠ none)) = some true
  init : (((fxStates cfg acts c).pd.tasks[(fxStates cfg acts i).pd.tasks.length]?).map fun t => decide (t.ret ≠ none)) = some true
  only : ∀ n, n < acts.length → (match fxAct acts n with | .pd (.update _) => n == i || n == c | _ => true) = true

theorem paPaced {cfg : SysCfg} {acts : List SysAct} (h : FxOk cfg acts) {i c d : Nat} (hk : PaOk cfg acts i c d) :
    PacedUntil (fxExec h) (paceUpd paPace paEnv (fun _ => false)) (auT 1650 + 1) (fun _ => c) (fun _ => d) := by
  have h0 : (paceUpd paPace paEnv (fun _ => false) 0).start = auT 1600 ∧ stops (paceUpd paPace paEnv (fun _ => false) 0) = auT 1600 + 1 := by
    decide +kernel
  have h1 : (paceUpd paPace paEnv (fun _ => false) 1).start = auT 1700 := by decide +kernel
  have late : ∀ k, (paceUpd paPace paEnv (fun _ => false) (k + 1)).start ≤ auT 1650 + 1 → False := by
    intro k hk
    have := PaceP.start_mono (cfg := paPace) (env := paEnv) (pick := fun _ => false) (by decide) (show 1 ≤ k + 1 by omega)
    rw [h1] at this
    have : auT 1650 + 1 < auT 1700 := by decide
    omega
  have late' : ∀ k, stops (paceUpd paPace paEnv (fun _ => false) (k + 1)) ≤ auT 1650 + 1 → False := by
    intro k hk
    refine late k ?_
    unfold stops at hk
    omega
  have some_ : ∀ {o : Option Task}, o.map (fun t => decide (t.ret ≠ none)) = some true → ∃ t, o = some t ∧ t.ret ≠ none := by
    intro o ho
    cases o with
    | none => simp at ho
    | some t => exact ⟨t, rfl, by simpa using ho⟩
  refine ⟨fun k _ => hk.le, fun k hk => (late k hk).elim, ?_, ?_, ?_⟩
  · intro k hs
    cases k with
    | succ k => exact (late k hs).elim
    | zero =>
      rw [h0.1]
      refine ⟨?_, hk.begins⟩
      have := hk.act
      split at this
      · rename_i fetch hf; exact ⟨fetch, hf⟩
      · simp at this
  · intro k hs
    cases k with
    | succ k => exact (late' k hs).elim
    | zero =>
      rw [h0.2]
      exact ⟨hk.ends, some_ hk.this⟩
  · intro n fetch hact _
    have hn : n = i ∨ n = c := by
      by_cases hl : n < acts.length
      · have := hk.only n hl
        rw [show fxAct acts n = _ from hact] at this
        simpa using this
      · have : fxAct acts n = .tick 0 := by simp [fxAct, List.getElem?_eq_none (Nat.le_of_not_lt hl)]
        rw [show fxAct acts n = _ from hact] at this
        simp at this
    rcases hn with rfl | rfl
    · exact .inr (some_ hk.init)
    · exact .inl ⟨0, by rw [h0.1]; decide, rfl⟩

theorem paTime {cfg : SysCfg} {acts : List SysAct} (h : FxOk cfg acts) {N : Nat} (hall : ∀ n, n < N → (fxStates cfg acts n).auth.now < auT 1550)
    (n : Nat) (hn : auT 1550 ≤ ((fxExec h).state n).auth.now) : N ≤ n := by
  refine Classical.byContradiction fun hlt => ?_
  have : ((fxExec h).state n).auth.now < auT 1550 := hall n (by omega)
  omega

theorem paPacedOk : PaOk paCfg paAll syKeys.length (paPre.length + 1) paMid.length :=
  ⟨by decide +kernel, by decide +kernel, by decide +kernel, by decide +kernel, by decide +kernel, by decide +kernel, by decide +kernel⟩

/-- When it began, and when it stored. -/
def paLog : AEvent → Bool
  | .begun _ tb => decide (tb = auT 1800 + 1)
  | .stored _ ts _ _ => decide (ts = auT 1800 + 1)
  | _ => true

theorem paLogs : ∀ e ∈ (paExec.state paAll.length).auth.log, paLog e = true := by
  have : (paExec.state paAll.length).auth.log.all paLog = true := by decide +kernel
  intro e he
  exact List.all_eq_true.mp this e he

theorem paRegular : RegularAt asciiCase ([paDoc].map some) (auT 1500) (paExec.state paAll.length).auth.now (paExec.state paAll.length).auth.now
    "dom:role.admin".toList := by
  have hn : (paExec.state paAll.length).auth.now = auT 1800 + 1 := by decide +kernel
  rw [hn]
  refine .inr ⟨0, paDoc, ⟨rfl, ?_, .inr (by decide)⟩, ?_⟩
  · intro j d hj hd
    match j with
    | 0 => exact absurd rfl hj
    | n + 1 => simp at hd
  · intro a ha _
    have : a = syRaw := by simpa [paDoc] using ha
    subst this
    refine ⟨fun b hb _ => ?_, fun hd => absurd hd (by decide)⟩
    have : b = syRaw := by simpa [paDoc] using hb
    subst this
    exact ⟨rfl, rfl, rfl⟩

end Ex

/-- Half a period before the next update the policies change; the call that begins 200 seconds after that update is granted by the new ones. -/
example : 0 < Ex.paCfg.auth.cacheExp ∧ 0 ≤ Ex.paCfg.fetch.retryAttempts ∧ NewPolicies Ex.paExec Ex.paPre.length [Ex.paDoc] ∧
    (∀ n, Ex.auT 1550 ≤ (Ex.paExec.state n).auth.now → Ex.paPre.length ≤ n) ∧ Takes 1 Ex.paEnv ∧
    (∃ call done, PacedUntil Ex.paExec (paceUpd Ex.paPace Ex.paEnv fun _ => false) (Ex.auT 1650 + 1) call done) ∧
    Ex.auT 1550 + max Ex.paPace.period ((1 : Nat) + Ex.paPace.delay.toNat) + (1 : Nat) ≤ Ex.auT 1650 + 1 ∧
    StoresWithin 0 (Ex.paExec.state Ex.paAll.length).auth.log ∧
    (∀ tb, .begun 0 tb ∈ (Ex.paExec.state Ex.paAll.length).auth.log →
      Ex.auT 1550 + max Ex.paPace.period ((1 : Nat) + Ex.paPace.delay.toNat) + (1 : Nat) + 0 + Ex.paCfg.auth.cacheExp < tb) ∧
    (Ex.paExec.state Ex.paAll.length).auth.calls 0 = some ⟨Ex.syReq, .done (.ok Ex.syPrincipal)⟩ ∧
    ∀ role ∈ Ex.syPrincipal.roles, RegularAt Ex.paCfg.auth.U ([Ex.paDoc].map some) (Ex.auT 1500) (Ex.paExec.state Ex.paAll.length).auth.now
      (Ex.paExec.state Ex.paAll.length).auth.now (Ex.syPrincipal.domain ++ ":role.".toList ++ role) := by
  refine ⟨by decide, by decide,
    Ex.paNew Ex.paOk (dom := "dom".toList) (sp := Ex.syPolicy) rfl (by decide +kernel) (by decide) (by decide +kernel),
    Ex.paTime Ex.paOk (by decide +kernel), Ex.paTakes, ⟨_, _, Ex.paPaced Ex.paOk Ex.paPacedOk⟩, by decide, ?_, ?_, ?_, ?_⟩
  · intro j tb ts k p h1 h2
    have g1 := Ex.paLogs _ h1
    have g2 := Ex.paLogs _ h2
    simp only [Ex.paLog, decide_eq_true_eq] at g1 g2
    omega
  · intro tb h
    have := Ex.paLogs _ h
    simp only [Ex.paLog, decide_eq_true_eq] at this
    rw [this]
    decide
  · exact Ex.doneOk_iff (by decide +kernel)
  · intro role hr
    have : role = "admin".toList := by simpa [Ex.syPrincipal] using hr
    subst this
    exact Ex.paRegular

/-- The full statement of the part about checks: policies that have not expired, regular or not. -/
def C101_statement : Prop :=
  ∀ (cfg : SysCfg) (now : Int) (x : SysExec cfg now) (N : Nat) (D : List PolicyDoc) (t : Int) (pace : PaceCfg) (env : Nat → Int → TFetch)
    (pick : Nat → Bool) (U : Nat) (T : Int) (call done : Nat → Nat), 0 ≤ now → 0 ≤ cfg.fetch.retryAttempts → NewPolicies x N D →
    (∀ n, t ≤ (x.state n).auth.now → N ≤ n) → 0 < pace.period → pace.t0 ≤ t → Takes U env →
    PacedUntil x (paceUpd pace env pick) T call done → t + max pace.period (U + pace.delay.toNat) + U ≤ T →
    ∀ n m k c r, t + max pace.period (U + pace.delay.toNat) + U < (x.state n).auth.now → (x.state n).pd.checks.length ≤ k →
      (x.state m).pd.checks[k]? = some c → c.cs.coll = .ret r →
      (∀ d ∈ D, (x.state m).auth.now < d.expires ∧ d.expires + (x.state m).auth.now < 2 ^ 63) →
      Decision cfg.auth.U (allAssertions (D.map some)) c.q r

namespace Ex

def pbPre : List SysAct := syKeys ++ gxLoad ++ [.tick 50000000000]

/-- The update of the daemon gets the policy of `gxPolicy` again. -/
def pbMid : List SysAct := pbPre ++ [.tick 50000000000] ++
  [.pd (.update [some gxDoc]), .pd (.task 1 (.job 0 [])), .fetcher "dom".toList (.send 1), .tick 1,
   .fetcher "dom".toList (.answer 1 (.answer 200 "t".toList "A".toList))] ++
  ([.task 1 (.job 0 []), .task 1 (.merge 0 0), .task 1 (.merge 0 0), .task 1 (.merge 0 0), .task 1 (.merge 0 0), .task 1 (.job 0 [gxOther]),
    .task 1 (.job 0 []), .task 1 (.job 0 []), .task 1 (.job 0 []), .finish 1] : List PdAct).map .pd

def pbLate : List SysAct := pbMid ++ [.tick 200000000000]

def pbAll : List SysAct := pbLate ++
  [.auth (.call 0 gxReq), .auth (.get 0), .auth (.validate 0), .auth (.translate 0 0), .beginCheck 0, .pd (.load 0)] ++
  schedNo.map (fun a => .pd (.chk 0 a)) ++ [.endCheck 0 auView schedNo]

theorem pbOk : FxOk gxCfg pbAll := ⟨by decide +kernel, by decide +kernel, by decide +kernel⟩

theorem pbPacedOk : PaOk gxCfg pbAll syKeys.length (pbPre.length + 1) pbMid.length :=
  ⟨by decide +kernel, by decide +kernel, by decide +kernel, by decide +kernel, by decide +kernel, by decide +kernel, by decide +kernel⟩

end Ex

/-- It is false for the code: of two assertions that are the same when written with commas the merge keeps one, however long one waits. -/
theorem C101_refuted : ¬ C101_statement := by
  intro hst
  obtain ⟨c, hc, hp⟩ := Ex.exists_of_map (o := (Ex.fxStates Ex.gxCfg Ex.pbAll Ex.pbAll.length).pd.checks[0]?)
    (p := fun c : Chk => decide (c.q = ⟨"dom".toList, ["admin".toList], "read".toList, "/x,e:y".toList⟩) &&
      (match c.cs.coll with | .ret (.err .noMatch) => true | _ => false)) (by decide +kernel)
  simp only [Bool.and_eq_true, decide_eq_true_eq] at hp
  obtain ⟨hq, hr⟩ := hp
  have hr : c.cs.coll = .ret (.err .noMatch) := by
    split at hr
    · assumption
    · simp at hr
  have hc' : ((Ex.fxExec Ex.pbOk).state Ex.pbAll.length).pd.checks[0]? = some c := by
    have he : (Ex.fxExec Ex.pbOk).state = Ex.fxStates Ex.gxCfg Ex.pbAll := rfl
    rw [he]
    exact hc
  have hnow : ((Ex.fxExec Ex.pbOk).state Ex.pbAll.length).auth.now = Ex.auT 1800 + 1 := by decide +kernel
  have hlate : ((Ex.fxExec Ex.pbOk).state Ex.pbLate.length).auth.now = Ex.auT 1800 + 1 := by decide +kernel
  have hnone : ((Ex.fxExec Ex.pbOk).state Ex.pbLate.length).pd.checks.length = 0 := by decide +kernel
  have := hst Ex.gxCfg (Ex.auT 1500) (Ex.fxExec Ex.pbOk) Ex.pbPre.length [Ex.gxDoc] (Ex.auT 1550) Ex.paPace Ex.paEnv (fun _ => false) 1 (Ex.auT 1650 + 1) _ _
    (by decide) (by decide)
    (Ex.paNew Ex.pbOk (dom := "dom".toList) (sp := Ex.gxPolicy) rfl (by decide +kernel) (by decide) (by decide +kernel))
    (Ex.paTime Ex.pbOk (by decide +kernel)) (by decide) (by decide) Ex.paTakes (Ex.paPaced Ex.pbOk Ex.pbPacedOk) (by decide)
    Ex.pbLate.length Ex.pbAll.length 0 c _ (by
      rw [hlate]; decide) (by
      rw [hnone]) hc' hr (by
      rw [hnow]
      intro d hd
      rw [List.mem_singleton.mp hd]
      decide)
  rw [hq] at this
  rcases this with h | ⟨h, _⟩ | ⟨_, h⟩
  · simp at h
  · simp at h
  · exact (h "admin".toList (by simp)).1 Ex.gxAllowed

end Athenz
