import Verif.Spec.PacedJwk
import Verif.Spec.Stale
import Verif.Props.Revoke
import Verif.Props.Paced

/-! # C102: how long it takes in the assembled authorizer until new sets of JSON web keys are in use -/

namespace Athenz
open Spec

namespace PacedJwkP

variable {cfg : SysCfg} {now : Int} {x : SysExec cfg now}

theorem result_nil {b : JwkJob} {e : Bool} (h : b.result = some e) : b.todo = [] := by
  unfold JwkJob.result at h
  split at h
  · assumption
  · cases h

theorem actOf {a : SysAct} {b : JwkAct} (h : jwkActOf a = some b) : a = .jwk b := by
  cases a <;> simp_all [jwkActOf]

/-- Every update was called. -/
theorem born (x : SysExec cfg now) : ∀ m j, j < (x.state m).jwk.jobs.length → ∃ n, n < m ∧ x.act n = .jwk .update ∧ (x.state n).jwk.jobs.length = j := by
  intro m
  induction m with
  | zero =>
    intro j hj
    rw [x.init] at hj
    simp [sysInit, jwkInit] at hj
  | succ m ih =>
    intro j hj
    by_cases hlt : j < (x.state m).jwk.jobs.length
    · obtain ⟨n, h1, h2⟩ := ih j hlt
      exact ⟨n, by omega, h2⟩
    · have hstep := (jwkExecOf x).step m
      change (_ ∧ (x.state (m + 1)).jwk = (x.state m).jwk) ∨ ∃ a, jwkActOf (x.act m) = some a ∧ JwkEffect cfg.jwk (x.state m).jwk a (x.state (m + 1)).jwk at hstep
      rcases hstep with ⟨_, h⟩ | ⟨a, ha, h⟩
      · rw [h] at hj; exact absurd hj hlt
      · generalize (x.state (m + 1)).jwk = s' at h hj
        cases h with
        | update =>
          simp at hj
          exact ⟨m, by omega, actOf ha, by omega⟩
        | _ => simp at hj; exact absurd hj hlt

theorem ret_stays {n a b : Nat} (h : a ≤ b) (hr : JwkReturned x n (x.state a)) : ∃ c, (x.state b).jwk.jobs[(x.state n).jwk.jobs.length]? = some c ∧ c.todo = [] := by
  obtain ⟨c, e, h1, h2⟩ := hr
  exact ⟨c, jwk_nil_from (jwkExecOf x) h1 (result_nil h2) h, result_nil h2⟩

variable {pace : PaceCfg} {env : Nat → Int → TFetch} {pick : Nat → Bool} {T : Int} {call done : Nat → Nat}

/-- One after the other. -/
theorem ordered (hp : 0 < pace.period) (hx : JwkPacedUntil x (paceUpd pace env pick) T call done) {k k' : Nat} (h : k ≤ k')
    (hk : (paceUpd pace env pick k').start ≤ T) : call k ≤ call k' ∧ (k < k' → done k ≤ call k') := by
  induction h with
  | refl => exact ⟨Nat.le_refl _, fun h => absurd h (Nat.lt_irrefl _)⟩
  | @step m hm ih =>
    have hg := ((C94_gap pace env pick hp).2 m).1
    have h0 : (paceUpd pace env pick m).start ≤ stops (paceUpd pace env pick m) := by unfold stops; omega
    simp only [Nat.succ_eq_add_one] at hk ⊢
    have hn := hx.next m hk
    have ho := hx.order m (by omega)
    obtain ⟨h1, h2⟩ := ih (by omega)
    refine ⟨by omega, fun _ => ?_⟩
    by_cases he : k = m
    · subst he; exact hn
    · have := h2 (by omega)
      omega

/-- When an update is called, all earlier ones have returned. -/
theorem hold (hp : 0 < pace.period) (hx : JwkPacedUntil x (paceUpd pace env pick) T call done) {k : Nat} (hk : (paceUpd pace env pick k).start ≤ T)
    (j : Nat) (hj : j < (x.state (call k)).jwk.jobs.length) : ∃ b, (x.state (call k)).jwk.jobs[j]? = some b ∧ b.todo = [] := by
  obtain ⟨n, h1, h2, h3⟩ := born x _ j hj
  have hnow := (hx.called k hk).2
  rw [← h3]
  rcases hx.only n h2 (by have := PacedP.now_mono x (Nat.le_of_lt h1); omega) with ⟨k', hk', rfl⟩ | hr
  · have hlt : k' < k := by
      refine Classical.byContradiction fun hge => ?_
      have := (ordered hp hx (show k ≤ k' by omega) hk').1
      omega
    obtain ⟨o1, o2⟩ := ordered hp hx (Nat.le_of_lt hlt) hk
    have hs : stops (paceUpd pace env pick k') ≤ T := by
      have := ((C94_gap pace env pick hp).2 k').1
      have := PaceP.start_mono (env := env) (pick := pick) hp (show k' + 1 ≤ k by omega)
      omega
    exact ret_stays (o2 hlt) (hx.returned k' hs).2
  · exact ret_stays (ordered hp hx (Nat.zero_le k) hk).1 hr

/-- What an update that has returned leaves behind, if requests for the URL give the set from its beginning on. -/
theorem delivers {N : Nat} {url : Str} {set : JwkSet} (hg : GivesSet x N url set) (hurl : ConfiguredURL cfg.jwk url) {n : Nat} (hn : N ≤ n)
    (hall : ∀ m, n ≤ m → AllGot (x.state m).jwk url set) (hact : x.act n = .jwk .update) {e : Nat} (he : n ≤ e)
    (hret : JwkReturned x n (x.state e)) : (x.state e).jwk.keys.load url = some set := by
  obtain ⟨b, r, hb, hr⟩ := hret
  have hborn : (x.state (n + 1)).jwk.jobs[(x.state n).jwk.jobs.length]? = some ⟨cfg.jwk.targets, none, []⟩ := by
    have := (jwkExecOf x).next n
    change (match jwkActOf (x.act n) with
      | none => (x.state (n + 1)).jwk = (x.state n).jwk
      | some a => jwkStep cfg.jwk (x.state n).jwk a = some (x.state (n + 1)).jwk) at this
    rw [hact] at this
    simp only [jwkActOf, jwkStep, Option.some.injEq] at this
    rw [← this]
    simp
  have hlen : e ≠ n := by
    intro h
    subst h
    have := lt_of_getElem? hb
    omega
  generalize (x.state n).jwk.jobs.length = j at hborn hb
  have key : ∀ k, n + 1 ≤ k → (x.state k).jwk.keys.load url = some set ∨ ∃ b : JwkJob, (x.state k).jwk.jobs[j]? = some b ∧ url ∈ b.todo := by
    refine from_ind (.inr ⟨_, hborn, mem_targets.mpr hurl⟩) ?_
    intro k hk ih
    rcases ih with ih | ⟨b, h1, h2⟩
    · exact .inl (jwk_stays (jwkExecOf x) hall (show n ≤ k by omega) ih (k + 1) (by omega))
    · have hstep := (jwkExecOf x).step k
      change (_ ∧ (x.state (k + 1)).jwk = (x.state k).jwk) ∨ ∃ a, jwkActOf (x.act k) = some a ∧ JwkEffect cfg.jwk (x.state k).jwk a (x.state (k + 1)).jwk at hstep
      rcases hstep with ⟨_, h⟩ | ⟨a, ha, h⟩
      · rw [h]; exact .inr ⟨b, h1, h2⟩
      · by_cases ho : OfJwkJob j a
        · have hl := lt_of_getElem? h1
          have ha := actOf ha
          generalize (x.state (k + 1)).jwk = s' at h ⊢
          cases h with
          | update => simp [OfJwkJob] at ho
          | failed i u r f hi =>
            simp only [OfJwkJob] at ho; subst ho
            rw [h1] at hi
            simp only [Option.some.injEq] at hi
            subst hi
            rcases List.mem_cons.mp h2 with rfl | h2
            · have := hg k (by omega) i none ha ⟨_, _, h1, rfl⟩
              cases this
            · exact .inr ⟨_, List.getElem?_set_self hl, h2⟩
          | got i u r f st hi =>
            simp only [OfJwkJob] at ho; subst ho
            rw [h1] at hi
            simp only [Option.some.injEq] at hi
            subst hi
            exact .inr ⟨_, List.getElem?_set_self hl, h2⟩
          | stored i u r f st hi =>
            simp only [OfJwkJob] at ho; subst ho
            rw [h1] at hi
            simp only [Option.some.injEq] at hi
            subst hi
            rcases List.mem_cons.mp h2 with rfl | h2
            · left
              rw [← hall k (by omega) i _ r st h1 rfl rfl]
              simp [SMap.load_store]
            · exact .inr ⟨_, List.getElem?_set_self hl, h2⟩
        · obtain ⟨b2, h3, _, h5⟩ := jwkJob_step h h1
          rw [h5 ho] at h3
          exact .inr ⟨b, h3, h2⟩
  rcases key e (by omega) with h | ⟨b', h1, h2⟩
  · exact h
  · rw [hb] at h1
    obtain rfl := Option.some.inj h1
    rw [result_nil hr] at h2
    cases h2

theorem serves {N M : Nat} {url : Str} {set : JwkSet} (hg : GivesSet x N url set) (hM : N ≤ M) : ServesSet (jwkExecOf x) M url set := by
  intro n hn j set' ha hw
  have := hg n (by omega) j (some set') (actOf ha) hw
  exact Option.some.inj this

variable {U : Nat} {N : Nat} {S : Str → JwkSet}

/-- What is in use once the update that begins after `t` is over. -/
theorem in_use (hg : ∀ url, ConfiguredURL cfg.jwk url → GivesSet x N url (S url)) {t : Int} (hN : ∀ n, t ≤ (x.state n).auth.now → N ≤ n)
    (hp : 0 < pace.period) (ht : pace.t0 ≤ t) (hU : Takes U env) (hx : JwkPacedUntil x (paceUpd pace env pick) T call done)
    (hT : t + max pace.period (U + pace.delay.toNat) + U ≤ T) :
    ∃ M, (x.state M).auth.now ≤ t + max pace.period (U + pace.delay.toNat) + U ∧ ∀ m, M ≤ m → ∀ url, ConfiguredURL cfg.jwk url →
      InUseJwk cfg.jwk (x.state m).jwk url (S url) := by
  obtain ⟨k, h1, _, h3⟩ := C94_begins pace env pick U hp hU t ht
  have hs : (paceUpd pace env pick k).start ≤ stops (paceUpd pace env pick k) := by unfold stops; omega
  have hcall := hx.called k (by omega)
  have hN' : N ≤ call k := hN _ (by rw [hcall.2]; exact h1)
  have hle := hx.order k (by omega)
  obtain ⟨hnow, hret⟩ := hx.returned k (by omega)
  refine ⟨done k, by omega, fun m hm url hurl => ?_⟩
  have hall := allGot (jwkExecOf x) (serves (hg url hurl) hN') (Nat.le_refl (call k)) (hold hp hx (k := k) (by omega))
  exact inUseJwk_of_load (jwk_stays (jwkExecOf x) hall hle (delivers (hg url hurl) hurl hN' hall hcall.1 hle hret) m hm)

end PacedJwkP

/-- **C102**.  The servers of the configured URLs give the sets `S` from the time `t` on, and the updates are made as the JWK daemon makes them.
Then, at the latest a period (or an update and a pause) and an update after `t`, exactly the keys of these sets are in use, and stay so. -/
theorem C102_in_use (cfg : SysCfg) (now : Int) (x : SysExec cfg now) (N : Nat) (S : Str → JwkSet)
    (hg : ∀ url, ConfiguredURL cfg.jwk url → GivesSet x N url (S url)) (t : Int) (hN : ∀ n, t ≤ (x.state n).auth.now → N ≤ n) (pace : PaceCfg)
    (env : Nat → Int → TFetch) (pick : Nat → Bool) (U : Nat) (hp : 0 < pace.period) (ht : pace.t0 ≤ t) (hU : Takes U env) (T : Int)
    (call done : Nat → Nat) (hx : JwkPacedUntil x (paceUpd pace env pick) T call done) (hT : t + max pace.period (U + pace.delay.toNat) + U ≤ T)
    (m : Nat) (hm : t + max pace.period (U + pace.delay.toNat) + U < (x.state m).auth.now) (kid jku : Str) (key : JKey) :
    getKey cfg.jwk (x.state m).jwk kid jku = some key ↔
      kid ≠ [] ∧ ConfiguredURL cfg.jwk (lookupURL cfg.jwk jku) ∧ KeyIn (S (lookupURL cfg.jwk jku)) kid key := by
  obtain ⟨M, h2, h3⟩ := PacedJwkP.in_use hg hN hp ht hU hx hT
  have hM : M ≤ m := PacedP.later (x := x) (by omega)
  constructor
  · intro hkey
    obtain ⟨acts, hj⟩ := (sysRuns_run (SysExec.run x m)).2.jwk
    obtain ⟨_, hu, _⟩ := C29_sources cfg.jwk acts _ hj kid jku key hkey
    have := (h3 m hM _ hu kid jku rfl key).mp hkey
    exact ⟨this.1, hu, this.2⟩
  · rintro ⟨h1, hu, h4⟩
    exact (h3 m hM _ hu kid jku rfl key).mpr ⟨h1, h4⟩

/-- **C102**.  A call that begins when also the time in which calls store their results and the lifetime of cached results have passed is granted
only if a token with the same cache key is signed with a key of the sets `S` (or is a role token). -/
theorem C102_access (cfg : SysCfg) (now : Int) (h0 : 0 ≤ now) (hexp : 0 < cfg.auth.cacheExp) (x : SysExec cfg now) (N : Nat) (S : Str → JwkSet)
    (hg : ∀ url, ConfiguredURL cfg.jwk url → GivesSet x N url (S url)) (t : Int) (hN : ∀ n, t ≤ (x.state n).auth.now → N ≤ n) (pace : PaceCfg)
    (env : Nat → Int → TFetch) (pick : Nat → Bool) (U : Nat) (hp : 0 < pace.period) (ht : pace.t0 ≤ t) (hU : Takes U env) (T : Int)
    (call done : Nat → Nat) (hx : JwkPacedUntil x (paceUpd pace env pick) T call done) (hT : t + max pace.period (U + pace.delay.toNat) + U ≤ T)
    (m : Nat) (L : Nat) (hL : StoresWithin L (x.state m).auth.log) (hbig : (x.state m).auth.now + cfg.auth.cacheExp < 2 ^ 63) (i : Nat) (q : AReq)
    (p : Principal)
    (hlate : ∀ tb, .begun i tb ∈ (x.state m).auth.log → t + max pace.period (U + pace.delay.toNat) + U + L + cfg.auth.cacheExp < tb)
    (hc : (x.state m).auth.calls i = some ⟨q, .done (.ok p)⟩) :
    ∃ q', cacheKey cfg.auth q' = cacheKey cfg.auth q ∧
      SignedBy cfg (fun _ _ => True) (fun url kid k => ConfiguredURL cfg.jwk url ∧ KeyIn (S url) kid k) q' := by
  obtain ⟨M, hMt, hin⟩ := PacedJwkP.in_use hg hN hp ht hU hx hT
  have logs : ∀ {e : AEvent} {m}, M ≤ m → e ∈ (x.state M).auth.log → e ∈ (x.state m).auth.log := by
    intro e m hm he
    clear hL hbig hlate hc
    induction hm with
    | refl => exact he
    | step _ ih => exact (sysStep_log (x.next _)).1 _ ih
  obtain ⟨tb0, hb0, hb0'⟩ := PacedP.begun_of_call (SysExec.run x m) hc
  have hMm : M ≤ m := PacedP.later (x := x) (by have := hlate tb0 hb0; omega)
  have none_ : ∀ j, (∀ tb, .begun j tb ∈ (x.state m).auth.log → (x.state M).auth.now < tb) → (x.state M).auth.calls j = none := by
    intro j hj
    cases hcj : (x.state M).auth.calls j with
    | none => rfl
    | some c =>
      obtain ⟨tb, g1, g2⟩ := PacedP.begun_of_call (SysExec.run x M) hcj
      have := hj tb (logs hMm g1)
      omega
  have gives : ∀ n, M ≤ n → GivesOnly cfg (x.state n) (fun _ _ => True) (fun url kid k => ConfiguredURL cfg.jwk url ∧ KeyIn (S url) kid k) := by
    intro n hn
    refine ⟨fun _ _ _ => trivial, fun kid jku key hkey => ?_⟩
    obtain ⟨acts, hj⟩ := (sysRuns_run (SysExec.run x n)).2.jwk
    obtain ⟨_, hu, _⟩ := C29_sources cfg.jwk acts _ hj kid jku key hkey
    exact ⟨hu, ((hin n hn _ hu kid jku rfl key).mp hkey).2⟩
  have key : ∀ j q' h1, (x.state M).auth.calls j = none → cacheKey cfg.auth q' = cacheKey cfg.auth q →
      ValidatedBy cfg (sysInit cfg now) (x.hist m) j q' p h1 →
      ∃ q', cacheKey cfg.auth q' = cacheKey cfg.auth q ∧
        SignedBy cfg (fun _ _ => True) (fun url kid k => ConfiguredURL cfg.jwk url ∧ KeyIn (S url) kid k) q' := by
    intro j q' h1 hj hk hd
    obtain ⟨h2, sx, pc, he, hxr, hjx, _, htok⟩ := hd
    have e1 : h1 = x.hist h1.length := by
      have hle : h1.length ≤ m := by
        have := congrArg List.length he
        simp only [SysExec.hist, List.length_map, List.length_range, List.length_append] at this
        omega
      have := congrArg (List.take h1.length) he
      rw [List.take_append_of_le_length (Nat.le_refl _), List.take_length] at this
      conv => lhs; rw [← this]
      simp only [SysExec.hist, ← List.map_take, List.take_range, Nat.min_eq_left hle]
    have hr' := hxr
    rw [e1, SysExec.run x] at hxr
    obtain rfl := Option.some.inj hxr
    have hge : M ≤ h1.length := by
      refine Classical.byContradiction fun hlt => ?_
      obtain ⟨pc', h3, _⟩ := sysRun_calls (SysExec.runFrom x (show h1.length ≤ M by omega)) hjx
      rw [hj] at h3; simp at h3
    exact ⟨q', hk, signedBy (sysRuns_run hr').1 (gives _ hge) htok⟩
  have hpast := log_past (SysExec.run x m)
  rcases C78_grant cfg now h0 _ _ (SysExec.run x m) i q p hc with ⟨h1, hd⟩ | ⟨j, q', tb, th, ts, h1, hb, hle, _, hst, hfr, hcj, hk, hd⟩
  · exact key i q h1 (none_ i fun tb h => by have := hlate tb h; omega) rfl hd
  · refine key j q' h1 (none_ j fun tbj hj => ?_) hk hd
    have h1 := hL j tbj ts _ _ hj hst
    have h2 := hlate tb hb
    have h3 := hpast.1 _ _ _ _ hst
    have h4 := hfr.2 hexp (by omega)
    omega

namespace Ex

def pjOld : JwkSet := [⟨"j".toList, some ⟨.rsaPublic, "T".toList⟩⟩]

def pjNew : JwkSet := [⟨"k".toList, some ⟨.rsaPublic, "S".toList⟩⟩]

/-- `Init` loads the keys, the policy and the old set, and 50 seconds pass. -/
def pjPre : List SysAct := syKeys ++ syLoad chDom ++ [.jwk .update, .jwk (.fetch 0 (some pjOld)), .jwk (.store 0), .tick 50000000000]

/-- Another 50 seconds later the new set is fetched. -/
def pjMid : List SysAct := pjPre ++ [.tick 50000000000, .jwk .update, .tick 1, .jwk (.fetch 1 (some pjNew)), .jwk (.store 1)]

/-- 200 seconds later there is a call. -/
def pjAll : List SysAct := pjMid ++ [.tick 200000000000] ++ (.auth (.call 0 auReq) :: syCall 0)

theorem pjOk : FxOk chCfg pjAll := ⟨by decide +kernel, by decide +kernel, by decide +kernel⟩

def pjExec : SysExec chCfg (auT 1500) := fxExec pjOk

def pjPace : PaceCfg := ⟨100000000000, 30000000000, true, auT 1500⟩

theorem pjGives (url : Str) : GivesSet pjExec pjPre.length url pjNew := by
  intro n hn j out hact _
  have hall : ∀ n, n < pjAll.length → (n < pjPre.length || match fxAct pjAll n with | .jwk (.fetch _ o) => o == some pjNew | _ => true) = true := by
    decide +kernel
  by_cases hl : n < pjAll.length
  · have := hall n hl
    rw [show fxAct pjAll n = _ from hact] at this
    simpa [Nat.not_lt.mpr hn] using this
  · have : fxAct pjAll n = .tick 0 := by simp [fxAct, List.getElem?_eq_none (Nat.le_of_not_lt hl)]
    rw [show fxAct pjAll n = _ from hact] at this
    cases this

theorem pjReturned {i : Nat} {s : Sys}
    (h : (s.jwk.jobs[(pjExec.state i).jwk.jobs.length]?).map (fun b => b.result.isSome) = some true) : JwkReturned pjExec i s := by
  obtain ⟨b, h1, h2⟩ := Option.map_eq_some_iff.mp h
  obtain ⟨e, he⟩ := Option.isSome_iff_exists.mp h2
  exact ⟨b, e, h1, he⟩

theorem pjPaced : JwkPacedUntil pjExec (paceUpd pjPace paEnv (fun _ => false)) (auT 1650 + 1) (fun _ => pjPre.length + 1) (fun _ => pjMid.length) := by
  have h0 : (paceUpd pjPace paEnv (fun _ => false) 0).start = auT 1600 ∧ stops (paceUpd pjPace paEnv (fun _ => false) 0) = auT 1600 + 1 := by
    decide +kernel
  have h1 : (paceUpd pjPace paEnv (fun _ => false) 1).start = auT 1700 := by decide +kernel
  have late : ∀ k, (paceUpd pjPace paEnv (fun _ => false) (k + 1)).start ≤ auT 1650 + 1 → False := by
    intro k hk
    have := PaceP.start_mono (cfg := pjPace) (env := paEnv) (pick := fun _ => false) (by decide) (show 1 ≤ k + 1 by omega)
    rw [h1] at this
    have : auT 1650 + 1 < auT 1700 := by decide
    omega
  have late' : ∀ k, stops (paceUpd pjPace paEnv (fun _ => false) (k + 1)) ≤ auT 1650 + 1 → False := by
    intro k hk
    refine late k ?_
    unfold stops at hk
    omega
  refine ⟨fun k _ => by decide, fun k hk => (late k hk).elim, ?_, ?_, ?_⟩
  · intro k hs
    cases k with
    | succ k => exact (late k hs).elim
    | zero =>
      rw [h0.1]
      refine ⟨rfl, ?_⟩
      decide +kernel
  · intro k hs
    cases k with
    | succ k => exact (late' k hs).elim
    | zero =>
      rw [h0.2]
      exact ⟨by decide +kernel, pjReturned (by decide +kernel)⟩
  · intro n hact _
    have hall : ∀ n, n < pjAll.length → (match fxAct pjAll n with | .jwk .update => n == pjPre.length - 4 || n == pjPre.length + 1 | _ => true) = true := by
      decide +kernel
    have hn : n = pjPre.length - 4 ∨ n = pjPre.length + 1 := by
      by_cases hl : n < pjAll.length
      · have := hall n hl
        rw [show fxAct pjAll n = _ from hact] at this
        simpa using this
      · have : fxAct pjAll n = .tick 0 := by simp [fxAct, List.getElem?_eq_none (Nat.le_of_not_lt hl)]
        rw [show fxAct pjAll n = _ from hact] at this
        cases this
    rcases hn with rfl | rfl
    · exact .inr (pjReturned (by decide +kernel))
    · exact .inl ⟨0, by rw [h0.1]; decide, rfl⟩

theorem pjLogs : ∀ e ∈ (pjExec.state pjAll.length).auth.log, paLog e = true := by
  have : (pjExec.state pjAll.length).auth.log.all paLog = true := by decide +kernel
  intro e he
  exact List.all_eq_true.mp this e he

end Ex

/-- Half a period before the next update the set of the server changes; the call that begins 200 seconds after that update, with a token signed with
the new key, is granted. -/
example : 0 < Ex.chCfg.auth.cacheExp ∧ (∀ url, ConfiguredURL Ex.chCfg.jwk url → GivesSet Ex.pjExec Ex.pjPre.length url Ex.pjNew) ∧
    (∀ n, Ex.auT 1550 ≤ (Ex.pjExec.state n).auth.now → Ex.pjPre.length ≤ n) ∧ Takes 1 Ex.paEnv ∧
    (∃ call done, JwkPacedUntil Ex.pjExec (paceUpd Ex.pjPace Ex.paEnv fun _ => false) (Ex.auT 1650 + 1) call done) ∧
    Ex.auT 1550 + max Ex.pjPace.period ((1 : Nat) + Ex.pjPace.delay.toNat) + (1 : Nat) ≤ Ex.auT 1650 + 1 ∧
    StoresWithin 0 (Ex.pjExec.state Ex.pjAll.length).auth.log ∧
    (∀ tb, .begun 0 tb ∈ (Ex.pjExec.state Ex.pjAll.length).auth.log →
      Ex.auT 1550 + max Ex.pjPace.period ((1 : Nat) + Ex.pjPace.delay.toNat) + (1 : Nat) + 0 + Ex.chCfg.auth.cacheExp < tb) ∧
    (Ex.pjExec.state Ex.pjAll.length).auth.calls 0 = some ⟨Ex.auReq, .done (.ok Ex.auPrincipal)⟩ ∧
    getKey Ex.chCfg.jwk (Ex.pjExec.state Ex.pjPre.length).jwk "j".toList [] = some ⟨.rsaPublic, "T".toList⟩ ∧
    getKey Ex.chCfg.jwk (Ex.pjExec.state Ex.pjPre.length).jwk "k".toList [] = none := by
  refine ⟨by decide, fun url _ => Ex.pjGives url, Ex.paTime Ex.pjOk (by decide +kernel), Ex.paTakes, ⟨_, _, Ex.pjPaced⟩, by decide, ?_, ?_,
    Ex.doneOk_iff (by decide +kernel), by decide +kernel, by decide +kernel⟩
  · intro j tb ts k p h1 h2
    have g1 := Ex.pjLogs _ h1
    have g2 := Ex.pjLogs _ h2
    simp only [Ex.paLog, decide_eq_true_eq] at g1 g2
    omega
  · intro tb h
    have := Ex.pjLogs _ h
    simp only [Ex.paLog, decide_eq_true_eq] at this
    rw [this]
    decide

end Athenz
