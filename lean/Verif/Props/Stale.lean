import Verif.Proofs.Stale
import Verif.Props.Authority
import Verif.Props.Pace
import Verif.Props.Policyd
import Verif.Props.Uniform

/-! # C97: how long policies that were withdrawn and keys that were revoked still count

Caches are behind each other: the daemon asks the server from time to time, a call sees what the daemon last got, its result is kept, and later
calls for the same request get it. -/

namespace Athenz
open Spec

/-- **C97**, results: if no call stores its result later than `L` after it began, a call that begins later than `L` and the lifetime of results
after `T` is granted only what a call for the same request that itself began after `T` found out, token and policies. -/
theorem C97_recent (cfg : AuthCfg) (now : Int) (h0 : 0 ≤ now) (keys : Option KeyProvider) (jwkp : Option JwkProvider) (acts : List AAct)
    (s : AState) (hr : aRun cfg (aInit now keys jwkp) acts = some s) (T L : Int) (hL : StoresWithin L s.log) (he : 0 < cfg.cacheExp)
    (hn : s.now + cfg.cacheExp < 2 ^ 63) (i : Nat) (q : AReq) (p : Principal) (hd : s.calls i = some ⟨q, .done (.ok p)⟩)
    (hi : ∀ tb, .begun i tb ∈ s.log → T + L + cfg.cacheExp < tb) (hL0 : 0 ≤ L) :
    ∃ j q' tb tv, s.calls j = some ⟨q', .done (.ok p)⟩ ∧ cacheKey cfg q' = cacheKey cfg q ∧ FullCheck cfg s.log j q' p tb tv ∧ T < tb := by
  rcases C35_call cfg now h0 keys jwkp acts s hr i q p hd with ⟨tb, tv, hf, _⟩ | ⟨tb, th, j, q', tb', tv, ts, h1, h2, h3, _, h5, h6, h7, _, h9, h10, h11⟩
  · have := hi tb hf.begun
    exact ⟨i, q, tb, tv, hd, rfl, hf, by omega⟩
  · have a1 := hi tb h1
    have a2 := hL j tb' ts _ p h7.begun h9
    have a3 := h11 he (by omega)
    exact ⟨j, q', tb', tv, h5, h6, h7, by omega⟩

/-- **C97**, checks: what a policy check of a call that began at `tb` saw satisfies `G x` for an `x` that is not before `tb`. -/
theorem C97_sees (cfg : AuthCfg) (now : Int) (keys : Option KeyProvider) (jwkp : Option JwkProvider) (acts : List AAct) (s : AState)
    (hr : aRun cfg (aInit now keys jwkp) acts = some s) (G : Int → PolicyView → Prop) (hG : ChecksSee cfg (aInit now keys jwkp) acts G)
    (j : Nat) (tb : Int) (hb : .begun j tb ∈ s.log) (view : PolicyView) (sched : List CheckAct) (hc : .checked j view sched ∈ s.log) :
    ∃ x, tb ≤ x ∧ G x view ∧ ∀ v, CheckAct.mutate v ∈ sched → G x v := by
  obtain ⟨_, pre, post, s1, h1, h2, h3⟩ := (StaleP.inv_run (by rfl) hr).checked j view sched hc
  exact ⟨s1.now, h3 tb hb, hG pre j view sched post s1 h1 h2⟩

/-- A check that sees only what comes from `d` grants only roles that `d` allows. -/
theorem StaleP.allowed_of_check {U : CaseFns} {q : CheckReq} {d : List RawAssertion} {view : PolicyView} {sched : List CheckAct} {rs : List Str}
    (hv : ShowsOnly U d view) (hm : ∀ v, CheckAct.mutate v ∈ sched → ShowsOnly U d v) (h : CheckReturns U q view sched (.ok rs)) :
    rs ≠ [] ∧ ∀ role ∈ rs, role ∈ q.roles ∧ Allowed U d q.domain role q.action q.resource := by
  obtain ⟨c1, c2, _⟩ := C04_changing_cache U q (ShowsOnly U d) view hv sched hm _ h
  refine ⟨c1, fun role hrole => ?_⟩
  obtain ⟨m1, v, hsh, l, pre, a, post, hl, rfl, _, ha, hea⟩ := c2 role hrole
  obtain ⟨w, hw, hwr, hwc⟩ := hsh _ _ hl a (by simp)
  have hwc := StaleP.conv_some.mpr hwc
  refine ⟨m1, w, hw, (conv_applies hwc _ _ _ _).mpr ⟨hwr, ha⟩, ?_⟩
  rw [← isDeny_iff]
  have := conv_effect hwc
  rw [hea] at this
  intro hd; simp [hd] at this

/-- **C97**, policies: a policy daemon asks the server, which has the assertions `doc x` at `x`, and from `t` on has `d`.  A check sees what the
last update that had succeeded got, all or part of it.  Then a call that begins later than one period (or an update and a pause), one update,
the time a call takes and the lifetime of results after `t` is granted only roles that `d` allows. -/
theorem C97_withdrawn (cfg : AuthCfg) (now : Int) (h0 : 0 ≤ now) (keys : Option KeyProvider) (jwkp : Option JwkProvider) (acts : List AAct)
    (s : AState) (hr : aRun cfg (aInit now keys jwkp) acts = some s) (hpol : cfg.disablePolicyd = false)
    (pace : PaceCfg) (env : Nat → Int → TFetch) (pick : Nat → Bool) (U : Nat) (hp : 0 < pace.period) (hU : Takes U env)
    (doc : Int → List RawAssertion) (got : Nat → Int)
    (hgot : ∀ n, (paceUpd pace env pick n).start ≤ got n ∧ got n ≤ stops (paceUpd pace env pick n))
    (hsee : ChecksSee cfg (aInit now keys jwkp) acts fun x v => ∀ n, LastGood (paceUpd pace env pick) x n → ShowsOnly cfg.U (doc (got n)) v)
    (t : Int) (ht : pace.t0 ≤ t) (d : List RawAssertion) (hdoc : ∀ x, t ≤ x → doc x = d)
    (hok : ∀ n, t ≤ (paceUpd pace env pick n).start → (paceUpd pace env pick n).ok = true)
    (L : Int) (hL0 : 0 ≤ L) (hL : StoresWithin L s.log) (he : 0 < cfg.cacheExp) (hn : s.now + cfg.cacheExp < 2 ^ 63)
    (i : Nat) (q : AReq) (p : Principal) (hd : s.calls i = some ⟨q, .done (.ok p)⟩)
    (hi : ∀ tb, .begun i tb ∈ s.log → t + max pace.period (U + pace.delay.toNat) + U + L + cfg.cacheExp < tb) :
    p.authorizedRoles ≠ [] ∧ ∃ q' seed act res, cacheKey cfg q' = cacheKey cfg q ∧ Translates cfg seed p.domain q' act res ∧
      ∀ role ∈ p.authorizedRoles, role ∈ p.roles ∧ Allowed cfg.U d p.domain role act (cfg.resourcePrefix ++ res) := by
  obtain ⟨j, q', tb, tv, _, h2, h3, h4⟩ := C97_recent cfg now h0 keys jwkp acts s hr _ L hL he hn i q p hd hi hL0
  obtain ⟨_, _, seed, view, sched, _, h6, act, res, h7, h8⟩ := h3.policy hpol
  obtain ⟨x, hx, hv, hm⟩ := C97_sees cfg now keys jwkp acts s hr _ hsee j tb h3.begun view sched h6
  obtain ⟨⟨n, hg⟩, hall⟩ := C94_change pace env pick U hp hU doc got hgot t ht d hdoc hok x (by omega)
  have e := hall n hg
  obtain ⟨c1, c2⟩ := StaleP.allowed_of_check (e ▸ hv n hg) (fun v h => e ▸ hm v h n hg) h8
  exact ⟨c1, q', seed, act, res, h2, h7, c2⟩
/-- **C97**, certificates: nothing is kept for role certificates, so that a call whose checks are made after one period (or an update and a pause)
and one update after `t` is granted only if `d` allows one of the roles that the certificates name. -/
theorem C97_cert (cfg : AuthCfg) (certs : List Cert) (act res : Str) (order : List (Str × List Str)) (oracle : List (PolicyView × List CheckAct))
    (hpol : cfg.disablePolicyd = false) (hret : VerifyRoleCertReturns cfg certs act res order oracle (.ok ()))
    (pace : PaceCfg) (env : Nat → Int → TFetch) (pick : Nat → Bool) (U : Nat) (hp : 0 < pace.period) (hU : Takes U env)
    (doc : Int → List RawAssertion) (got : Nat → Int)
    (hgot : ∀ n, (paceUpd pace env pick n).start ≤ got n ∧ got n ≤ stops (paceUpd pace env pick n))
    (t : Int) (ht : pace.t0 ≤ t) (d : List RawAssertion) (hdoc : ∀ x, t ≤ x → doc x = d)
    (hok : ∀ n, t ≤ (paceUpd pace env pick n).start → (paceUpd pace env pick n).ok = true)
    (hsee : ∀ o ∈ oracle, ∃ x, t + max pace.period (U + pace.delay.toNat) + U ≤ x ∧ ∀ n, LastGood (paceUpd pace env pick) x n →
      ShowsOnly cfg.U (doc (got n)) o.1 ∧ ∀ v, CheckAct.mutate v ∈ o.2 → ShowsOnly cfg.U (doc (got n)) v) :
    ∃ dom role, NamesRole cfg.roleCertURIPrefix certs dom role ∧ Allowed cfg.U d dom role act res := by
  obtain ⟨dom, rs, view, sched, allowed, _, _, h1, h2, h3⟩ := C43_sound cfg certs act res order oracle hpol hret
  obtain ⟨x, hx, hs⟩ := hsee _ h2
  obtain ⟨⟨n, hg⟩, hall⟩ := C94_change pace env pick U hp hU doc got hgot t ht d hdoc hok x hx
  have e := hall n hg
  obtain ⟨c1, c2⟩ := StaleP.allowed_of_check (e ▸ (hs n hg).1) (fun v h => e ▸ (hs n hg).2 v h) h3
  cases allowed with
  | nil => exact absurd rfl c1
  | cons role _ =>
    obtain ⟨m1, m2⟩ := c2 role (by simp)
    exact ⟨dom, role, h1 role m1, m2⟩

/-- **C97**, what checks see: in every history of the policy daemon, refreshes of expired entries included, an object in which checks look up roles
shows at every time only assertions of the documents that were put into it, as `C97_withdrawn` assumes. -/
theorem C97_shows (U : CaseFns) (n0 : Int) (domains : List Str) (acts : List PdAct) (s : PdState) (hr : pdRun U (pdInit n0 domains) acts = some s)
    (o : Nat) (g : Gache (List Assertion)) (D : List (Option PolicyDoc)) (hg : s.objs[o]? = some g) (hD : s.srcs[o]? = some D) (x : Int) :
    ShowsOnly U (allAssertions D) (viewOf g x) :=
  ((((pdInit_sound U n0 domains).run hr).objs o g D hg hD).view x).showsOnly

/-- After an update, and a refresh of an entry that expired, there is an object with something in it. -/
example : ∃ s g D, pdRun asciiCase (pdInit 10 ["d".toList]) Ex.hookSched = some s ∧ s.objs[s.live]? = some g ∧ s.srcs[s.live]? = some D ∧
    allAssertions D ≠ [] := by
  obtain ⟨s, hs, hp⟩ := Ex.exists_of_map (o := pdRun asciiCase (pdInit 10 ["d".toList]) Ex.hookSched)
    (p := fun s => (s.objs[s.live]?).isSome && match s.srcs[s.live]? with | some D => !(allAssertions D).isEmpty | none => false) (by decide +kernel)
  simp only [Bool.and_eq_true, Option.isSome_iff_exists] at hp
  obtain ⟨⟨g, hg⟩, hD⟩ := hp
  split at hD
  · rename_i D hD'
    exact ⟨s, g, D, hs, hg, hD', by intro h; simp [h] at hD⟩
  · simp at hD

/-- **C97**, keys: the same for the keys.  `V k` says which keys validations may find if a daemon has got `k`; if the server has `k` from `t` on,
a call that begins that much later is granted only if the token, or that of a call for the same request, was valid under such keys. -/
theorem C97_revoked {α : Type} (cfg : AuthCfg) (now : Int) (h0 : 0 ≤ now) (keys : Option KeyProvider) (jwkp : Option JwkProvider) (acts : List AAct)
    (s : AState) (hr : aRun cfg (aInit now keys jwkp) acts = some s)
    (pace : PaceCfg) (env : Nat → Int → TFetch) (pick : Nat → Bool) (U : Nat) (hp : 0 < pace.period) (hU : Takes U env)
    (doc : Int → α) (got : Nat → Int)
    (hgot : ∀ n, (paceUpd pace env pick n).start ≤ got n ∧ got n ≤ stops (paceUpd pace env pick n))
    (V : α → Option KeyProvider → Option JwkProvider → Prop)
    (hsee : ∀ j tv ks jw, .validated j tv ks jw ∈ s.log → ∀ n, LastGood (paceUpd pace env pick) tv n → V (doc (got n)) ks jw)
    (t : Int) (ht : pace.t0 ≤ t) (k : α) (hdoc : ∀ x, t ≤ x → doc x = k)
    (hok : ∀ n, t ≤ (paceUpd pace env pick n).start → (paceUpd pace env pick n).ok = true)
    (L : Int) (hL0 : 0 ≤ L) (hL : StoresWithin L s.log) (he : 0 < cfg.cacheExp) (hn : s.now + cfg.cacheExp < 2 ^ 63)
    (i : Nat) (q : AReq) (p : Principal) (hd : s.calls i = some ⟨q, .done (.ok p)⟩)
    (hi : ∀ tb, .begun i tb ∈ s.log → t + max pace.period (U + pace.delay.toNat) + U + L + cfg.cacheExp < tb) :
    ∃ q' tv ks jw, cacheKey cfg q' = cacheKey cfg q ∧ t < tv ∧ V k ks jw ∧ TokenSays cfg tv ks jw q' p := by
  obtain ⟨j, q', tb, tv, _, h2, h3, h4⟩ := C97_recent cfg now h0 keys jwkp acts s hr _ L hL he hn i q p hd hi hL0
  obtain ⟨ks, jw, h5, h6⟩ := h3.token
  have := h3.order
  obtain ⟨⟨n, hg⟩, hall⟩ := C94_change pace env pick U hp hU doc got hgot t ht k hdoc hok tv (by omega)
  exact ⟨q', tv, ks, jw, h2, by omega, hall n hg ▸ hsee j tv ks jw h5 n hg, h6⟩

namespace Ex

/-- What `auView` shows. -/
def stDoc : List RawAssertion := [⟨"dom:role.admin".toList, "read".toList, "dom:/x".toList, "ALLOW".toList⟩]

theorem stDoc_shows : ShowsOnly asciiCase stDoc auView := by
  intro role l hl x hx
  simp only [auView] at hl
  split at hl
  · rename_i hrole
    simp only [Option.map_eq_some_iff] at hl
    obtain ⟨y, hy, rfl⟩ := hl
    simp only [List.mem_singleton] at hx
    subst hx
    exact ⟨_, List.mem_singleton.mpr rfl, hrole.symm, StaleP.conv_some.mp hy⟩
  · simp at hl

/-- The server has something else until 205. -/
def stServer (x : Int) : List RawAssertion := if x < 205 then [] else stDoc

/-- When results are stored. -/
def storesAt (s : AState) (j : Nat) : List Int := s.log.filterMap fun e => match e with | .stored i t _ _ => if i = j then some t else none | _ => none

theorem mem_storesAt {s : AState} {j : Nat} {t : Int} {k : Str} {p : Principal} (h : AEvent.stored j t k p ∈ s.log) : t ∈ storesAt s j :=
  List.mem_filterMap.mpr ⟨_, h, by simp⟩

theorem mem_begins {s : AState} {i : Nat} {t : Int} (h : AEvent.begun i t ∈ s.log) : t ∈ begins s i :=
  List.mem_filterMap.mpr ⟨_, h, by simp⟩

/-- The calls that the log speaks about. -/
def storers (s : AState) : List Nat := s.log.filterMap fun e => match e with | .stored i _ _ _ => some i | _ => none

theorem mem_storers {s : AState} {j : Nat} {t : Int} {k : Str} {p : Principal} (h : AEvent.stored j t k p ∈ s.log) : j ∈ storers s :=
  List.mem_filterMap.mpr ⟨_, h, rfl⟩

end Ex

/-- The hypotheses of `C97_withdrawn` hold for a call that finds a stored result, long after the server changed its mind at 205. -/
example : ∃ s, aRun Ex.auCfg Ex.auInit Ex.auRun = some s ∧ Takes 7 Ex.pcEnv ∧
    ChecksSee Ex.auCfg Ex.auInit Ex.auRun (fun x v => ∀ n, LastGood (paceUpd Ex.pcCfg Ex.pcEnv fun _ => true) x n →
      ShowsOnly Ex.auCfg.U (Ex.stServer (paceUpd Ex.pcCfg Ex.pcEnv (fun _ => true) n).start) v) ∧
    (∀ x, 205 ≤ x → Ex.stServer x = Ex.stDoc) ∧
    (∀ n, (205 : Int) ≤ (paceUpd Ex.pcCfg Ex.pcEnv (fun _ => true) n).start → (paceUpd Ex.pcCfg Ex.pcEnv (fun _ => true) n).ok = true) ∧
    StoresWithin 0 s.log ∧ s.now + Ex.auCfg.cacheExp < 2 ^ 63 ∧ s.calls 1 = some ⟨Ex.auReq, .done (.ok Ex.auPrincipal)⟩ ∧
    ∀ tb, .begun 1 tb ∈ s.log → (205 : Int) + max Ex.pcCfg.period (7 + Ex.pcCfg.delay.toNat) + (7 : Nat) + 0 + Ex.auCfg.cacheExp < tb := by
  obtain ⟨s, hs, hp⟩ := Ex.exists_of_map (o := aRun Ex.auCfg Ex.auInit Ex.auRun)
    (p := fun s => decide (Ex.doneOk s 1 Ex.auReq = some Ex.auPrincipal) && decide (Ex.begins s 1 = [Ex.auT 1530]) &&
      decide (Ex.begins s 0 = [Ex.auT 1500]) && decide (Ex.storers s = [0]) && decide (Ex.storesAt s 0 = [Ex.auT 1500]) &&
      decide (s.now = Ex.auT 1530)) (by decide +kernel)
  simp only [Bool.and_eq_true, decide_eq_true_eq] at hp
  obtain ⟨⟨⟨⟨⟨h1, h2⟩, h3⟩, h4⟩, h5⟩, h6⟩ := hp
  have hdoc : ∀ x, 205 ≤ x → Ex.stServer x = Ex.stDoc := fun x hx => if_neg (by omega)
  refine ⟨s, hs, Ex.pcEnv_takes, ?_, hdoc, Ex.pc_ok, ?_, by rw [h6]; decide, Ex.doneOk_iff h1, ?_⟩
  · intro pre j view sched post s1 hacts hs1
    have hm : AAct.check j view sched ∈ Ex.auRun := by rw [hacts]; simp
    simp only [Ex.auRun, Ex.auFull, List.cons_append, List.nil_append, List.mem_cons, List.not_mem_nil, or_false, reduceCtorEq, false_or,
      AAct.check.injEq] at hm
    obtain ⟨_, rfl, rfl⟩ := hm
    have hnow := StaleP.now_run hs1
    have : Ex.auInit.now = 1500000000000 := by decide
    refine ⟨fun n hn => ?_, fun v hv => by simp [Ex.schedR] at hv⟩
    rw [(C94_change Ex.pcCfg Ex.pcEnv (fun _ => true) 7 (by decide) Ex.pcEnv_takes Ex.stServer (fun n => (paceUpd Ex.pcCfg Ex.pcEnv (fun _ => true) n).start)
      (fun n => ⟨Int.le_refl _, by unfold stops; omega⟩) 205 (by decide) Ex.stDoc hdoc Ex.pc_ok s1.now
      (by have : (205 : Int) + max Ex.pcCfg.period (7 + Ex.pcCfg.delay.toNat) + (7 : Nat) = 312 := by decide
          push_cast at this ⊢
          omega)).2 n hn]
    exact Ex.stDoc_shows
  · intro j tb ts k p hb hst
    have := Ex.mem_storers hst
    rw [h4, List.mem_singleton] at this
    subst this
    have a := Ex.mem_begins hb
    have b := Ex.mem_storesAt hst
    rw [h3, List.mem_singleton] at a
    rw [h5, List.mem_singleton] at b
    omega
  · intro tb hb
    have a := Ex.mem_begins hb
    rw [h2, List.mem_singleton] at a
    subst a
    decide

/-- A role certificate is granted in a check at 1000 under the policies that the server has had since 205. -/
example : VerifyRoleCertReturns Ex.coCfg [Ex.rcCert] "read".toList "/x".toList [("dom".toList, ["admin".toList])] [(Ex.auView, Ex.schedR)] (.ok ()) ∧
    ∀ o ∈ [(Ex.auView, Ex.schedR)], ∃ x, (205 : Int) + max Ex.pcCfg.period ((7 : Nat) + Ex.pcCfg.delay.toNat) + (7 : Nat) ≤ x ∧
      ∀ n, LastGood (paceUpd Ex.pcCfg Ex.pcEnv fun _ => true) x n →
        ShowsOnly Ex.coCfg.U (Ex.stServer (paceUpd Ex.pcCfg Ex.pcEnv (fun _ => true) n).start) o.1 ∧
        ∀ v, CheckAct.mutate v ∈ o.2 → ShowsOnly Ex.coCfg.U (Ex.stServer (paceUpd Ex.pcCfg Ex.pcEnv (fun _ => true) n).start) v := by
  refine ⟨Ex.rcCert_grants _ rfl rfl _ _ _ (by decide +kernel), fun o ho => ⟨1000, by decide, fun n hn => ?_⟩⟩
  rw [List.mem_singleton] at ho
  subst ho
  rw [(C94_change Ex.pcCfg Ex.pcEnv (fun _ => true) 7 (by decide) Ex.pcEnv_takes Ex.stServer (fun n => (paceUpd Ex.pcCfg Ex.pcEnv (fun _ => true) n).start)
    (fun n => ⟨Int.le_refl _, by unfold stops; omega⟩) 205 (by decide) Ex.stDoc (fun x hx => if_neg (by omega)) Ex.pc_ok 1000 (by decide)).2 n hn]
  exact ⟨Ex.stDoc_shows, fun v hv => by simp [Ex.schedR] at hv⟩

/-- The hypothesis about validations of `C97_revoked` holds in the same run for a server that has had JWKs since 205, if only updates that got
them let validations find any. -/
example : ∃ s, aRun Ex.auCfg Ex.auInit Ex.auRun = some s ∧ (∃ tv ks jw, AEvent.validated 0 tv ks jw ∈ s.log) ∧
    ∀ j tv ks jw, .validated j tv ks jw ∈ s.log → ∀ n, LastGood (paceUpd Ex.pcCfg Ex.pcEnv fun _ => true) tv n →
      (jw.isSome = true ↔ (205 : Int) ≤ (paceUpd Ex.pcCfg Ex.pcEnv (fun _ => true) n).start) := by
  obtain ⟨s, hs, hp⟩ := Ex.exists_of_map (o := aRun Ex.auCfg Ex.auInit Ex.auRun)
    (p := fun s => decide (Ex.validators s = [0]) && s.log.all fun e => match e with
      | .validated _ tv _ jw => decide (Ex.auT 1500 ≤ tv) && jw.isSome
      | _ => true) (by decide +kernel)
  simp only [Bool.and_eq_true, decide_eq_true_eq, List.all_eq_true] at hp
  refine ⟨s, hs, ?_, fun j tv ks jw h n hn => ?_⟩
  · obtain ⟨e, he, h⟩ := List.mem_filterMap.mp (show 0 ∈ Ex.validators s by rw [hp.1]; simp)
    split at h
    · simp only [Option.some.injEq] at h
      subst h
      exact ⟨_, _, _, he⟩
    · simp at h
  · have h' := hp.2 _ h
    simp only [Bool.and_eq_true, decide_eq_true_eq] at h'
    have ht : (1500000000000 : Int) ≤ tv := h'.1
    have := (C94_change Ex.pcCfg Ex.pcEnv (fun _ => true) 7 (by decide) Ex.pcEnv_takes (fun x => decide ((205 : Int) ≤ x))
      (fun n => (paceUpd Ex.pcCfg Ex.pcEnv (fun _ => true) n).start)
      (fun n => ⟨Int.le_refl _, by unfold stops; omega⟩) 205 (by decide) true (fun x hx => by simp [hx]) Ex.pc_ok tv
      (by have : (205 : Int) + max Ex.pcCfg.period (7 + Ex.pcCfg.delay.toNat) + (7 : Nat) = 312 := by decide
          push_cast at this ⊢
          omega)).2 n hn
    simp only [decide_eq_true_eq] at this
    exact ⟨fun _ => this, fun _ => h'.2⟩

/-- `C97_recent` without the bound on how long a call takes. -/
def C97_slow_statement : Prop :=
  ∀ (cfg : AuthCfg) (now : Int), 0 ≤ now → ∀ (keys : Option KeyProvider) (jwkp : Option JwkProvider) (acts : List AAct) (s : AState),
    aRun cfg (aInit now keys jwkp) acts = some s → ∀ T : Int, 0 < cfg.cacheExp → s.now + cfg.cacheExp < 2 ^ 63 →
    ∀ (i : Nat) (q : AReq) (p : Principal), s.calls i = some ⟨q, .done (.ok p)⟩ → (∀ tb, .begun i tb ∈ s.log → T + cfg.cacheExp < tb) →
    ∃ j q' tb tv, s.calls j = some ⟨q', .done (.ok p)⟩ ∧ cacheKey cfg q' = cacheKey cfg q ∧ FullCheck cfg s.log j q' p tb tv ∧ T < tb

namespace Ex

/-- Call 0 waits 100 seconds before it stores its result; call 1 begins 30 seconds later. -/
def stSlow : List AAct :=
  [.call 0 auReq, .get 0, .validate 0, .translate 0 0, .check 0 auView schedR, .tick 100000000000, .store 0, .tick 30000000000, .call 1 auReq, .get 1]

end Ex

/-- The bound on how long a call takes is needed: the lifetime of a result begins when it is stored. -/
theorem C97_slow_refuted : ¬ C97_slow_statement := by
  intro hst
  obtain ⟨s, hs, hp⟩ := Ex.exists_of_map (o := aRun Ex.auCfg Ex.auInit Ex.stSlow)
    (p := fun s => decide (Ex.doneOk s 1 Ex.auReq = some Ex.auPrincipal) && decide (Ex.begins s 1 = [Ex.auT 1630]) &&
      decide (Ex.begins s 0 = [Ex.auT 1500]) && decide (Ex.validators s = [0]) && decide (s.now = Ex.auT 1630)) (by decide +kernel)
  simp only [Bool.and_eq_true, decide_eq_true_eq] at hp
  obtain ⟨⟨⟨⟨h1, h2⟩, h3⟩, h4⟩, h5⟩ := hp
  obtain ⟨j, q', tb, tv, _, _, hf, hT⟩ := hst Ex.auCfg (Ex.auT 1500) (by decide) (some Ex.roleKeys) (some Ex.atKeys) Ex.stSlow s hs (Ex.auT 1500)
    (by decide) (by rw [h5]; decide) 1 Ex.auReq Ex.auPrincipal (Ex.doneOk_iff h1) (by
      intro tb hb
      have a := Ex.mem_begins hb
      rw [h2, List.mem_singleton] at a
      subst a
      decide)
  obtain ⟨ks, jw, hv, _⟩ := hf.token
  have := Ex.mem_validators hv
  rw [h4, List.mem_singleton] at this
  subst this
  have a := Ex.mem_begins hf.begun
  rw [h3, List.mem_singleton] at a
  omega

end Athenz
