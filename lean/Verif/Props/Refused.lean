import Verif.Proofs.Refused
import Verif.Props.Stale

/-! # C99: every refusal has its own reason, and permissions that are given count after a known time -/

namespace Athenz
open Spec

/-- **C99**, reasons: a call that is refused has a reason of its own for it, found while it ran; what other calls did, and what is cached, is none. -/
theorem C99_refused (cfg : AuthCfg) (now : Int) (h0 : 0 ≤ now) (keys : Option KeyProvider) (jwkp : Option JwkProvider) (acts : List AAct)
    (s : AState) (hr : aRun cfg (aInit now keys jwkp) acts = some s) (i : Nat) (q : AReq) (e : Err)
    (hd : s.calls i = some ⟨q, .done (.err e)⟩) : RefusedBefore cfg s.log s.now i q e ∨ RefusedByPolicy cfg s.log s.now i q e :=
  RefusedP.inv_run h0 hr i q e hd

/-- The error of a token that is not accepted means that the token says nothing. -/
theorem C99_token (cfg : AuthCfg) (t : Int) (keys : Option KeyProvider) (jwkp : Option JwkProvider) (q : AReq) (e : Err)
    (h : TokenFails cfg t keys jwkp q e) (p : Principal) : ¬ TokenSays cfg t keys jwkp q p := by
  intro hs
  unfold TokenFails at h
  unfold TokenSays at hs
  cases hm : q.mode with
  | roleToken =>
    simp only [hm] at h hs
    obtain ⟨ks, rt, hk, hp, _⟩ := hs
    rw [h ks hk] at hp
    simp at hp
  | accessToken =>
    simp only [hm] at h hs
    obtain ⟨ks, rt, hk, hp, _⟩ := hs
    rw [h ks hk] at hp
    simp at hp

/-- The view decides as the assertions `as` say: a role that they deny is denied, else one that they allow is allowed. -/
def Spec.FollowsDoc (U : CaseFns) (as : List RawAssertion) (v : PolicyView) : Prop :=
  ∀ (q : CheckReq) (role : Str), (Decides U q v role (some .denyByPolicy) ↔ Denied U as q.domain role q.action q.resource) ∧
    (Decides U q v role none ↔ Allowed U as q.domain role q.action q.resource ∧ ¬ Denied U as q.domain role q.action q.resource) ∧
    ∀ e, Decides U q v role (some e) → e = .denyByPolicy

/-- Views that represent `as` do (C02: after an update without collisions). -/
theorem followsDoc_of_rep {U : CaseFns} {as : List RawAssertion} {v : PolicyView} (h : ∀ k, RepKey U as k (v k)) : FollowsDoc U as v := by
  intro q role
  have hr := verdict_rep (U := U) (q := q) (h (roleKey q.domain role))
  refine ⟨(decides_iff ..).trans hr.1, (decides_iff ..).trans hr.2.1, fun e hd => ?_⟩
  have hk := h (roleKey q.domain role)
  exact (verdict_deny_sound ⟨hk.denyFirst, hk.sound⟩ ((decides_iff ..).mp hd)).1

/-- **C99**, new permissions: the policy server has `d` from `t` on, and checks see views that decide as what the last update that had succeeded
got.  A call that begins one period (or an update and a pause) and one update after `t` is refused only if its token or its translation is, it is
cancelled, or `d` denies one of its roles or allows none.  There is nothing to wait for beyond that, as refusals are not kept. -/
theorem C99_counts (cfg : AuthCfg) (now : Int) (h0 : 0 ≤ now) (keys : Option KeyProvider) (jwkp : Option JwkProvider) (acts : List AAct)
    (s : AState) (hr : aRun cfg (aInit now keys jwkp) acts = some s)
    (pace : PaceCfg) (env : Nat → Int → TFetch) (pick : Nat → Bool) (U : Nat) (hp : 0 < pace.period) (hU : Takes U env)
    (doc : Int → List RawAssertion) (got : Nat → Int)
    (hgot : ∀ n, (paceUpd pace env pick n).start ≤ got n ∧ got n ≤ stops (paceUpd pace env pick n))
    (hsee : ChecksSee cfg (aInit now keys jwkp) acts fun x v => ∀ n, LastGood (paceUpd pace env pick) x n → FollowsDoc cfg.U (doc (got n)) v)
    (t : Int) (ht : pace.t0 ≤ t) (d : List RawAssertion) (hdoc : ∀ x, t ≤ x → doc x = d)
    (hok : ∀ n, t ≤ (paceUpd pace env pick n).start → (paceUpd pace env pick n).ok = true)
    (i : Nat) (q : AReq) (e : Err) (hd : s.calls i = some ⟨q, .done (.err e)⟩)
    (hi : ∀ tb, .begun i tb ∈ s.log → t + max pace.period (U + pace.delay.toNat) + U ≤ tb)
    (hst : ∀ view sched, .checked i view sched ∈ s.log → ViewStable sched) :
    RefusedBefore cfg s.log s.now i q e ∨
    ∃ p seed act res, SawToken cfg s.log s.now i q p ∧ Translates cfg seed p.domain q act res ∧
      ((e = .ctx ∧ ∃ view sched, .checked i view sched ∈ s.log ∧ CheckAct.cancel ∈ sched) ∨
       (e = .denyByPolicy ∧ ∃ role ∈ p.roles, Denied cfg.U d p.domain role act (cfg.resourcePrefix ++ res)) ∨
       (e = .noMatch ∧ ∀ role ∈ p.roles, ¬ Allowed cfg.U d p.domain role act (cfg.resourcePrefix ++ res))) := by
  rcases C99_refused cfg now h0 keys jwkp acts s hr i q e hd with h | ⟨p, seed, act, res, view, sched, _, h2, _, h4, h5, h6⟩
  · exact .inl h
  · right
    refine ⟨p, seed, act, res, h2, h4, ?_⟩
    obtain ⟨tb, _, _, _, hb, _⟩ := h2
    obtain ⟨x, hx, hv, _⟩ := C97_sees cfg now keys jwkp acts s hr _ hsee i tb hb view sched h5
    have := hi tb hb
    obtain ⟨⟨n, hg⟩, hall⟩ := C94_change pace env pick U hp hU doc got hgot t ht d hdoc hok x (by omega)
    have hf : FollowsDoc cfg.U d view := hall n hg ▸ hv n hg
    rcases check_result (hst view sched h5) h6 with ⟨role, hrole, hdec⟩ | ⟨rfl, hc⟩ | ⟨rfl, hno⟩
    · obtain ⟨f1, _, f3⟩ := hf _ role
      have := f3 e hdec
      subst this
      exact .inr (.inl ⟨rfl, role, hrole, f1.mp hdec⟩)
    · exact .inl ⟨rfl, view, sched, h5, hc⟩
    · refine .inr (.inr ⟨rfl, fun role hrole ha => ?_⟩)
      obtain ⟨f1, f2, _⟩ := hf ⟨p.domain, p.roles, act, cfg.resourcePrefix ++ res⟩ role
      by_cases hden : Denied cfg.U d p.domain role act (cfg.resourcePrefix ++ res)
      · exact hno role hrole _ (f1.mpr hden)
      · exact hno role hrole _ (f2.mpr ⟨ha, hden⟩)

namespace Ex

/-- A request about which the policies say nothing. -/
def reReq : AReq := { auReq with res := "/y".toList }

/-- It is refused by the policies, the token without its certificate by the processor, and a request for nothing before that. -/
def reRun : List AAct :=
  [.call 0 reReq, .get 0, .validate 0, .translate 0 0, .check 0 auView schedNone, .call 1 auReqBare, .get 1, .validate 1,
   .call 2 { auReq with act := [] }, .get 2]

def doneErr (s : AState) (i : Nat) (q : AReq) : Option Err :=
  match s.calls i with
  | some ⟨q', .done (.err e)⟩ => if q' = q then some e else none
  | _ => none

theorem doneErr_iff {s : AState} {i : Nat} {q : AReq} {e : Err} (h : doneErr s i q = some e) : s.calls i = some ⟨q, .done (.err e)⟩ := by
  unfold doneErr at h
  split at h
  · rename_i q' e' hc
    split at h
    · rename_i hq
      simp only [Option.some.injEq] at h
      rw [hc, hq, h]
    · simp at h
  · simp at h

theorem stDoc_follows : FollowsDoc asciiCase stDoc auView := by
  refine followsDoc_of_rep fun k => ?_
  by_cases hk : k = "dom:role.admin".toList
  · have hv : auView k = ((⟨"dom:role.admin".toList, "read".toList, "dom:/x".toList, "ALLOW".toList⟩ : RawAssertion).conv asciiCase).map fun x => [x] :=
      if_pos hk
    have hsome : ((⟨"dom:role.admin".toList, "read".toList, "dom:/x".toList, "ALLOW".toList⟩ : RawAssertion).conv asciiCase).isSome = true := by
      decide +kernel
    obtain ⟨x, hx⟩ := Option.isSome_iff_exists.mp hsome
    rw [hx] at hv
    simp only [Option.map_some] at hv
    have he : x.effect = none := by
      have := conv_effect hx
      rw [this]
      decide +kernel
    rw [hv]
    refine ⟨fun l hl => ?_, fun l hl y hy => ?_, fun a ha hr => ⟨[x], rfl, a, x, by simp, ?_, rfl, rfl, rfl, id⟩⟩
    · simp only [Option.some.injEq] at hl
      subst hl
      exact ⟨[], [x], rfl, by simp, by simp [he]⟩
    · simp only [Option.some.injEq] at hl
      subst hl
      rw [List.mem_singleton] at hy
      subst hy
      exact ⟨_, List.mem_singleton.mpr rfl, hk.symm, hx⟩
    · rw [stDoc, List.mem_singleton] at ha
      subst ha
      exact hx
  · have hv : auView k = none := if_neg hk
    rw [hv]
    refine ⟨by simp, by simp, fun a ha hr => ?_⟩
    rw [stDoc, List.mem_singleton] at ha
    subst ha
    exact absurd hr.symm hk

end Ex

/-- The hypotheses of `C99_refused` hold for refusals of three kinds. -/
example : ∃ s, aRun Ex.auCfg Ex.auInit Ex.reRun = some s ∧ s.calls 0 = some ⟨Ex.reReq, .done (.err .noMatch)⟩ ∧
    (∃ e, s.calls 1 = some ⟨Ex.auReqBare, .done (.err e)⟩) ∧ s.calls 2 = some ⟨{ Ex.auReq with act := [] }, .done (.err .invalidParameters)⟩ := by
  obtain ⟨s, hs, hp⟩ := Ex.exists_of_map (o := aRun Ex.auCfg Ex.auInit Ex.reRun)
    (p := fun s => decide (Ex.doneErr s 0 Ex.reReq = some .noMatch) && (Ex.doneErr s 1 Ex.auReqBare).isSome &&
      decide (Ex.doneErr s 2 { Ex.auReq with act := [] } = some .invalidParameters)) (by decide +kernel)
  simp only [Bool.and_eq_true, decide_eq_true_eq, Option.isSome_iff_exists] at hp
  obtain ⟨⟨h1, e, h2⟩, h3⟩ := hp
  exact ⟨s, hs, Ex.doneErr_iff h1, ⟨e, Ex.doneErr_iff h2⟩, Ex.doneErr_iff h3⟩

/-- The hypotheses of `C99_counts` hold in the same run, for a server that has had the policies since 205. -/
example : ∃ s, aRun Ex.auCfg Ex.auInit Ex.reRun = some s ∧
    ChecksSee Ex.auCfg Ex.auInit Ex.reRun (fun x v => ∀ n, LastGood (paceUpd Ex.pcCfg Ex.pcEnv fun _ => true) x n →
      FollowsDoc Ex.auCfg.U (Ex.stServer (paceUpd Ex.pcCfg Ex.pcEnv (fun _ => true) n).start) v) ∧
    s.calls 0 = some ⟨Ex.reReq, .done (.err .noMatch)⟩ ∧
    (∀ tb, .begun 0 tb ∈ s.log → (205 : Int) + max Ex.pcCfg.period (7 + Ex.pcCfg.delay.toNat) + (7 : Nat) ≤ tb) ∧
    ∀ view sched, AEvent.checked 0 view sched ∈ s.log → ViewStable sched := by
  obtain ⟨s, hs, hp⟩ := Ex.exists_of_map (o := aRun Ex.auCfg Ex.auInit Ex.reRun)
    (p := fun s => decide (Ex.doneErr s 0 Ex.reReq = some .noMatch) && decide (Ex.begins s 0 = [Ex.auT 1500])) (by decide +kernel)
  simp only [Bool.and_eq_true, decide_eq_true_eq] at hp
  have hone : ∀ j view sched, AAct.check j view sched ∈ Ex.reRun → view = Ex.auView ∧ sched = Ex.schedNone := by
    intro j view sched hm
    simp only [Ex.reRun, List.mem_cons, List.not_mem_nil, or_false, reduceCtorEq, false_or, AAct.check.injEq] at hm
    exact hm.2
  refine ⟨s, hs, ?_, Ex.doneErr_iff hp.1, fun tb hb => ?_, fun view sched hc => ?_⟩
  · intro pre j view sched post s1 hacts hs1
    obtain ⟨rfl, rfl⟩ := hone j view sched (by rw [hacts]; simp)
    have hnow := StaleP.now_run hs1
    have : Ex.auInit.now = 1500000000000 := by decide
    refine ⟨fun n hn => ?_, fun v hv => by simp [Ex.schedNone] at hv⟩
    rw [(C94_change Ex.pcCfg Ex.pcEnv (fun _ => true) 7 (by decide) Ex.pcEnv_takes Ex.stServer (fun n => (paceUpd Ex.pcCfg Ex.pcEnv (fun _ => true) n).start)
      (fun n => ⟨Int.le_refl _, by unfold stops; omega⟩) 205 (by decide) Ex.stDoc (fun x hx => if_neg (by omega)) Ex.pc_ok s1.now
      (by have : (205 : Int) + max Ex.pcCfg.period (7 + Ex.pcCfg.delay.toNat) + (7 : Nat) = 312 := by decide
          push_cast at this ⊢
          omega)).2 n hn]
    exact Ex.stDoc_follows
  · have a := Ex.mem_begins hb
    rw [hp.2, List.mem_singleton] at a
    subst a
    decide
  · obtain ⟨_, pre, post, s1, hacts, _⟩ := (StaleP.inv_run (by rfl) hs).checked 0 view sched hc
    obtain ⟨_, rfl⟩ := hone 0 view sched (by rw [hacts]; simp)
    intro a ha
    simp only [Ex.schedNone, List.mem_cons, List.not_mem_nil, or_false] at ha
    rcases ha with rfl | rfl | rfl | rfl | rfl <;> trivial

end Athenz
