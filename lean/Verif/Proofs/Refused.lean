import Verif.Spec.Refused
import Verif.Proofs.Stale

/-! # C99: the reasons for refusals -/

namespace Athenz
open Spec

namespace RefusedP

theorem tokenFails {cfg : AuthCfg} {keys : Option KeyProvider} {jwkp : Option JwkProvider} {t : Int} {q : AReq} {e : Err}
    (h : validateToken cfg keys jwkp (clock t) q = .err e) : TokenFails cfg t keys jwkp q e := by
  unfold validateToken at h
  unfold TokenFails
  cases hm : q.mode with
  | roleToken =>
    simp only [hm] at h ⊢
    rintro ks rfl
    split at h
    · simp at h
    · rename_i e' hv
      simp only [Res.err.injEq] at h
      subst h
      unfold validateRole at hv
      split at hv
      · exact hv
      · simp at hv
    · simp at h
  | accessToken =>
    simp only [hm] at h ⊢
    rintro ks rfl
    split at h
    · simp at h
    · rename_i e' hv
      simp only [Res.err.injEq] at h
      subst h
      unfold validateAccess at hv
      split at hv
      · exact hv
      · simp at hv
    · simp at h

theorem translate_err {cfg : AuthCfg} {seed : Nat} {domain : Str} {q : AReq} {e : Err} (h : translate cfg seed domain q = .err e) :
    ∃ t, cfg.translator = some t ∧ t seed domain q.act q.res q.query = .err e := by
  unfold translate at h
  split at h
  · simp at h
  · rename_i t ht
    exact ⟨t, ht, h⟩

/-- What the refusals of a state go back to. -/
def Inv (cfg : AuthCfg) (s : AState) : Prop :=
  ∀ i q e, s.calls i = some ⟨q, .done (.err e)⟩ → RefusedBefore cfg s.log s.now i q e ∨ RefusedByPolicy cfg s.log s.now i q e

theorem sawToken_mono {cfg : AuthCfg} {log log' : List AEvent} {now now' : Int} {i : Nat} {q : AReq} {p : Principal}
    (h : SawToken cfg log now i q p) (hl : ∀ ev ∈ log, ev ∈ log') (hn : now ≤ now') : SawToken cfg log' now' i q p := by
  obtain ⟨tb, tv, ks, jw, h1, h2, h3, h4, h5⟩ := h
  exact ⟨tb, tv, ks, jw, hl _ h1, h2, by omega, hl _ h4, h5⟩

theorem mono {cfg : AuthCfg} {log log' : List AEvent} {now now' : Int} {i : Nat} {q : AReq} {e : Err}
    (h : RefusedBefore cfg log now i q e ∨ RefusedByPolicy cfg log now i q e) (hl : ∀ ev ∈ log, ev ∈ log') (hn : now ≤ now') :
    RefusedBefore cfg log' now' i q e ∨ RefusedByPolicy cfg log' now' i q e := by
  rcases h with h | ⟨p, seed, act, res, view, sched, h1, h2, h3, h4, h5, h6⟩
  · left
    cases h with
    | empty hp hq he => exact .empty hp hq he
    | token tb tv keys jwkp hb h1 h2 hv ht => exact .token tb tv keys jwkp (hl _ hb) h1 (by omega) (hl _ hv) ht
    | translator p seed t hp ht hs hc he => exact .translator p seed t hp (sawToken_mono ht hl hn) (hl _ hs) hc he
  · exact .inr ⟨p, seed, act, res, view, sched, h1, sawToken_mono h2 hl hn, hl _ h3, h4, hl _ h5, h6⟩

/-- A step that only moves call `j`. -/
theorem move {cfg : AuthCfg} {s s' : AState} (hi : Inv cfg s) {j : Nat} {q0 : AReq} {pc : Pc} (hl : ∀ ev ∈ s.log, ev ∈ s'.log) (hn : s'.now = s.now)
    (hc : s'.calls = fun i => if i = j then some ⟨q0, pc⟩ else s.calls i)
    (hpc : ∀ e, pc = .done (.err e) → RefusedBefore cfg s'.log s'.now j q0 e ∨ RefusedByPolicy cfg s'.log s'.now j q0 e) : Inv cfg s' := by
  intro i q e h
  rw [hc] at h
  simp only at h
  split at h
  · rename_i hij
    simp only [Option.some.injEq, Call.mk.injEq] at h
    obtain ⟨rfl, h⟩ := h
    rw [hij]
    exact hpc e h
  · exact mono (hi i q e h) hl (by omega)

theorem inv_step {cfg : AuthCfg} {s s' : AState} {a : AAct} (ha : AInv cfg s) (hi : Inv cfg s) (h : aStep cfg s a = some s') : Inv cfg s' := by
  have keep : ∀ s1 : AState, s1.calls = s.calls → (∀ ev ∈ s.log, ev ∈ s1.log) → s.now ≤ s1.now → Inv cfg s1 := by
    intro s1 hc hl hn i q e h
    rw [hc] at h
    exact mono (hi i q e h) hl hn
  cases aStep_effect h with
  | call i q h0 => exact move hi (j := i) (q0 := q) (pc := .start) (by simp [AState.note, AState.setPc]; exact fun ev h => .inl h) rfl rfl (by simp)
  | sub k i q rest tried hs h0 =>
    exact move hi (j := i) (q0 := q) (pc := .start) (by simp [AState.note, AState.setPc, AState.setSess]; exact fun ev h => .inl h) rfl rfl (by simp)
  | bad i q h0 he =>
    refine move hi (j := i) (q0 := q) (pc := .done (.err .invalidParameters)) (by simp [AState.setPc]) rfl rfl fun e h => ?_
    simp only [Pc.done.injEq, Res.err.injEq] at h
    exact .inl (.empty he.1 he.2 h.symm)
  | hit i q p => exact move hi (j := i) (q0 := q) (pc := .done (.ok p)) (by simp [AState.note, AState.setPc]; exact fun ev h => .inl h) rfl rfl (by simp)
  | miss i q => exact move hi (j := i) (q0 := q) (pc := .miss) (by simp [AState.setPc]) rfl rfl (by simp)
  | valid i q p =>
    refine move hi (j := i) (q0 := q) (pc := if cfg.disablePolicyd then .checked p else .validated p)
      (by simp [AState.note, AState.setPc]; exact fun ev h => .inl h) rfl rfl ?_
    intro e h
    split at h <;> simp at h
  | invalid i q r h0 hv hr =>
    refine move hi (j := i) (q0 := q) (pc := .done r) (by simp [AState.note, AState.setPc]; exact fun ev h => .inl h) rfl rfl fun e h => ?_
    simp only [Pc.done.injEq] at h
    subst h
    obtain ⟨⟨tb, hb, hn⟩, _⟩ := ha.pcs i q _ h0
    exact .inl (.token tb s.now s.keys s.jwkp (by simp [AState.note, AState.setPc, hb]) hn (Int.le_refl _) (by simp [AState.note, AState.setPc])
      (tokenFails hv))
  | trans i seed q p act res =>
    exact move hi (j := i) (q0 := q) (pc := .translated p act res)
      (by simp [AState.note, AState.setPc]; exact fun ev h => .inl h) rfl rfl (by simp)
  | transFail i seed q p r h0 hf hr =>
    refine move hi (j := i) (q0 := q) (pc := .done r) (by simp [AState.note, AState.setPc]; exact fun ev h => .inl h) rfl rfl fun e h => ?_
    simp only [Pc.done.injEq] at h
    subst h
    obtain ⟨ht, hp⟩ := ha.pcs i q _ h0
    have : translate cfg seed p.domain q = .err e := by
      cases hc : translate cfg seed p.domain q with
      | ok x => simp [hc, Res.fail] at hf
      | err e' => simpa [hc, Res.fail] using hf
      | panic => simp [hc, Res.fail] at hf
    obtain ⟨t, h1, h2⟩ := translate_err this
    exact .inl (.translator p seed t hp (sawToken_mono ht.ev (by simp [AState.note, AState.setPc]; exact fun ev h => .inl h) (Int.le_refl _))
      (by simp [AState.note, AState.setPc]) h1 h2)
  | check i view sched q p act res rs =>
    exact move hi (j := i) (q0 := q) (pc := .checked { p with authorizedRoles := rs })
      (by simp [AState.note, AState.setPc]; exact fun ev h => .inl h) rfl rfl (by simp)
  | checkFail i view sched q p act res r h0 hf hr =>
    refine move hi (j := i) (q0 := q) (pc := .done r) (by simp [AState.note, AState.setPc]; exact fun ev h => .inl h) rfl rfl fun e h => ?_
    simp only [Pc.done.injEq] at h
    subst h
    obtain ⟨ht, hp, seed, h1, h2⟩ := ha.pcs i q _ h0
    have : checkResult cfg.U ⟨p.domain, p.roles, act, cfg.resourcePrefix ++ res⟩ view sched = some (.err e) := by
      cases hc : checkResult cfg.U ⟨p.domain, p.roles, act, cfg.resourcePrefix ++ res⟩ view sched with
      | none => simp [hc] at hf
      | some x =>
        cases x with
        | ok x => simp [hc, Res.fail] at hf
        | err e' => simpa [hc, Res.fail] using hf
        | panic => simp [hc, Res.fail] at hf
    exact .inr ⟨p, seed, act, res, view, sched, hp, sawToken_mono ht.ev (by simp [AState.note, AState.setPc]; exact fun ev h => .inl h) (Int.le_refl _),
      by simp [AState.note, AState.setPc, h1], h2, by simp [AState.note, AState.setPc], checkResult_iff.mp this⟩
  | store i q p => exact move hi (j := i) (q0 := q) (pc := .done (.ok p)) (by simp [AState.note, AState.setPc]; exact fun ev h => .inl h) rfl rfl (by simp)
  | opened => exact keep _ rfl (by simp [AState.note, AState.setSess]; exact fun ev h => .inl h) (Int.le_refl _)
  | tick d => exact keep _ rfl (fun _ h => h) (by show s.now ≤ s.now + d; omega)
  | _ => exact keep _ rfl (fun _ h => h) (Int.le_refl _)

theorem inv_run {cfg : AuthCfg} {now : Int} (h0 : 0 ≤ now) {keys : Option KeyProvider} {jwkp : Option JwkProvider} {acts : List AAct} {s : AState}
    (hr : aRun cfg (aInit now keys jwkp) acts = some s) : Inv cfg s :=
  (aRun_ind (P := fun s => AInv cfg s ∧ Inv cfg s) (fun _ _ _ hi h => ⟨aInv_step hi.1 h, inv_step hi.1 hi.2 h⟩)
    ⟨aInv_init h0 keys jwkp, fun i q e h => by simp [aInit] at h⟩ hr).2

end RefusedP

end Athenz
