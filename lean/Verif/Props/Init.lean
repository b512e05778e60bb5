import Verif.Model.Boot
import Verif.Props.Examples

/-! # C54: Init -/

namespace Athenz

/-- The effects of the steps of `Init`. -/
inductive IEffect (c : InitCfg) (ce : Str) (s : IState) : IAct → IState → Prop
  | cancel : IEffect c ce s .cancel { s with cancelled := true }
  | stop1 : s.g1 = .start → s.egDone = true → IEffect c ce s .begin1 { s with g1 := .ret (some ce) }
  | pubkeys : s.g1 = .start → s.egDone = false → c.pubkeyd = true → IEffect c ce s .begin1 { s with g1 := .pubkeys }
  | policies : s.g1 = .start → s.egDone = false → c.pubkeyd = false → c.policyd = true → IEffect c ce s .begin1 { s with g1 := .policies }
  | nothing : s.g1 = .start → s.egDone = false → c.pubkeyd = false → c.policyd = false → IEffect c ce s .begin1 { s with g1 := .ret none }
  | pubkeyErr (e) : s.g1 = .pubkeys → IEffect c ce s (.pubkeyRet (some e)) { s with g1 := .ret (some e) }
  | pubkeyOk : s.g1 = .pubkeys → c.policyd = true → IEffect c ce s (.pubkeyRet none) { s with g1 := .policies }
  | pubkeyEnd : s.g1 = .pubkeys → c.policyd = false → IEffect c ce s (.pubkeyRet none) { s with g1 := .ret none }
  | policy (r) : s.g1 = .policies → IEffect c ce s (.policyRet r) { s with g1 := .ret r }
  | stop2 : s.g2 = .start → s.egDone = true → IEffect c ce s .begin2 { s with g2 := .ret (some ce) }
  | keys : s.g2 = .start → s.egDone = false → IEffect c ce s .begin2 { s with g2 := .keys }
  | jwk (r) : s.g2 = .keys → IEffect c ce s (.jwkRet r) { s with g2 := .ret r }
  | report1 (r) : s.g1 = .ret r → IEffect c ce s .report1 { s with g1 := .done, first := keepFirst s.first r }
  | report2 (r) : s.g2 = .ret r → IEffect c ce s .report2 { s with g2 := .done, first := keepFirst s.first r }
  | wait : s.g1 = .done → (s.g2 = .done ∨ s.g2 = .absent) → s.result = none → IEffect c ce s .wait { s with result := some s.first }

theorem iStep_effect {c : InitCfg} {ce : Str} {s s' : IState} {a : IAct} (h : iStep c ce s a = some s') : IEffect c ce s a s' := by
  cases a with
  | cancel => simp only [iStep, Option.some.injEq] at h; subst h; exact .cancel
  | begin1 =>
    simp only [iStep] at h
    split at h
    · rename_i h1
      split at h
      · rename_i h2; simp only [Option.some.injEq] at h; subst h; exact .stop1 h1 h2
      · rename_i h2
        simp only [Bool.not_eq_true] at h2
        split at h
        · rename_i h3; simp only [Option.some.injEq] at h; subst h; exact .pubkeys h1 h2 h3
        · rename_i h3
          simp only [Bool.not_eq_true] at h3
          simp only [Option.some.injEq] at h
          subst h
          unfold afterPubkeys
          cases h4 : c.policyd with
          | true => exact .policies h1 h2 h3 h4
          | false => exact .nothing h1 h2 h3 h4
    · cases h
  | pubkeyRet r =>
    simp only [iStep] at h
    split at h
    · rename_i h1
      cases r with
      | some e => simp only [Option.some.injEq] at h; subst h; exact .pubkeyErr e h1
      | none =>
        simp only [Option.some.injEq] at h
        subst h
        unfold afterPubkeys
        cases h4 : c.policyd with
        | true => exact .pubkeyOk h1 h4
        | false => exact .pubkeyEnd h1 h4
    · cases h
  | policyRet r =>
    simp only [iStep] at h
    split at h
    · rename_i h1; simp only [Option.some.injEq] at h; subst h; exact .policy r h1
    · cases h
  | begin2 =>
    simp only [iStep] at h
    split at h
    · rename_i h1
      split at h
      · rename_i h2; simp only [Option.some.injEq] at h; subst h; exact .stop2 h1 h2
      · rename_i h2
        simp only [Bool.not_eq_true] at h2
        simp only [Option.some.injEq] at h; subst h; exact .keys h1 h2
    · cases h
  | jwkRet r =>
    simp only [iStep] at h
    split at h
    · rename_i h1; simp only [Option.some.injEq] at h; subst h; exact .jwk r h1
    · cases h
  | report1 =>
    simp only [iStep] at h
    split at h
    · rename_i r h1; simp only [Option.some.injEq] at h; subst h; exact .report1 r h1
    · cases h
  | report2 =>
    simp only [iStep] at h
    split at h
    · rename_i r h1; simp only [Option.some.injEq] at h; subst h; exact .report2 r h1
    · cases h
  | wait =>
    simp only [iStep] at h
    split at h
    · rename_i h1; simp only [Option.some.injEq] at h; subst h; exact .wait h1.1 h1.2.1 h1.2.2
    · cases h

theorem iRun_append {c : InitCfg} {ce : Str} {s : IState} {as bs : List IAct} :
    iRun c ce s (as ++ bs) = (iRun c ce s as).bind fun s' => iRun c ce s' bs := by
  induction as generalizing s with
  | nil => rfl
  | cons a as ih =>
    simp only [List.cons_append, iRun]
    cases iStep c ce s a with
    | none => rfl
    | some s' => exact ih

/-- Induction over the steps after some state. -/
theorem iRun_from {c : InitCfg} {ce : Str} {P : List IAct → IState → Prop}
    (hs : ∀ as s a s', P as s → IEffect c ce s a s' → P (as ++ [a]) s') :
    ∀ bs as s s', P as s → iRun c ce s bs = some s' → P (as ++ bs) s' := by
  intro bs
  induction bs with
  | nil => intro as s s' hp h; cases h; simpa using hp
  | cons b bs ih =>
    intro as s s' hp h
    simp only [iRun] at h
    split at h
    · rename_i s1 h1
      rw [show as ++ b :: bs = (as ++ [b]) ++ bs by simp]
      exact ih _ s1 s' (hs as s b s1 hp (iStep_effect h1)) h
    · cases h

theorem iRun_hist {c : InitCfg} {ce : Str} {P : List IAct → IState → Prop} (h0 : P [] (iInit c))
    (hs : ∀ as s a s', P as s → IEffect c ce s a s' → P (as ++ [a]) s') :
    ∀ as s, iRun c ce (iInit c) as = some s → P as s := fun as s h => iRun_from hs as [] _ s h0 h

/-- Nobody has called or finished the updates of the first goroutine. -/
def Spec.Untouched1 (acts : List IAct) : Prop := ∀ r, IAct.pubkeyRet r ∉ acts ∧ IAct.policyRet r ∉ acts

/-- All updates of the first goroutine succeeded, and none failed. -/
def Spec.Good1 (c : InitCfg) (acts : List IAct) : Prop :=
  (c.pubkeyd = true → IAct.pubkeyRet none ∈ acts) ∧ (c.policyd = true → IAct.policyRet none ∈ acts) ∧
  ∀ e, IAct.pubkeyRet (some e) ∉ acts ∧ IAct.policyRet (some e) ∉ acts

def Spec.Good2 (c : InitCfg) (acts : List IAct) : Prop :=
  (c.jwkd = true → IAct.jwkRet none ∈ acts) ∧ ∀ e, IAct.jwkRet (some e) ∉ acts

/-- The error of an update that failed, or of the context if it was cancelled. -/
def Spec.Source (ce : Str) (acts : List IAct) (e : Str) : Prop :=
  IAct.pubkeyRet (some e) ∈ acts ∨ IAct.policyRet (some e) ∈ acts ∨ IAct.jwkRet (some e) ∈ acts ∨ (e = ce ∧ IAct.cancel ∈ acts)

open Spec

theorem Spec.Source.mono {ce : Str} {as : List IAct} {e : Str} (h : Source ce as e) (bs : List IAct) : Source ce (as ++ bs) e := by
  rcases h with h | h | h | ⟨h1, h2⟩
  · exact .inl (List.mem_append_left _ h)
  · exact .inr (.inl (List.mem_append_left _ h))
  · exact .inr (.inr (.inl (List.mem_append_left _ h)))
  · exact .inr (.inr (.inr ⟨h1, List.mem_append_left _ h2⟩))

/-- What the first goroutine has done so far. -/
def Inv1 (c : InitCfg) (ce : Str) (acts : List IAct) (s : IState) : Prop :=
  match s.g1 with
  | .start => Untouched1 acts
  | .pubkeys => c.pubkeyd = true ∧ Untouched1 acts
  | .policies => c.policyd = true ∧ (c.pubkeyd = true → IAct.pubkeyRet none ∈ acts) ∧ (∀ r, IAct.policyRet r ∉ acts) ∧
      ∀ e, IAct.pubkeyRet (some e) ∉ acts
  | .ret none => Good1 c acts
  | .ret (some e) => Source ce acts e ∨ s.first ≠ none
  | .done => Good1 c acts ∨ s.first ≠ none

def Inv2 (c : InitCfg) (ce : Str) (acts : List IAct) (s : IState) : Prop :=
  match s.g2 with
  | .absent => c.jwkd = false ∧ ∀ r, IAct.jwkRet r ∉ acts
  | .start => c.jwkd = true ∧ ∀ r, IAct.jwkRet r ∉ acts
  | .keys => c.jwkd = true ∧ ∀ r, IAct.jwkRet r ∉ acts
  | .ret none => c.jwkd = true ∧ Good2 c acts
  | .ret (some e) => c.jwkd = true ∧ (Source ce acts e ∨ s.first ≠ none)
  | .done => c.jwkd = true ∧ (Good2 c acts ∨ s.first ≠ none)

structure IInv (c : InitCfg) (ce : Str) (acts : List IAct) (s : IState) : Prop where
  one : Inv1 c ce acts s
  two : Inv2 c ce acts s
  source : ∀ e, s.first = some e → Source ce acts e
  cancelled : s.cancelled = true → IAct.cancel ∈ acts
  result : ∀ r, s.result = some r → r = s.first ∧ s.g1 = .done ∧ (s.g2 = .done ∨ s.g2 = .absent)
  off : (c.pubkeyd = false → ∀ r, IAct.pubkeyRet r ∉ acts) ∧ (c.policyd = false → ∀ r, IAct.policyRet r ∉ acts)

theorem inv1_other {c : InitCfg} {ce : Str} {as : List IAct} {s s' : IState} {a : IAct} (h : Inv1 c ce as s) (hg : s'.g1 = s.g1)
    (hf : s.first ≠ none → s'.first ≠ none) (ha : ∀ r, a ≠ .pubkeyRet r ∧ a ≠ .policyRet r) : Inv1 c ce (as ++ [a]) s' := by
  have hm : ∀ b, b ≠ a → (b ∈ as ++ [a] ↔ b ∈ as) := by intro b hb; simp [hb]
  have hpk : ∀ r, (IAct.pubkeyRet r ∈ as ++ [a] ↔ IAct.pubkeyRet r ∈ as) := fun r => hm _ (fun hc => (ha r).1 hc.symm)
  have hpo : ∀ r, (IAct.policyRet r ∈ as ++ [a] ↔ IAct.policyRet r ∈ as) := fun r => hm _ (fun hc => (ha r).2 hc.symm)
  unfold Inv1 at *
  rw [hg]
  split <;> rename_i he <;> simp only [he] at h
  · intro r; rw [hpk, hpo]; exact h r
  · refine ⟨h.1, fun r => ?_⟩; rw [hpk, hpo]; exact h.2 r
  · simp only [hpk, hpo]; exact h
  · unfold Good1; simp only [hpk, hpo]; exact h
  · exact h.imp (fun h => h.mono _) hf
  · unfold Good1 at *; simp only [hpk, hpo]; exact h.imp id hf

theorem inv2_other {c : InitCfg} {ce : Str} {as : List IAct} {s s' : IState} {a : IAct} (h : Inv2 c ce as s) (hg : s'.g2 = s.g2)
    (hf : s.first ≠ none → s'.first ≠ none) (ha : ∀ r, a ≠ .jwkRet r) : Inv2 c ce (as ++ [a]) s' := by
  have hj : ∀ r, (IAct.jwkRet r ∈ as ++ [a] ↔ IAct.jwkRet r ∈ as) := by
    intro r
    have : IAct.jwkRet r ≠ a := fun hc => ha r hc.symm
    simp [this]
  unfold Inv2 at *
  rw [hg]
  split <;> rename_i he <;> simp only [he] at h
  · simp only [hj]; exact h
  · simp only [hj]; exact h
  · simp only [hj]; exact h
  · unfold Good2; simp only [hj]; exact h
  · exact ⟨h.1, h.2.imp (fun h => h.mono _) hf⟩
  · unfold Good2 at *; simp only [hj]; exact ⟨h.1, h.2.imp id hf⟩

theorem egDone_source {c : InitCfg} {ce : Str} {as : List IAct} {s : IState} (h : IInv c ce as s) (hd : s.egDone = true) (a : IAct) :
    Source ce (as ++ [a]) ce ∨ s.first ≠ none := by
  simp only [IState.egDone, Bool.or_eq_true] at hd
  rcases hd with hd | hd
  · exact .inl (Source.mono (.inr (.inr (.inr ⟨rfl, h.cancelled hd⟩))) _)
  · right; intro hc; rw [hc] at hd; cases hd

theorem keepFirst_ne {f r : Option Str} (h : f ≠ none) : keepFirst f r ≠ none := by
  cases f with
  | none => exact absurd rfl h
  | some e => simp [keepFirst]

theorem iInv_run {c : InitCfg} {ce : Str} : ∀ as s, iRun c ce (iInit c) as = some s → IInv c ce as s := by
  refine iRun_hist ?_ ?_
  · refine ⟨by simp [Inv1, iInit, Untouched1], ?_, by simp [iInit], by simp [iInit], by simp [iInit], by simp⟩
    unfold Inv2 iInit
    cases h : c.jwkd <;> simp
  · intro as s a s' hi he
    have hres : ∀ r, s.result = some r → s.g1 = .done := fun r hr => (hi.result r hr).2.1
    cases he with
    | cancel =>
      exact ⟨inv1_other hi.one rfl id (by simp), inv2_other hi.two rfl id (by simp), fun e h => (hi.source e h).mono _, by simp, hi.result,
        by simpa using hi.off⟩
    | stop1 h1 h2 =>
      refine ⟨?_, inv2_other hi.two rfl id (by simp), fun e h => (hi.source e h).mono _, fun h => by simpa using hi.cancelled h,
        fun r hr => absurd (hres r hr) (by simp [h1]), by simpa using hi.off⟩
      exact egDone_source hi h2 _
    | pubkeys h1 h2 h3 =>
      refine ⟨?_, inv2_other hi.two rfl id (by simp), fun e h => (hi.source e h).mono _, fun h => by simpa using hi.cancelled h,
        fun r hr => absurd (hres r hr) (by simp [h1]), by simpa using hi.off⟩
      have := hi.one
      unfold Inv1 at this
      simp only [h1] at this
      exact ⟨h3, by simpa [Untouched1] using this⟩
    | policies h1 h2 h3 h4 =>
      refine ⟨?_, inv2_other hi.two rfl id (by simp), fun e h => (hi.source e h).mono _, fun h => by simpa using hi.cancelled h,
        fun r hr => absurd (hres r hr) (by simp [h1]), by simpa using hi.off⟩
      have := hi.one
      unfold Inv1 at this
      simp only [h1, Untouched1] at this
      exact ⟨h4, by simp [h3], by simp [this], by simp [this]⟩
    | nothing h1 h2 h3 h4 =>
      refine ⟨?_, inv2_other hi.two rfl id (by simp), fun e h => (hi.source e h).mono _, fun h => by simpa using hi.cancelled h,
        fun r hr => absurd (hres r hr) (by simp [h1]), by simpa using hi.off⟩
      have := hi.one
      unfold Inv1 at this
      simp only [h1, Untouched1] at this
      exact ⟨by simp [h3], by simp [h4], by simp [this]⟩
    | pubkeyErr e h1 =>
      have h0 := hi.one
      unfold Inv1 at h0
      simp only [h1] at h0
      refine ⟨?_, inv2_other hi.two rfl id (by simp), fun e h => (hi.source e h).mono _, fun h => by simpa using hi.cancelled h,
        fun r hr => absurd (hres r hr) (by simp [h1]), ?_⟩
      · exact .inl (.inl (by simp))
      · exact ⟨fun h => absurd h0.1 (by simp [h]), by simpa using hi.off.2⟩
    | pubkeyOk h1 h2 =>
      have h0 := hi.one
      unfold Inv1 at h0
      simp only [h1, Untouched1] at h0
      refine ⟨?_, inv2_other hi.two rfl id (by simp), fun e h => (hi.source e h).mono _, fun h => by simpa using hi.cancelled h,
        fun r hr => absurd (hres r hr) (by simp [h1]), ?_⟩
      · exact ⟨h2, by simp, by simp [h0.2], by simp [h0.2]⟩
      · exact ⟨fun h => absurd h0.1 (by simp [h]), by simpa using hi.off.2⟩
    | pubkeyEnd h1 h2 =>
      have h0 := hi.one
      unfold Inv1 at h0
      simp only [h1, Untouched1] at h0
      refine ⟨?_, inv2_other hi.two rfl id (by simp), fun e h => (hi.source e h).mono _, fun h => by simpa using hi.cancelled h,
        fun r hr => absurd (hres r hr) (by simp [h1]), ?_⟩
      · exact ⟨by simp, by simp [h2], by simp [h0.2]⟩
      · exact ⟨fun h => absurd h0.1 (by simp [h]), by simpa using hi.off.2⟩
    | policy r h1 =>
      have h0 := hi.one
      unfold Inv1 at h0
      simp only [h1] at h0
      refine ⟨?_, inv2_other hi.two rfl id (by simp), fun e h => (hi.source e h).mono _, fun h => by simpa using hi.cancelled h,
        fun r hr => absurd (hres r hr) (by simp [h1]), ?_⟩
      · cases r with
        | none => exact ⟨fun h => by simp [h0.2.1 h], by simp, by simp [h0.2.2]⟩
        | some e => exact .inl (.inr (.inl (by simp)))
      · exact ⟨by simpa using hi.off.1, fun h => absurd h0.1 (by simp [h])⟩
    | stop2 h1 h2 =>
      have h0 := hi.two
      unfold Inv2 at h0
      simp only [h1] at h0
      exact ⟨inv1_other hi.one rfl id (by simp), ⟨h0.1, egDone_source hi h2 _⟩, fun e h => (hi.source e h).mono _,
        fun h => by simpa using hi.cancelled h, fun r hr => by have := (hi.result r hr).2.2; simp [h1] at this, by simpa using hi.off⟩
    | keys h1 h2 =>
      have h0 := hi.two
      unfold Inv2 at h0
      simp only [h1] at h0
      exact ⟨inv1_other hi.one rfl id (by simp), ⟨h0.1, by simpa using h0.2⟩, fun e h => (hi.source e h).mono _,
        fun h => by simpa using hi.cancelled h, fun r hr => by have := (hi.result r hr).2.2; simp [h1] at this, by simpa using hi.off⟩
    | jwk r h1 =>
      have h0 := hi.two
      unfold Inv2 at h0
      simp only [h1] at h0
      refine ⟨inv1_other hi.one rfl id (by simp), ?_, fun e h => (hi.source e h).mono _,
        fun h => by simpa using hi.cancelled h, fun r hr => by have := (hi.result r hr).2.2; simp [h1] at this, by simpa using hi.off⟩
      cases r with
      | none => exact ⟨h0.1, by simp, by simp [h0.2]⟩
      | some e => exact ⟨h0.1, .inl (.inr (.inr (.inl (by simp))))⟩
    | report1 r h1 =>
      have h0 := hi.one
      unfold Inv1 at h0
      simp only [h1] at h0
      refine ⟨?_, inv2_other hi.two rfl keepFirst_ne (by simp), ?_, fun h => by simpa using hi.cancelled h,
        fun r hr => absurd (hres r hr) (by simp [h1]), by simpa using hi.off⟩
      · show Good1 c (as ++ [.report1]) ∨ keepFirst s.first r ≠ none
        cases r with
        | none => left; simp only at h0; unfold Good1 at *; simpa using h0
        | some e => right; unfold keepFirst; split <;> simp
      · intro e h
        simp only [keepFirst] at h
        split at h
        · rename_i e' hf; rw [Option.some.injEq] at h; subst h; exact (hi.source _ hf).mono _
        · rename_i hf
          subst h
          simp only at h0
          rcases h0 with h0 | h0
          · exact h0.mono _
          · exact absurd hf h0
    | report2 r h1 =>
      have h0 := hi.two
      unfold Inv2 at h0
      simp only [h1] at h0
      refine ⟨inv1_other hi.one rfl keepFirst_ne (by simp), ?_, ?_, fun h => by simpa using hi.cancelled h,
        fun r hr => by have := (hi.result r hr).2.2; simp [h1] at this, by simpa using hi.off⟩
      · show c.jwkd = true ∧ (Good2 c (as ++ [.report2]) ∨ keepFirst s.first r ≠ none)
        cases r with
        | none => simp only at h0; exact ⟨h0.1, .inl (by have := h0.2; unfold Good2 at *; simpa using this)⟩
        | some e => simp only at h0; exact ⟨h0.1, .inr (by unfold keepFirst; split <;> simp)⟩
      · intro e h
        simp only [keepFirst] at h
        split at h
        · rename_i e' hf; rw [Option.some.injEq] at h; subst h; exact (hi.source _ hf).mono _
        · rename_i hf
          subst h
          simp only at h0
          rcases h0.2 with h0 | h0
          · exact h0.mono _
          · exact absurd hf h0
    | wait h1 h2 h3 =>
      refine ⟨inv1_other hi.one rfl id (by simp), inv2_other hi.two rfl id (by simp), fun e h => (hi.source e h).mono _,
        fun h => by simpa using hi.cancelled h, ?_, by simpa using hi.off⟩
      intro r hr
      simp only [Option.some.injEq] at hr
      exact ⟨hr.symm, h1, h2⟩

/-- **C54**.  If `Init` returns nil, the update of every enabled daemon was run and succeeded, and no update failed. -/
theorem C54_nil (c : InitCfg) (ce : Str) (acts : List IAct) (s : IState) (hr : iRun c ce (iInit c) acts = some s) (hn : s.result = some none) :
    (c.pubkeyd = true → IAct.pubkeyRet none ∈ acts) ∧ (c.policyd = true → IAct.policyRet none ∈ acts) ∧
    (c.jwkd = true → IAct.jwkRet none ∈ acts) ∧
    ∀ e, IAct.pubkeyRet (some e) ∉ acts ∧ IAct.policyRet (some e) ∉ acts ∧ IAct.jwkRet (some e) ∉ acts := by
  have hi := iInv_run acts s hr
  obtain ⟨hf, h1, h2⟩ := hi.result none hn
  have g1 : Good1 c acts := by
    have := hi.one
    unfold Inv1 at this
    simp only [h1] at this
    rcases this with h | h
    · exact h
    · exact absurd hf.symm h
  have g2 : Good2 c acts := by
    have := hi.two
    unfold Inv2 at this
    rcases h2 with h2 | h2
    · simp only [h2] at this
      rcases this.2 with h | h
      · exact h
      · exact absurd hf.symm h
    · simp only [h2] at this
      exact ⟨by simp [this.1], fun e => this.2 _⟩
  exact ⟨g1.1, g1.2.1, g2.1, fun e => ⟨(g1.2.2 e).1, (g1.2.2 e).2, g2.2 e⟩⟩

/-- **C54**.  If `Init` returns an error, it is the error of an update that failed, or that of the context, which was then cancelled.  So if
no update fails and the context is not cancelled, nil is returned. -/
theorem C54_error (c : InitCfg) (ce : Str) (acts : List IAct) (s : IState) (e : Str) (hr : iRun c ce (iInit c) acts = some s)
    (hn : s.result = some (some e)) : Source ce acts e := by
  have hi := iInv_run acts s hr
  obtain ⟨hf, _, _⟩ := hi.result _ hn
  exact hi.source e hf.symm

/-- **C54**.  Policies are fetched only after the public keys were: while `policyd.Update` runs, and before it returns, the update of an enabled
pubkeyd has succeeded. -/
theorem C54_order (c : InitCfg) (ce : Str) (acts : List IAct) (s : IState) (hr : iRun c ce (iInit c) acts = some s) (hk : c.pubkeyd = true) :
    (s.g1 = .policies → IAct.pubkeyRet none ∈ acts) ∧
    (∀ pre r post, acts = pre ++ .policyRet r :: post → IAct.pubkeyRet none ∈ pre) := by
  have hi := iInv_run acts s hr
  refine ⟨fun h => ?_, ?_⟩
  · have := hi.one
    unfold Inv1 at this
    simp only [h] at this
    exact this.2.1 hk
  · rintro pre r post rfl
    rw [iRun_append] at hr
    cases h1 : iRun c ce (iInit c) pre with
    | none => rw [h1] at hr; cases hr
    | some s1 =>
      rw [h1] at hr
      simp only [Option.bind_some, iRun] at hr
      split at hr
      · rename_i s2 h2
        cases iStep_effect h2 with
        | policy _ hg =>
          have := (iInv_run pre s1 h1).one
          unfold Inv1 at this
          simp only [hg] at this
          exact this.2.1 hk
      · cases hr

/-- **C54**.  A disabled daemon is never touched. -/
theorem C54_disabled (c : InitCfg) (ce : Str) (acts : List IAct) (s : IState) (hr : iRun c ce (iInit c) acts = some s) :
    (c.pubkeyd = false → s.g1 ≠ .pubkeys ∧ ∀ r, IAct.pubkeyRet r ∉ acts) ∧ (c.policyd = false → s.g1 ≠ .policies ∧ ∀ r, IAct.policyRet r ∉ acts) ∧
    (c.jwkd = false → s.g2 = .absent ∧ ∀ r, IAct.jwkRet r ∉ acts) := by
  have hi := iInv_run acts s hr
  refine ⟨fun h => ⟨fun hc => ?_, hi.off.1 h⟩, fun h => ⟨fun hc => ?_, hi.off.2 h⟩, fun h => ?_⟩
  · have := hi.one
    unfold Inv1 at this
    simp only [hc] at this
    rw [h] at this
    exact absurd this.1 (by simp)
  · have := hi.one
    unfold Inv1 at this
    simp only [hc] at this
    rw [h] at this
    exact absurd this.1 (by simp)
  · have := hi.two
    unfold Inv2 at this
    split at this
    · rename_i hg; exact ⟨hg, this.2⟩
    all_goals exact absurd this.1 (by simp [h])

/-- **C54**.  When `Init` has returned, no update that it began is still running. -/
theorem C54_joined (c : InitCfg) (ce : Str) (acts : List IAct) (s : IState) (r : Option Str) (hr : iRun c ce (iInit c) acts = some s)
    (hn : s.result = some r) : s.g1 = .done ∧ (s.g2 = .done ∨ s.g2 = .absent) := ((iInv_run acts s hr).result r hn).2

/-- **C54**.  Of several errors the one reported first is returned: once errgroup has been given an error when it has none, that error is what
`Init` returns. -/
theorem C54_first (c : InitCfg) (ce : Str) (pre post : List IAct) (s0 s : IState) (e : Str) (r : Option Str)
    (h0 : iRun c ce (iInit c) pre = some s0)
    (hrep : (s0.g1 = .ret (some e) ∧ (s0.g2 = .done → IAct.jwkRet none ∈ pre) ∧ iRun c ce (iInit c) (pre ++ .report1 :: post) = some s) ∨
      (s0.g2 = .ret (some e) ∧ s0.g1 ≠ .done ∧ iRun c ce (iInit c) (pre ++ .report2 :: post) = some s))
    (hn : s.result = some r) : r = some e := by
  -- an error is kept only if a goroutine has reported it
  have kept : ∀ as s, iRun c ce (iInit c) as = some s → (IAct.jwkRet none ∈ as → s.g2 = .ret none ∨ s.g2 = .done) ∧
      (s.g1 ≠ .done → (s.g2 = .done → IAct.jwkRet none ∈ as) → s.first = none) := by
    refine iRun_hist (by simp [iInit]) ?_
    intro as s a s' hi he
    cases he with
    | jwk r h => cases r <;> simp_all
    | report1 r h => simp_all
    | report2 r h => cases r <;> simp_all [keepFirst]
    | _ => simp_all
  have mono : ∀ (bs : List IAct) (s s' : IState), s.first = some e → iRun c ce s bs = some s' → s'.first = some e := by
    intro bs s s' h1 h2
    refine iRun_from (P := fun _ s => s.first = some e) ?_ bs [] s s' h1 h2
    intro _ s _ s' hp he
    cases he <;> first | exact hp | (simp only [keepFirst, hp])
  have fin : s.first = some e := by
    rcases hrep with ⟨h1, h2, h3⟩ | ⟨h1, h2, h3⟩
    · have hf := (kept pre s0 h0).2 (by simp [h1]) h2
      rw [iRun_append, h0] at h3
      simp only [Option.bind_some, iRun, iStep, h1] at h3
      exact mono post _ s (by simp [keepFirst, hf]) h3
    · have hf := (kept pre s0 h0).2 h2 (by simp [h1])
      rw [iRun_append, h0] at h3
      simp only [Option.bind_some, iRun, iStep, h1] at h3
      exact mono post _ s (by simp [keepFirst, hf]) h3
  have hi : r = s.first := by
    rcases hrep with ⟨_, _, h3⟩ | ⟨_, _, h3⟩
    · exact ((iInv_run _ s h3).result r hn).1
    · exact ((iInv_run _ s h3).result r hn).1
  rw [hi, fin]

/-- The same step, with another result of the update if it is the end of one. -/
def IAct.returning (r : Option Str) : IAct → IAct
  | .pubkeyRet _ => .pubkeyRet r
  | .policyRet _ => .policyRet r
  | .jwkRet _ => .jwkRet r
  | a => a

/-- How many steps are left. -/
def IState.left (s : IState) : Nat :=
  (match s.g1 with | .start => 4 | .pubkeys => 3 | .policies => 2 | .ret _ => 1 | .done => 0) +
  (match s.g2 with | .start => 3 | .keys => 2 | .ret _ => 1 | .done => 0 | .absent => 0) + (if s.result = none then 1 else 0)

/-- **C54**.  `Init` takes at most eight steps, not counting cancellation, and it is never stuck: as long as it has not returned, one of its own
steps is possible, whatever the updates return. -/
theorem C54_returns (c : InitCfg) (ce : Str) (acts : List IAct) (s : IState) (hr : iRun c ce (iInit c) acts = some s) :
    (acts.filter (fun a => decide (a ≠ .cancel))).length + s.left ≤ 8 ∧
    (s.result = none → ∃ a : IAct, a ≠ .cancel ∧ ∀ r, (iStep c ce s (a.returning r)).isSome) := by
  constructor
  · refine iRun_hist (P := fun as s => (as.filter (fun a => decide (a ≠ .cancel))).length + s.left ≤ 8) ?_ ?_ acts s hr
    · unfold iInit IState.left
      cases c.jwkd <;> simp
    · intro as s a s' hi he
      cases he <;> simp_all [IState.left, List.filter_append] <;> omega
  · intro hres
    cases h1 : s.g1 with
    | start =>
      refine ⟨.begin1, by simp, fun r => ?_⟩
      simp only [IAct.returning, iStep, h1, if_true]
      split <;> (try split) <;> rfl
    | pubkeys =>
      refine ⟨.pubkeyRet none, by simp, fun r => ?_⟩
      simp only [IAct.returning, iStep, h1, if_true]
      cases r <;> rfl
    | policies => exact ⟨.policyRet none, by simp, fun r => by simp [IAct.returning, iStep, h1]⟩
    | ret r => exact ⟨.report1, by simp, fun r => by simp [IAct.returning, iStep, h1]⟩
    | done =>
      cases h2 : s.g2 with
      | start =>
        refine ⟨.begin2, by simp, fun r => ?_⟩
        simp only [IAct.returning, iStep, h2, if_true]
        split <;> rfl
      | keys => exact ⟨.jwkRet none, by simp, fun r => by simp [IAct.returning, iStep, h2]⟩
      | ret r => exact ⟨.report2, by simp, fun r => by simp [IAct.returning, iStep, h2]⟩
      | done => exact ⟨.wait, by simp, fun r => by simp [IAct.returning, iStep, h1, h2, hres]⟩
      | absent => exact ⟨.wait, by simp, fun r => by simp [IAct.returning, iStep, h1, h2, hres]⟩

namespace Ex

/-- The keys of jwkd fail while the policies are fetched. -/
def initFail : List IAct := [.begin2, .begin1, .pubkeyRet none, .jwkRet (some "no keys".toList), .report2, .policyRet none, .report1, .wait]

def initGood : List IAct := [.begin1, .pubkeyRet none, .begin2, .policyRet none, .jwkRet none, .report2, .report1, .wait]

end Ex

/-- An initialisation that succeeds, and one that fails. -/
example : (∃ s, iRun ⟨true, true, true⟩ "ctx".toList (iInit ⟨true, true, true⟩) Ex.initGood = some s ∧ s.result = some none) ∧
    ∃ s, iRun ⟨true, true, true⟩ "ctx".toList (iInit ⟨true, true, true⟩) Ex.initFail = some s ∧ s.result = some (some "no keys".toList) := by
  constructor
  · obtain ⟨s, h1, h2⟩ := Ex.exists_of_map (o := iRun ⟨true, true, true⟩ "ctx".toList (iInit ⟨true, true, true⟩) Ex.initGood)
      (p := fun s => decide (s.result = some none)) (by decide +kernel)
    exact ⟨s, h1, by simpa using h2⟩
  · obtain ⟨s, h1, h2⟩ := Ex.exists_of_map (o := iRun ⟨true, true, true⟩ "ctx".toList (iInit ⟨true, true, true⟩) Ex.initFail)
      (p := fun s => decide (s.result = some (some "no keys".toList))) (by decide +kernel)
    exact ⟨s, h1, by simpa using h2⟩

end Athenz
