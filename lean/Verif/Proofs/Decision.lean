import Verif.Proofs.Merge
import Verif.Proofs.Glob
import Verif.Proofs.Str

/-! From cached assertion lists to the meaning of the documents. -/

namespace Athenz

/-- `NewAssertion` applied to an assertion of a document, if it succeeds. -/
def RawAssertion.conv (U : CaseFns) (a : RawAssertion) : Option Assertion :=
  match newAssertion U a.action a.resource a.effect with
  | .ok x => some x
  | _ => none

theorem newAssertion_total (U : CaseFns) (action resource effect : Str) :
    (∃ x, newAssertion U action resource effect = .ok x) ∨
    newAssertion U action resource effect = .err .invalidPolicyResource := by
  unfold newAssertion
  cases Str.cut [':'] resource with
  | none => exact .inr rfl
  | some p =>
    obtain ⟨ra, h1, _⟩ := glob_correct (U.toLower action)
    obtain ⟨rr, h2, _⟩ := glob_correct (U.toLower p.2)
    simp only [h1, h2]
    exact .inl ⟨_, rfl⟩

theorem newAssertion_effect {U : CaseFns} {action resource effect : Str} {x : Assertion}
    (h : newAssertion U action resource effect = .ok x) :
    x.effect = if U.equalFold "deny".toList effect then some .denyByPolicy else none := by
  unfold newAssertion at h
  split at h
  · simp at h
  · split at h
    · simp at h
    · split at h
      · simp at h
      · simp only [Res.ok.injEq] at h; subst h; rfl

/-- The match condition of a constructed assertion in terms of the text it was constructed from. -/
theorem newAssertion_matches {U : CaseFns} {action resource effect : Str} {x : Assertion}
    (h : newAssertion U action resource effect = .ok x) (domain act res : Str) :
    x.matches U domain act res = true ↔
      ∃ rd rr, resource = rd ++ ':' :: rr ∧ ':' ∉ rd ∧ rd.map U.fold = domain.map U.fold ∧
        Spec.Glob (action.map U.lower) (act.map U.lower) ∧ Spec.Glob (rr.map U.lower) (res.map U.lower) := by
  unfold newAssertion at h
  split at h
  · simp at h
  · rename_i dom re hcut
    obtain ⟨ra, h1, _, hm1⟩ := glob_correct (U.toLower action)
    obtain ⟨rr, h2, _, hm2⟩ := glob_correct (U.toLower re)
    simp only [h1, h2, Res.ok.injEq] at h
    subst h
    have hc := Str.cut_singleton_iff.mp hcut
    simp only [Assertion.matches, Bool.and_eq_true, hm1, hm2, CaseFns.equalFold, CaseFns.toLower]
    constructor
    · rintro ⟨⟨hd, ha⟩, hr⟩
      exact ⟨dom, re, hc.1, hc.2, by simpa using hd, ha, hr⟩
    · rintro ⟨rd, rr', he, hn, hd, ha, hr⟩
      have := Str.cut_singleton_iff.mpr ⟨he, hn⟩
      rw [hcut] at this
      simp only [Option.some.injEq, Prod.mk.injEq] at this
      obtain ⟨rfl, rfl⟩ := this
      exact ⟨⟨by simpa using hd, ha⟩, hr⟩

theorem conv_some {U : CaseFns} {a : RawAssertion} {x : Assertion} (h : a.conv U = some x) :
    newAssertion U a.action a.resource a.effect = .ok x := by
  unfold RawAssertion.conv at h
  split at h
  · rename_i y hy; simp only [Option.some.injEq] at h; subst h; exact hy
  · simp at h

theorem isDeny_iff (U : CaseFns) (a : RawAssertion) : a.isDeny U = true ↔ Spec.IsDeny U a := by
  simp only [RawAssertion.isDeny, CaseFns.equalFold, Spec.IsDeny]
  rw [beq_iff_eq]
  exact eq_comm

theorem conv_effect {U : CaseFns} {a : RawAssertion} {x : Assertion} (h : a.conv U = some x) :
    x.effect = if a.isDeny U then some .denyByPolicy else none := newAssertion_effect (conv_some h)

theorem conv_applies {U : CaseFns} {a : RawAssertion} {x : Assertion} (h : a.conv U = some x) (domain role act res : Str) :
    Spec.Applies U a domain role act res ↔ a.role = roleKey domain role ∧ x.matches U domain act res = true := by
  rw [newAssertion_matches (conv_some h)]
  rfl

/-- Denies come before allows. -/
def DenyFirst (l : List Assertion) : Prop :=
  ∃ ds as, l = ds ++ as ∧ (∀ x ∈ ds, x.effect = some .denyByPolicy) ∧ ∀ x ∈ as, x.effect = none

theorem DenyFirst.nil : DenyFirst [] := ⟨[], [], rfl, by simp, by simp⟩

theorem insertAss_denyFirst {x : Assertion} {o : Option (List Assertion)}
    (hx : x.effect = none ∨ x.effect = some .denyByPolicy) (h : ∀ l, o = some l → DenyFirst l) : DenyFirst (insertAss x o) := by
  cases o with
  | none =>
    rcases hx with hx | hx
    · exact ⟨[], [x], rfl, by simp, by simpa using hx⟩
    · exact ⟨[x], [], rfl, by simpa using hx, by simp⟩
  | some l =>
    obtain ⟨ds, as, rfl, h1, h2⟩ := h l rfl
    rcases hx with hx | hx
    · refine ⟨ds, as ++ [x], by simp [insertAss, hx], h1, ?_⟩
      intro y hy
      rcases List.mem_append.mp hy with hy | hy
      · exact h2 y hy
      · simp at hy; subst hy; exact hx
    · refine ⟨x :: ds, as, by simp [insertAss, hx], ?_, h2⟩
      intro y hy
      rcases List.mem_cons.mp hy with rfl | hy
      · exact hx
      · exact h1 y hy

theorem insertAss_perm (x : Assertion) (o : Option (List Assertion)) : (insertAss x o).Perm (x :: o.getD []) := by
  cases o with
  | none => simp [insertAss]
  | some l =>
    simp only [insertAss]
    split
    · simp
    · simp

theorem mem_insertAss {x y : Assertion} {o : Option (List Assertion)} :
    y ∈ insertAss x o ↔ y = x ∨ ∃ l, o = some l ∧ y ∈ l := by
  rw [(insertAss_perm x o).mem_iff]
  cases o <;> simp

section
variable {U : CaseFns} {q : CheckReq}

theorem firstMatch_none {l : List Assertion} :
    firstMatch U q l = none ↔ ∀ x ∈ l, x.matches U q.domain q.action q.resource = false := by
  simp [firstMatch, List.find?_eq_none]

theorem firstMatch_denyFirst {l : List Assertion} (h : DenyFirst l) :
    (firstMatch U q l = some (some .denyByPolicy) ↔
      ∃ x ∈ l, x.matches U q.domain q.action q.resource = true ∧ x.effect ≠ none) ∧
    (firstMatch U q l = some none ↔
      (∃ x ∈ l, x.matches U q.domain q.action q.resource = true ∧ x.effect = none) ∧
      ¬ ∃ x ∈ l, x.matches U q.domain q.action q.resource = true ∧ x.effect ≠ none) ∧
    (firstMatch U q l = none ∨ firstMatch U q l = some none ∨ firstMatch U q l = some (some .denyByPolicy)) := by
  obtain ⟨ds, as, rfl, h1, h2⟩ := h
  induction ds with
  | nil =>
    induction as with
    | nil => simp [firstMatch]
    | cons a as ih =>
      have ih := ih (fun x hx => h2 x (by simp [hx]))
      have ha := h2 a (by simp)
      simp only [List.nil_append] at ih ⊢
      cases hm : a.matches U q.domain q.action q.resource with
      | true =>
        rw [firstMatch_cons_eq hm, ha]
        refine ⟨⟨by simp, ?_⟩, ⟨fun _ => ⟨⟨a, by simp, hm, ha⟩, ?_⟩, by simp⟩, by simp⟩
        · rintro ⟨x, hx, _, hxe⟩; exact absurd (h2 x hx) hxe
        · rintro ⟨x, hx, _, hxe⟩; exact absurd (h2 x hx) hxe
      | false =>
        rw [firstMatch_cons_ne hm]
        simpa [hm] using ih
  | cons d ds ih =>
    have ih := ih (fun x hx => h1 x (by simp [hx]))
    have hd := h1 d (by simp)
    simp only [List.cons_append]
    cases hm : d.matches U q.domain q.action q.resource with
    | true =>
      rw [firstMatch_cons_eq hm, hd]
      refine ⟨⟨fun _ => ⟨d, by simp, hm, by simp [hd]⟩, by simp⟩, ⟨by simp, ?_⟩, by simp⟩
      rintro ⟨_, hn⟩
      exact absurd ⟨d, by simp, hm, by simp [hd]⟩ hn
    | false =>
      rw [firstMatch_cons_ne hm]
      simpa [hm] using ih

/-- The cached list of one role represents the assertions `A` of the documents. -/
structure RepKey (U : CaseFns) (A : List RawAssertion) (k : Str) (o : Option (List Assertion)) : Prop where
  denyFirst : ∀ l, o = some l → DenyFirst l
  sound : ∀ l, o = some l → ∀ x ∈ l, ∃ a ∈ A, a.role = k ∧ a.conv U = some x
  complete : ∀ a ∈ A, a.role = k → ∃ l, o = some l ∧ ∃ (b : RawAssertion) (x : Assertion), x ∈ l ∧ b.conv U = some x ∧ b.role = a.role ∧
    b.action = a.action ∧ b.resource = a.resource ∧ (a.isDeny U = true → b.isDeny U = true)

/-- Only the sound half. -/
structure SoundKey (U : CaseFns) (A : List RawAssertion) (k : Str) (o : Option (List Assertion)) : Prop where
  denyFirst : ∀ l, o = some l → DenyFirst l
  sound : ∀ l, o = some l → ∀ x ∈ l, ∃ a ∈ A, a.role = k ∧ a.conv U = some x

theorem verdict_allow_sound {A : List RawAssertion} {v : PolicyView} {r : Str}
    (h : SoundKey U A (roleKey q.domain r) (v (roleKey q.domain r))) (hv : roleVerdict U q v r = some none) :
    Spec.Allowed U A q.domain r q.action q.resource := by
  simp only [roleVerdict, Option.bind_eq_some_iff] at hv
  obtain ⟨l, hl, hf⟩ := hv
  obtain ⟨⟨x, hx, hm, he⟩, _⟩ := ((firstMatch_denyFirst (h.denyFirst l hl)).2.1).mp hf
  obtain ⟨a, ha, hr, hc⟩ := h.sound l hl x hx
  refine ⟨a, ha, (conv_applies hc _ _ _ _).mpr ⟨hr, hm⟩, ?_⟩
  rw [← isDeny_iff]
  have := conv_effect hc
  rw [he] at this
  intro hd; simp [hd] at this

theorem verdict_deny_sound {A : List RawAssertion} {v : PolicyView} {r : Str} {e : Err}
    (h : SoundKey U A (roleKey q.domain r) (v (roleKey q.domain r))) (hv : roleVerdict U q v r = some (some e)) :
    e = .denyByPolicy ∧ Spec.Denied U A q.domain r q.action q.resource := by
  simp only [roleVerdict, Option.bind_eq_some_iff] at hv
  obtain ⟨l, hl, hf⟩ := hv
  have hfd := firstMatch_denyFirst (U := U) (q := q) (h.denyFirst l hl)
  have he : e = .denyByPolicy := by
    rcases hfd.2.2 with h' | h' | h' <;> rw [hf] at h' <;> simp at h'
    exact h'
  subst he
  obtain ⟨x, hx, hm, he⟩ := hfd.1.mp hf
  obtain ⟨a, ha, hr, hc⟩ := h.sound l hl x hx
  refine ⟨rfl, a, ha, (conv_applies hc _ _ _ _).mpr ⟨hr, hm⟩, ?_⟩
  rw [← isDeny_iff]
  have := conv_effect hc
  cases hd : a.isDeny U with
  | true => rfl
  | false => simp [hd] at this; exact absurd this he

/-- The verdict on one role is the meaning of the documents. -/
theorem verdict_rep {A : List RawAssertion} {v : PolicyView} {r : Str}
    (h : RepKey U A (roleKey q.domain r) (v (roleKey q.domain r))) :
    (roleVerdict U q v r = some (some .denyByPolicy) ↔ Spec.Denied U A q.domain r q.action q.resource) ∧
    (roleVerdict U q v r = some none ↔
      Spec.Allowed U A q.domain r q.action q.resource ∧ ¬ Spec.Denied U A q.domain r q.action q.resource) ∧
    (roleVerdict U q v r = none ↔
      ¬ Spec.Allowed U A q.domain r q.action q.resource ∧ ¬ Spec.Denied U A q.domain r q.action q.resource) := by
  have hs : SoundKey U A (roleKey q.domain r) (v (roleKey q.domain r)) := ⟨h.denyFirst, h.sound⟩
  -- an applying assertion has a matching cached one
  have happ : ∀ a ∈ A, Spec.Applies U a q.domain r q.action q.resource →
      ∃ l, v (roleKey q.domain r) = some l ∧ ∃ x ∈ l, x.matches U q.domain q.action q.resource = true ∧
        (a.isDeny U = true → x.effect ≠ none) := by
    intro a ha happ
    obtain ⟨l, hl, b, x, hx, hc, h1, h2, h3, h4⟩ := h.complete a ha happ.1
    refine ⟨l, hl, x, hx, ?_, ?_⟩
    · have : Spec.Applies U b q.domain r q.action q.resource := by
        unfold Spec.Applies at happ ⊢; rw [h1, h2, h3]; exact happ
      exact ((conv_applies hc _ _ _ _).mp this).2
    · intro hd
      rw [conv_effect hc, h4 hd]; simp
  have hdeny : Spec.Denied U A q.domain r q.action q.resource → roleVerdict U q v r = some (some .denyByPolicy) := by
    rintro ⟨a, ha, hap, hd⟩
    obtain ⟨l, hl, x, hx, hm, he⟩ := happ a ha hap
    simp only [roleVerdict, hl, Option.bind_some]
    exact (firstMatch_denyFirst (h.denyFirst l hl)).1.mpr ⟨x, hx, hm, he ((isDeny_iff U a).mpr hd)⟩
  have hmatch : Spec.Allowed U A q.domain r q.action q.resource → roleVerdict U q v r ≠ none := by
    rintro ⟨a, ha, hap, _⟩ hn
    obtain ⟨l, hl, x, hx, hm, _⟩ := happ a ha hap
    simp only [roleVerdict, hl, Option.bind_some, firstMatch_none] at hn
    rw [hn x hx] at hm; simp at hm
  have hcases : roleVerdict U q v r = none ∨ roleVerdict U q v r = some none ∨
      roleVerdict U q v r = some (some .denyByPolicy) := by
    cases hl : v (roleKey q.domain r) with
    | none => left; simp [roleVerdict, hl]
    | some l =>
      have := (firstMatch_denyFirst (U := U) (q := q) (h.denyFirst l hl)).2.2
      simpa [roleVerdict, hl] using this
  refine ⟨⟨fun hv => (verdict_deny_sound hs hv).2, hdeny⟩, ⟨fun hv => ⟨verdict_allow_sound hs hv, ?_⟩, ?_⟩, ⟨fun hv => ⟨?_, ?_⟩, ?_⟩⟩
  · intro hd; rw [hdeny hd] at hv; simp at hv
  · rintro ⟨ha, hd⟩
    rcases hcases with h' | h' | h'
    · exact absurd h' (hmatch ha)
    · exact h'
    · exact absurd (verdict_deny_sound hs h').2 hd
  · intro ha; exact hmatch ha hv
  · intro hd; rw [hdeny hd] at hv; simp at hv
  · rintro ⟨ha, hd⟩
    rcases hcases with h' | h' | h'
    · exact h'
    · exact absurd (verdict_allow_sound hs h') ha
    · exact absurd (verdict_deny_sound hs h').2 hd

end

end Athenz
