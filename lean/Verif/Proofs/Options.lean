import Verif.Spec.Options
import Verif.Proofs.Dur
import Verif.Props.Mask

/-! # Lemmas about options -/

namespace Athenz
open Spec

section lastSet
variable {O α β S : Type}

theorem lastSet_nil (f : O → Option α) (d : α) : lastSet f [] d = d := rfl

theorem lastSet_cons (f : O → Option α) (o : O) (os : List O) (d : α) : lastSet f (o :: os) d = lastSet f os ((f o).getD d) := by
  unfold lastSet
  cases h : f o with
  | none => simp [h]
  | some v =>
    simp only [List.filterMap_cons, h, Option.getD_some]
    cases hl : os.filterMap f with
    | nil => rfl
    | cons a l => simp [List.getLast?_cons]

theorem lastSet_append (f : O → Option α) (as bs : List O) : ∀ d, lastSet f (as ++ bs) d = lastSet f bs (lastSet f as d) := by
  induction as with
  | nil => intro d; rfl
  | cons a as ih => intro d; rw [List.cons_append, lastSet_cons, lastSet_cons, ih]

theorem lastSet_map (f : O → Option α) (h : α → β) (os : List O) : ∀ d, lastSet (fun o => (f o).map h) os (h d) = h (lastSet f os d) := by
  induction os with
  | nil => intro d; rfl
  | cons o os ih =>
    intro d
    rw [lastSet_cons, lastSet_cons, ← ih]
    congr 1
    cases f o <;> rfl

/-- Options that do not matter can be dropped. -/
theorem lastSet_filter (f : O → Option α) (p : O → Bool) (hp : ∀ o, (f o).isSome → p o = true) (os : List O) :
    ∀ d, lastSet f (os.filter p) d = lastSet f os d := by
  induction os with
  | nil => intro d; rfl
  | cons o os ih =>
    intro d
    rw [lastSet_cons, List.filter_cons]
    split
    · rw [lastSet_cons, ih]
    · rename_i h
      have : f o = none := by
        cases hf : f o with
        | none => rfl
        | some v => exact absurd (hp o (by rw [hf]; rfl)) h
      rw [this, ih]
      rfl

/-- A field that every option leaves alone or sets. -/
theorem applyAll_last {f : O → S → Res S} (g : S → α) (v : O → Option α) (h : ∀ o s s', f o s = .ok s' → g s' = (v o).getD (g s)) (os : List O) :
    ∀ s s', applyAll f os s = .ok s' → g s' = lastSet v os (g s) := by
  induction os with
  | nil => intro s s' hr; simp only [applyAll, Res.ok.injEq] at hr; rw [← hr]; rfl
  | cons o os ih =>
    intro s s' hr
    simp only [applyAll] at hr
    split at hr
    · rename_i s1 h1
      rw [lastSet_cons, ← h o s s1 h1]
      exact ih s1 s' hr
    · cases hr
    · cases hr

/-- When the list is applied without error. -/
theorem applyAll_ok {f : O → S → Res S} (good : O → Prop) (h : ∀ o s, good o ↔ ∃ s', f o s = .ok s') (os : List O) :
    ∀ s, (∃ s', applyAll f os s = .ok s') ↔ ∀ o ∈ os, good o := by
  induction os with
  | nil => intro s; simp [applyAll]
  | cons o os ih =>
    intro s
    simp only [applyAll, List.mem_cons, forall_eq_or_imp]
    constructor
    · rintro ⟨s', hr⟩
      split at hr
      · rename_i s1 h1
        exact ⟨(h o s).mpr ⟨s1, h1⟩, (ih s1).mp ⟨s', hr⟩⟩
      · cases hr
      · cases hr
    · rintro ⟨h1, h2⟩
      obtain ⟨s1, h3⟩ := (h o s).mp h1
      rw [h3]
      exact (ih s1).mpr h2

theorem applyAll_no_panic {f : O → S → Res S} (h : ∀ o s, f o s ≠ .panic) (os : List O) : ∀ s, applyAll f os s ≠ .panic := by
  induction os with
  | nil => intro s; simp [applyAll]
  | cons o os ih =>
    intro s
    simp only [applyAll]
    split
    · exact ih _
    · simp
    · rename_i hp; exact absurd hp (h o s)

theorem applyAll_err {f : O → S → Res S} {e : Err} (h : ∀ o s e', f o s = .err e' → e' = e) (os : List O) :
    ∀ s e', applyAll f os s = .err e' → e' = e := by
  induction os with
  | nil => intro s e' hr; simp [applyAll] at hr
  | cons o os ih =>
    intro s e' hr
    simp only [applyAll] at hr
    split at hr
    · exact ih _ _ hr
    · rename_i e'' h1
      simp only [Res.err.injEq] at hr
      rw [← hr]
      exact h o s e'' h1
    · cases hr

end lastSet

theorem athenzURL_no_panic (url : Str) : athenzURL url ≠ .panic := by
  unfold athenzURL
  simp only
  split <;> simp

theorem athenzURL_err (url : Str) (e : Err) (h : athenzURL url = .err e) : e = .unsupportedScheme := by
  unfold athenzURL at h
  simp only at h
  split at h
  · cases h; rfl
  · cases h

theorem athenzURL_ok (url u : Str) (h : athenzURL url = .ok u) : u = trimHTTPScheme url := by
  unfold athenzURL at h
  simp only at h
  split at h
  · cases h
  · cases h; rfl

theorem athenzJwksURL_of (u : Str) (h : athenzURL u = .ok u) : athenzJwksURL u =
    if u = [] then .err .emptyAthenzJwksURL else .ok ("https://".toList ++ u ++ "/oauth2/keys?rfc=true".toList) := by
  have ht := athenzURL_ok u u h
  unfold athenzURL at h
  unfold athenzJwksURL
  simp only at h ⊢
  split
  · rfl
  · split
    · rename_i hs; rw [if_pos hs] at h; cases h
    · rw [← ht]

theorem setDur_ok (F : NewFns) (s : Str) (old d : Int) (w : String) : setDur F s old w = .ok d ↔ DurOk F s ∧ d = durOf F s old := by
  unfold setDur DurOk durOf
  split
  · rename_i h; simp only [h, Res.ok.injEq, true_or, true_and]; exact eq_comm
  · rename_i h
    simp only [h, false_or]
    cases parseDuration F.frac s with
    | none => simp
    | some e => simp only [Res.ok.injEq, Option.some.injEq, exists_eq', true_and, Option.getD_some]; exact eq_comm

theorem setDur_no_panic (F : NewFns) (s : Str) (old : Int) (w : String) : setDur F s old w ≠ .panic := by
  unfold setDur
  split
  · simp
  · split <;> simp

theorem checkURLs_ok (F : NewFns) (us : List Str) : checkURLs F us = .ok () ↔ ∀ u ∈ us, KeyURL F u := by
  induction us with
  | nil => simp [checkURLs]
  | cons u us ih =>
    simp only [checkURLs, List.mem_cons, forall_eq_or_imp, KeyURL]
    cases hs : F.uriScheme u with
    | none => simp
    | some sch =>
      simp only [Option.some.injEq]
      by_cases h : sch ≠ "http".toList ∧ sch ≠ "https".toList
      · rw [if_pos h]
        simp only [reduceCtorEq, false_iff, not_and]
        rintro (h1 | h1)
        · exact absurd h1 h.1
        · exact absurd h1 h.2
      · rw [if_neg h, ih]
        have : sch = "http".toList ∨ sch = "https".toList := by
          by_cases h1 : sch = "http".toList
          · exact .inl h1
          · by_cases h2 : sch = "https".toList
            · exact .inr h2
            · exact absurd ⟨h1, h2⟩ h
        simp only [this, true_and]
        rfl

theorem checkURLs_no_panic (F : NewFns) (us : List Str) : checkURLs F us ≠ .panic := by
  induction us with
  | nil => simp [checkURLs]
  | cons u us ih =>
    simp only [checkURLs]
    split
    · simp
    · split
      · simp
      · exact ih

theorem Opt.apply_no_panic (o : Opt) (s : Settings) : o.apply s ≠ .panic := by
  cases o <;> simp only [Opt.apply]
  case athenzURL url =>
    split
    · simp
    · simp
    · rename_i h; exact absurd h (athenzURL_no_panic url)
  case httpClient c => cases c <;> simp
  all_goals exact fun h => by cases h

theorem Opt.apply_err (o : Opt) (s : Settings) (e : Err) (h : o.apply s = .err e) : e = .unsupportedScheme := by
  cases o <;> simp only [Opt.apply] at h
  case athenzURL url =>
    split at h
    · cases h
    · rename_i e' h1; cases h; exact athenzURL_err url _ h1
    · cases h
  case httpClient c => cases c <;> cases h
  all_goals cases h

/-- The only option that can fail. -/
theorem Opt.apply_ok (o : Opt) (s : Settings) : (∀ url, o = .athenzURL url → ∃ u, Athenz.athenzURL url = .ok u) ↔ ∃ s', o.apply s = .ok s' := by
  cases o <;> simp only [Opt.apply, Opt.athenzURL.injEq, reduceCtorEq, false_implies, implies_true, true_iff, Res.ok.injEq, exists_eq']
  case athenzURL url =>
    constructor
    · intro h
      obtain ⟨u, hu⟩ := h url rfl
      rw [hu]
      exact ⟨_, rfl⟩
    · rintro ⟨s', h⟩ url' rfl
      split at h
      · rename_i u hu; exact ⟨u, hu⟩
      · cases h
      · cases h
  case httpClient c => cases c <;> exact ⟨_, rfl⟩

end Athenz
