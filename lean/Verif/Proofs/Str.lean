import Verif.Go.Str

/-! Lemmas about the string functions of `Verif.Go.Str`. -/

namespace Athenz.Str

/-- `sep` does not start at a position of `a` in `a ++ sep ++ b`: the occurrence after `a` is the first one. -/
def FirstAt (sep a b : Str) : Prop :=
  ∀ a' b', a ++ sep ++ b = a' ++ sep ++ b' → a.length ≤ a'.length

theorem cut_some {sep s a b : Str} (h : cut sep s = some (a, b)) : s = a ++ sep ++ b := by
  induction s generalizing a b with
  | nil => simp [cut] at h
  | cons c cs ih =>
    unfold cut at h
    split at h
    · rename_i hp
      simp only [Option.some.injEq, Prod.mk.injEq] at h
      obtain ⟨rfl, rfl⟩ := h
      obtain ⟨t, ht⟩ := List.isPrefixOf_iff_prefix.mp hp
      rw [← ht]; simp
    · cases hc : cut sep cs with
      | none => simp [hc] at h
      | some p =>
        simp only [hc, Option.map_some, Option.some.injEq, Prod.mk.injEq] at h
        obtain ⟨rfl, rfl⟩ := h
        have := ih (a := p.1) (b := p.2) hc
        simp [this]

theorem cut_first {sep s a b : Str} (h : cut sep s = some (a, b)) :
    ∀ a' b', s = a' ++ sep ++ b' → a.length ≤ a'.length := by
  induction s generalizing a b with
  | nil => simp [cut] at h
  | cons c cs ih =>
    intro a' b' hs
    unfold cut at h
    split at h
    · simp only [Option.some.injEq, Prod.mk.injEq] at h
      obtain ⟨rfl, rfl⟩ := h
      simp
    · rename_i hp
      cases hc : cut sep cs with
      | none => simp [hc] at h
      | some p =>
        simp only [hc, Option.map_some, Option.some.injEq, Prod.mk.injEq] at h
        obtain ⟨rfl, rfl⟩ := h
        cases a' with
        | nil =>
          exfalso; apply hp
          rw [List.isPrefixOf_iff_prefix]
          exact ⟨b', by simpa using hs.symm⟩
        | cons x xs =>
          simp only [List.cons_append, List.cons.injEq] at hs
          have := ih (a := p.1) (b := p.2) hc xs b' hs.2
          simpa using this

theorem cut_none_iff {sep s : Str} (hsep : sep ≠ []) : cut sep s = none ↔ ∀ a b, s ≠ a ++ sep ++ b := by
  induction s with
  | nil => simp [cut, hsep]
  | cons c cs ih =>
    unfold cut
    split
    · rename_i hp
      simp only [reduceCtorEq, false_iff, Classical.not_forall]
      obtain ⟨t, ht⟩ := List.isPrefixOf_iff_prefix.mp hp
      exact ⟨[], t, by simpa using ht.symm⟩
    · rename_i hp
      rw [Option.map_eq_none_iff, ih]
      constructor
      · intro h a b hs
        cases a with
        | nil => exact hp (List.isPrefixOf_iff_prefix.mpr ⟨b, by simpa using hs.symm⟩)
        | cons x xs =>
          simp only [List.cons_append, List.cons.injEq] at hs
          exact h xs b hs.2
      · intro h a b hs
        exact h (c :: a) b (by simp [hs])

/-- Characterisation of `cut`: it finds the first occurrence. -/
theorem cut_eq_some_iff {sep s a b : Str} (hsep : sep ≠ []) :
    cut sep s = some (a, b) ↔ s = a ++ sep ++ b ∧ ∀ a' b', s = a' ++ sep ++ b' → a.length ≤ a'.length := by
  constructor
  · intro h; exact ⟨cut_some h, cut_first h⟩
  · rintro ⟨hs, hf⟩
    cases hc : cut sep s with
    | none => exact absurd hs ((cut_none_iff hsep).mp hc a b)
    | some p =>
      have h1 := cut_some hc
      have h2 := cut_first hc a b hs
      have h3 := hf p.1 p.2 h1
      have hl : a.length = p.1.length := by omega
      have : a ++ (sep ++ b) = p.1 ++ (sep ++ p.2) := by
        rw [← List.append_assoc, ← hs, h1, List.append_assoc]
      have := List.append_inj this hl
      obtain ⟨e1, e2⟩ := this
      have e3 := List.append_inj e2 rfl
      cases p; simp_all

/-- One-rune separator: `cut` splits at the first occurrence of the rune. -/
theorem cut_singleton_iff {c : Char} {s a b : Str} :
    cut [c] s = some (a, b) ↔ s = a ++ c :: b ∧ c ∉ a := by
  rw [cut_eq_some_iff (by simp)]
  constructor
  · rintro ⟨hs, hf⟩
    refine ⟨by simpa using hs, fun hc => ?_⟩
    obtain ⟨x, y, rfl⟩ := List.append_of_mem hc
    have := hf x (y ++ [c] ++ b) (by simp [hs])
    simp at this; omega
  · rintro ⟨hs, hc⟩
    refine ⟨by simpa using hs, fun a' b' h' => ?_⟩
    subst hs
    have h' : a ++ c :: b = a' ++ c :: b' := by simpa using h'
    rcases Nat.lt_or_ge a'.length a.length with hlt | hge
    · exfalso
      have h1 : (a ++ c :: b)[a'.length]? = some c := by rw [h']; simp
      rw [List.getElem?_append_left hlt] at h1
      exact hc (List.mem_of_getElem? h1)
    · exact hge

theorem cut_singleton_none {c : Char} {s : Str} : cut [c] s = none ↔ c ∉ s := by
  rw [cut_none_iff (by simp)]
  constructor
  · intro h hc
    obtain ⟨x, y, rfl⟩ := List.append_of_mem hc
    exact h x y (by simp)
  · rintro h a b rfl
    simp at h

theorem split_ne_nil (c : Char) (s : Str) : split c s ≠ [] := by
  cases s with
  | nil => simp [split]
  | cons x xs =>
    unfold split
    split
    · simp
    · split <;> simp

/-- `strings.Join(parts, sep)`. -/
def join (c : Char) : List Str → Str
  | [] => []
  | [w] => w
  | w :: v :: ws => w ++ c :: join c (v :: ws)

theorem join_cons_ne {c : Char} {w : Str} {ws : List Str} (h : ws ≠ []) : join c (w :: ws) = w ++ c :: join c ws := by
  cases ws with
  | nil => exact absurd rfl h
  | cons v vs => rfl

theorem join_cons_char {c x : Char} {w : Str} {ws : List Str} : join c ((x :: w) :: ws) = x :: join c (w :: ws) := by
  cases ws <;> simp [join]

theorem join_split (c : Char) (s : Str) : join c (split c s) = s := by
  induction s with
  | nil => simp [split, join]
  | cons x xs ih =>
    unfold split
    split
    · rename_i h; subst h
      rw [join_cons_ne (split_ne_nil _ _), ih]; simp
    · split
      · rename_i h; exact absurd h (split_ne_nil _ _)
      · rename_i w ws h
        rw [join_cons_char, ← h, ih]

theorem split_no_sep {c : Char} {s w : Str} (h : w ∈ split c s) : c ∉ w := by
  induction s generalizing w with
  | nil => simp [split] at h; simp [h]
  | cons x xs ih =>
    unfold split at h
    split at h
    · rcases List.mem_cons.mp h with rfl | h
      · simp
      · exact ih h
    · rename_i hx
      split at h
      · rename_i h0; exact absurd h0 (split_ne_nil _ _)
      · rename_i w' ws h0
        rcases List.mem_cons.mp h with rfl | h
        · have : c ∉ w' := ih (by rw [h0]; simp)
          simp [this, Ne.symm hx]
        · exact ih (by rw [h0]; simp [h])

theorem split_append {c : Char} {a b : Str} (h : c ∉ a) : split c (a ++ c :: b) = a :: split c b := by
  induction a with
  | nil => simp [split]
  | cons x xs ih =>
    simp only [List.mem_cons, not_or] at h
    simp only [List.cons_append, split, Ne.symm h.1, if_false, ih h.2]

theorem split_of_not_mem {c : Char} {a : Str} (h : c ∉ a) : split c a = [a] := by
  induction a with
  | nil => simp [split]
  | cons x xs ih =>
    simp only [List.mem_cons, not_or] at h
    simp only [split, Ne.symm h.1, if_false, ih h.2]

/-- `split` inverts `join` on separator-free, non-empty part lists. -/
theorem split_join {c : Char} {ws : List Str} (hne : ws ≠ []) (h : ∀ w ∈ ws, c ∉ w) : split c (join c ws) = ws := by
  induction ws with
  | nil => exact absurd rfl hne
  | cons w ws ih =>
    cases ws with
    | nil => simp [join, split_of_not_mem (h w (by simp))]
    | cons v vs =>
      rw [join_cons_ne (by simp), split_append (h w (by simp)), ih (by simp) (fun u hu => h u (by simp [hu]))]

theorem cutLast_iff {c : Char} {s a b : Str} : cutLast c s = some (a, b) ↔ s = a ++ c :: b ∧ c ∉ b := by
  induction s generalizing a b with
  | nil => simp [cutLast]
  | cons x xs ih =>
    unfold cutLast
    cases hc : cutLast c xs with
    | none =>
      have hn : c ∉ xs := by
        intro hm
        have : ∃ a b, xs = a ++ c :: b ∧ c ∉ b := by
          clear ih hc
          induction xs with
          | nil => simp at hm
          | cons y ys ih2 =>
            by_cases hy : c ∈ ys
            · obtain ⟨a, b, h1, h2⟩ := ih2 hy
              exact ⟨y :: a, b, by simp [h1], h2⟩
            · rcases List.mem_cons.mp hm with rfl | h
              · exact ⟨[], ys, by simp, hy⟩
              · exact absurd h hy
        obtain ⟨a, b, h⟩ := this
        have := ih.mpr h
        rw [hc] at this; simp at this
      simp only
      by_cases hx : x = c
      · subst hx
        simp only [if_true, Option.some.injEq, Prod.mk.injEq]
        constructor
        · rintro ⟨rfl, rfl⟩; exact ⟨by simp, hn⟩
        · rintro ⟨h1, h2⟩
          cases a with
          | nil => simp at h1; simp [h1]
          | cons y ys => simp at h1; rw [h1.2] at hn; simp at hn
      · simp only [if_neg hx, reduceCtorEq, false_iff]
        rintro ⟨h1, h2⟩
        cases a with
        | nil => simp at h1; exact hx h1.1
        | cons y ys => simp at h1; rw [h1.2] at hn; simp at hn
    | some p =>
      simp only [Option.some.injEq, Prod.mk.injEq]
      have hp := ih.mp (show cutLast c xs = some (p.1, p.2) from hc)
      constructor
      · rintro ⟨rfl, rfl⟩; exact ⟨by simp [← hp.1], hp.2⟩
      · rintro ⟨h1, h2⟩
        cases a with
        | nil =>
          simp at h1; exfalso; apply h2; rw [← h1.2, hp.1]; simp
        | cons y ys =>
          simp at h1
          have := ih.mpr ⟨h1.2, h2⟩
          rw [hc] at this
          simp at this
          simp [this, h1.1]

end Athenz.Str
