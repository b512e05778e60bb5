import Verif.Model.Assertion
import Verif.Spec.Glob

/-! `patternFromGlob` compiles to a program that matches exactly the glob. -/

namespace Athenz
open Regexp Spec

/-- The program item of one glob rune. -/
def globItem (c : Char) : Item :=
  if c = '*' then .star .any else if c = '?' then .one .any else .one (.lit c)

/-- What is pending after parsing the text of one glob rune. -/
def globPrev (c : Char) : Prev :=
  if c = '*' then .star .any else if c = '?' then .atom .any else .atom (.lit c)

theorem globPrev_emit (c : Char) : (globPrev c).emit = [globItem c] := by
  unfold globPrev globItem; split
  · rfl
  · split <;> rfl

theorem meta_isPunct {c : Char} (h : isRegexMetaCharacter c = true) : isPunct c = true := by
  simp only [isRegexMetaCharacter, Bool.or_eq_true, beq_iff_eq] at h
  rcases h with ((((((((h | h) | h) | h) | h) | h) | h) | h) | h) | h <;> subst h <;> decide

theorem parse_globRune (prev : Prev) (c : Char) (rest : Str) :
    parse false prev (globRune c ++ rest) = (parse false (globPrev c) rest).map (prev.emit ++ ·) := by
  unfold globRune globPrev
  split
  · simp [parse]
  · split
    · simp [parse]
    · split
      · rename_i h
        simp [parse, meta_isPunct h]
      · rename_i h1 h2 h3
        simp only [isRegexMetaCharacter, Bool.or_eq_true, beq_iff_eq, not_or] at h3
        simp only [List.cons_append, List.nil_append, parse]
        simp [h1, h2, h3]

theorem parse_glob (prev : Prev) (g : Str) :
    parse false prev (g.flatMap globRune ++ ['$']) = some (prev.emit ++ g.map globItem ++ [.eol]) := by
  induction g generalizing prev with
  | nil => simp [parse, Prev.emit]
  | cons c g ih =>
    rw [List.flatMap_cons, List.append_assoc, parse_globRune, ih, globPrev_emit]
    simp

theorem compile_glob (g : Str) :
    compile (patternFromGlob g) = some ⟨patternFromGlob g, .bol :: (g.map globItem ++ [.eol])⟩ := by
  have : parse false .none (patternFromGlob g) = some (.bol :: (g.map globItem ++ [.eol])) := by
    unfold patternFromGlob
    simp [parse, parse_glob, Prev.emit]
  simp [compile, this]

theorem starLoop_iff (a : Atom) (k : Bool → Str → Bool) (b : Bool) (s : Str) :
    starLoop a k b s = true ↔
      ∃ u v, s = u ++ v ∧ (∀ c ∈ u, a.ok c = true) ∧ k (if u = [] then b else false) v = true := by
  induction s generalizing b with
  | nil =>
    simp only [starLoop]
    constructor
    · intro h; exact ⟨[], [], by simp, by simp, by simpa using h⟩
    · rintro ⟨u, v, h1, _, h3⟩
      have : u = [] ∧ v = [] := by simpa using h1.symm
      obtain ⟨rfl, rfl⟩ := this
      simpa using h3
  | cons c cs ih =>
    simp only [starLoop, Bool.or_eq_true, Bool.and_eq_true, ih]
    constructor
    · rintro (h | ⟨h1, u, v, h2, h3, h4⟩)
      · exact ⟨[], c :: cs, by simp, by simp, by simpa using h⟩
      · refine ⟨c :: u, v, by simp [h2], ?_, by simpa using h4⟩
        intro d hd
        rcases List.mem_cons.mp hd with rfl | hd
        · exact h1
        · exact h3 d hd
    · rintro ⟨u, v, h1, h2, h3⟩
      cases u with
      | nil => left; simp at h1 h3; rw [h1]; exact h3
      | cons d u =>
        right
        simp only [List.cons_append, List.cons.injEq] at h1
        obtain ⟨rfl, h1⟩ := h1
        exact ⟨h2 c (by simp), u, v, h1, fun e he => h2 e (by simp [he]), by simpa using h3⟩

theorem matchHere_glob (g : Str) (b : Bool) (s : Str) :
    matchHere (g.map globItem ++ [.eol]) b s = true ↔ Glob g s := by
  induction g generalizing b s with
  | nil =>
    simp only [List.map_nil, List.nil_append, matchHere, Bool.and_true, List.isEmpty_iff]
    constructor
    · rintro rfl; exact .nil
    · intro h; cases h; rfl
  | cons c g ih =>
    rw [List.map_cons, List.cons_append]
    generalize hi : globItem c = it
    unfold globItem at hi
    subst hi
    by_cases h1 : c = '*'
    · subst h1
      simp only [if_true, matchHere, starLoop_iff]
      constructor
      · rintro ⟨u, v, rfl, h2, h3⟩
        exact .star (by simpa [Atom.ok] using h2) ((ih _ _).mp h3)
      · intro h
        cases h with
        | star h ht => exact ⟨_, _, rfl, by simpa [Atom.ok] using h, (ih _ _).mpr ht⟩
        | lit h _ _ => exact absurd rfl h
    · rw [if_neg h1]
      by_cases h2 : c = '?'
      · subst h2
        simp only [if_true, matchHere]
        cases s with
        | nil => simp; intro h; cases h
        | cons d ds =>
          simp only [Bool.and_eq_true, ih]
          constructor
          · rintro ⟨h3, h4⟩; exact .quest (by simpa [Atom.ok] using h3) h4
          · intro h
            cases h with
            | quest h ht => exact ⟨by simpa [Atom.ok] using h, ht⟩
            | lit _ h _ => exact absurd rfl h
      · rw [if_neg h2]
        simp only [matchHere]
        cases s with
        | nil =>
          simp; intro h
          generalize hs : ([] : Str) = s at h
          cases h with
          | star => exact h1 rfl
          | quest => exact h2 rfl
          | lit => simp at hs
        | cons d ds =>
          simp only [Bool.and_eq_true, ih, Atom.ok, beq_iff_eq]
          constructor
          · rintro ⟨rfl, h4⟩; exact .lit h1 h2 h4
          · intro h
            generalize hs : d :: ds = s at h
            cases h with
            | star => exact absurd rfl h1
            | quest => exact absurd rfl h2
            | lit _ _ ht =>
              simp only [List.cons.injEq] at hs
              obtain ⟨rfl, rfl⟩ := hs
              exact ⟨rfl, ht⟩

theorem search_bol (m : Bool → Str → Bool) (b : Bool) (s : Str) :
    search (fun b s => b && m b s) b s = (b && m b s) := by
  have hf : ∀ s, search (fun b s => b && m b s) false s = false := by
    intro s; induction s with
    | nil => simp [search]
    | cons c cs ih => simp [search, ih]
  cases s with
  | nil => simp [search]
  | cons c cs => simp [search, hf]

/-- The generated regular expression compiles and matches exactly what the glob matches. -/
theorem glob_correct (g : Str) :
    ∃ re, compile (patternFromGlob g) = some re ∧ re.src = patternFromGlob g ∧
      ∀ s, re.matchString s = true ↔ Glob g s := by
  refine ⟨_, compile_glob g, rfl, fun s => ?_⟩
  have : matchHere (.bol :: (g.map globItem ++ [.eol])) = fun b s => b && matchHere (g.map globItem ++ [.eol]) b s := by
    funext b s; simp [matchHere]
  simp only [matchString, this, search_bol, Bool.true_and]
  exact matchHere_glob g true s

end Athenz
