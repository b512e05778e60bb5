import Verif.Spec.Query
import Verif.Proofs.Translate

/-! # `url.ParseQuery` -/

namespace Athenz

open Spec

theorem hexVal_small {c : Char} {n : Nat} (h : hexVal c = some n) : c.toNat < 128 := by
  have le : ∀ {a b : Char}, a ≤ b → a.toNat ≤ b.toNat := fun h => UInt32.le_iff_toNat_le.mp h
  have e1 : '9'.toNat = 57 := rfl
  have e2 : 'f'.toNat = 102 := rfl
  have e3 : 'F'.toNat = 70 := rfl
  unfold hexVal at h
  split at h
  · rename_i h1; have := le h1.2; omega
  split at h
  · rename_i h1; have := le h1.2; omega
  split at h
  · rename_i h1; have := le h1.2; omega
  · simp at h

/-- Evaluates `HexDigit`. -/
def hexDigitB (c : Char) (n : Nat) : Bool := "0123456789abcdef".toList[n]? == some c || "0123456789ABCDEF".toList[n]? == some c

theorem hexDigitB_iff {c : Char} {n : Nat} : hexDigitB c n = true ↔ HexDigit c n := by
  unfold hexDigitB HexDigit
  rw [Bool.or_eq_true, beq_iff_eq, beq_iff_eq]

theorem hexVal_iff {c : Char} {n : Nat} : hexVal c = some n ↔ HexDigit c n := by
  rw [← hexDigitB_iff]
  constructor
  · intro h
    have key : ∀ i : Fin 128, (match hexVal (Char.ofNat i.val) with | some n => hexDigitB (Char.ofNat i.val) n | none => true) = true := by decide +kernel
    have h1 := key ⟨c.toNat, hexVal_small h⟩
    have e : Char.ofNat c.toNat = c := Char.ofNat_toNat c
    simp only [e, h] at h1
    exact h1
  · intro h
    have key : ∀ i : Fin 16, (("0123456789abcdef".toList[i.val]?).bind hexVal) = some i.val ∧ (("0123456789ABCDEF".toList[i.val]?).bind hexVal) = some i.val := by
      decide +kernel
    have hd := hexDigitB_iff.mp h
    have hn : n < 16 := by
      rcases hd with h | h
      · exact (List.getElem?_eq_some_iff.mp h).1
      · exact (List.getElem?_eq_some_iff.mp h).1
    have h1 : (("0123456789abcdef".toList[n]?).bind hexVal) = some n ∧ (("0123456789ABCDEF".toList[n]?).bind hexVal) = some n := key ⟨n, hn⟩
    rcases hd with h | h
    · rw [h] at h1; exact h1.1
    · rw [h] at h1; exact h1.2

theorem unescape_escape {utf8 : List Nat → Str} {n : Nat} {s text : Str} (h : Escape n s text) (pend : List Nat) :
    queryUnescape utf8 pend text = if n < 128 then (queryUnescape utf8 [] s).map fun t => flushBytes utf8 pend ++ Char.ofNat n :: t
      else queryUnescape utf8 (pend ++ [n]) s := by
  obtain ⟨a, b, x, y, rfl, ha, hb, rfl⟩ := h
  simp only [queryUnescape, hexVal_iff.mpr ha, hexVal_iff.mpr hb]

theorem unescape_plain {utf8 : List Nat → Str} {c : Char} {s : Str} (h : c ≠ '%') (pend : List Nat) :
    queryUnescape utf8 pend (c :: s) = (queryUnescape utf8 [] s).map fun t => flushBytes utf8 pend ++ (if c = '+' then ' ' else c) :: t := by
  rw [queryUnescape]
  · simp [h]
  · intro a b s' hc _
    exact h hc

/-- A percent sign that begins no escape. -/
theorem unescape_bad {utf8 : List Nat → Str} {s : Str} (h : ∀ n s', ¬ Escape n s' ('%' :: s)) (pend : List Nat) :
    queryUnescape utf8 pend ('%' :: s) = none := by
  match s, h with
  | [], _ => simp [queryUnescape]
  | [a], _ => simp [queryUnescape]
  | a :: b :: s, h =>
    simp only [queryUnescape]
    split
    · rename_i x y hx hy
      exact absurd ⟨a, b, x, y, rfl, hexVal_iff.mp hx, hexVal_iff.mp hy, rfl⟩ (h _ s)
    · rfl

theorem unescape_run {utf8 : List Nat → Str} {w s : Str} {bs : List Nat} (h : HighRun w bs) : ∀ pend,
    queryUnescape utf8 pend (w ++ s) = queryUnescape utf8 (pend ++ bs) s := by
  induction h with
  | nil => intro pend; simp
  | @cons n s' text bs he hn _ ih =>
    intro pend
    have he' : Escape n (s' ++ s) (text ++ s) := by
      obtain ⟨a, b, x, y, rfl, h1⟩ := he
      exact ⟨a, b, x, y, rfl, h1⟩
    rw [unescape_escape he', if_neg (by omega), ih]
    simp

theorem unescape_flush {utf8 : List Nat → Str} {s : Str} (h : NoHigh s) (pend : List Nat) :
    queryUnescape utf8 pend s = (queryUnescape utf8 [] s).map (flushBytes utf8 pend ++ ·) := by
  have e : flushBytes utf8 [] = [] := rfl
  cases s with
  | nil => simp [queryUnescape, e]
  | cons c s =>
    by_cases hc : c = '%'
    · subst hc
      by_cases hx : ∃ n s', Escape n s' ('%' :: s)
      · obtain ⟨n, s', hx⟩ := hx
        rw [unescape_escape hx, unescape_escape hx, if_pos (h n s' hx), if_pos (h n s' hx)]
        simp [e, Function.comp_def]
      · rw [unescape_bad (fun n s' h' => hx ⟨n, s', h'⟩), unescape_bad (fun n s' h' => hx ⟨n, s', h'⟩)]
        rfl
    · rw [unescape_plain hc, unescape_plain hc]
      simp [e, Function.comp_def]

theorem unescape_of_written {utf8 : List Nat → Str} {s t : Str} (h : Written utf8 s t) : queryUnescape utf8 [] s = some t := by
  have e : flushBytes utf8 [] = [] := rfl
  induction h with
  | nil => simp [queryUnescape, e]
  | plain h1 h2 _ ih => rw [unescape_plain h1, ih]; simp [e, h2]
  | plus _ ih => rw [unescape_plain (by decide), ih]; simp [e]
  | low h1 h2 _ ih => rw [unescape_escape h1, if_pos h2, ih]; simp [e]
  | high h1 h2 h3 _ ih =>
    rw [unescape_run h1, unescape_flush h3, ih]
    simp [flushBytes, h2]

/-- The run of escapes at the beginning. -/
theorem high_prefix (n : Nat) : ∀ s : Str, s.length ≤ n → ∃ w s' bs, s = w ++ s' ∧ HighRun w bs ∧ NoHigh s' := by
  induction n with
  | zero =>
    intro s hs
    have : s = [] := List.length_eq_zero_iff.mp (by omega)
    subst this
    exact ⟨[], [], [], rfl, .nil, by rintro n s ⟨a, b, x, y, h, _⟩; simp at h⟩
  | succ n ih =>
    intro s hs
    by_cases h : NoHigh s
    · exact ⟨[], s, [], rfl, .nil, h⟩
    · obtain ⟨k, hk⟩ := Classical.not_forall.mp h
      obtain ⟨r, hr⟩ := Classical.not_forall.mp hk
      have hesc : Escape k r s := Classical.byContradiction fun hh => hr fun h' => absurd h' hh
      have hk128 : 128 ≤ k := Nat.le_of_not_lt fun hlt => hr fun _ => hlt
      obtain ⟨a, b, x, y, rfl, h1⟩ := hesc
      simp only [List.length_cons] at hs
      obtain ⟨w, s', bs, rfl, h2, h3⟩ := ih r (by omega)
      exact ⟨'%' :: a :: b :: w, s', k :: bs, rfl, .cons ⟨a, b, x, y, rfl, h1⟩ hk128 h2, h3⟩

theorem written_of_unescape {utf8 : List Nat → Str} (n : Nat) : ∀ {s t : Str}, s.length ≤ n → queryUnescape utf8 [] s = some t → Written utf8 s t := by
  have e : flushBytes utf8 [] = [] := rfl
  induction n with
  | zero =>
    intro s t hs h
    have : s = [] := List.length_eq_zero_iff.mp (by omega)
    subst this
    simp only [queryUnescape, e, Option.some.injEq] at h
    subst h
    exact .nil
  | succ n ih =>
    -- texts that do not begin with a run
    have low : ∀ {s t : Str}, s.length ≤ n + 1 → NoHigh s → queryUnescape utf8 [] s = some t → Written utf8 s t := by
      intro s t hs hnh h
      cases s with
      | nil =>
        simp only [queryUnescape, e, Option.some.injEq] at h
        subst h
        exact .nil
      | cons c s =>
        simp only [List.length_cons] at hs
        by_cases hc : c = '%'
        · subst hc
          by_cases hx : ∃ k s', Escape k s' ('%' :: s)
          · obtain ⟨k, s', hx⟩ := hx
            have hk := hnh k s' hx
            rw [unescape_escape hx, if_pos hk] at h
            obtain ⟨t', h1, rfl⟩ := Option.map_eq_some_iff.mp h
            have hl : s'.length ≤ n := by
              obtain ⟨a, b, x, y, h2, _⟩ := hx
              simp only [List.cons.injEq, true_and] at h2
              rw [h2] at hs
              simp only [List.length_cons] at hs
              omega
            simp only [e, List.nil_append]
            exact .low hx hk (ih hl h1)
          · rw [unescape_bad (fun k s' h' => hx ⟨k, s', h'⟩)] at h
            simp at h
        · rw [unescape_plain hc] at h
          obtain ⟨t', h1, rfl⟩ := Option.map_eq_some_iff.mp h
          simp only [e, List.nil_append]
          by_cases hp : c = '+'
          · subst hp
            exact .plus (ih (by omega) h1)
          · rw [if_neg hp]
            exact .plain hc hp (ih (by omega) h1)
    intro s t hs h
    obtain ⟨w, s', bs, rfl, h2, h3⟩ := high_prefix _ s (Nat.le_refl _)
    rw [unescape_run h2, List.nil_append, unescape_flush h3] at h
    obtain ⟨t', h4, rfl⟩ := Option.map_eq_some_iff.mp h
    have hw : Written utf8 s' t' := low (by simp only [List.length_append] at hs; omega) h3 h4
    by_cases hb : bs = []
    · subst hb
      cases h2
      simpa [e] using hw
    · simp only [flushBytes, if_neg hb]
      exact .high h2 hb h3 hw

theorem unescape_iff {utf8 : List Nat → Str} {s t : Str} : queryUnescape utf8 [] s = some t ↔ Written utf8 s t :=
  ⟨written_of_unescape _ (Nat.le_refl _), unescape_of_written⟩

/-! ## The map -/

/-- The map after further parameters. -/
def addParams (m : SMap (List Str)) (ps : List (Str × Str)) : SMap (List Str) := ps.foldl (fun m p => m.store p.1 ((m.load p.1).getD [] ++ [p.2])) m

theorem parsePieces_iff {utf8 : List Nat → Str} {ws : List Str} : ∀ {m m' : SMap (List Str)},
    parsePieces utf8 m ws = some m' ↔ ∃ ps, Says utf8 ws ps ∧ m' = addParams m ps := by
  induction ws with
  | nil =>
    intro m m'
    simp only [parsePieces, Option.some.injEq]
    constructor
    · rintro rfl; exact ⟨[], .nil, rfl⟩
    · rintro ⟨ps, h, rfl⟩; cases h; rfl
  | cons w ws ih =>
    intro m m'
    constructor
    · intro h
      simp only [parsePieces] at h
      split at h
      · simp at h
      rename_i hsemi
      split at h
      · rename_i he
        subst he
        obtain ⟨ps, h1, h2⟩ := ih.mp h
        exact ⟨ps, .empty h1, h2⟩
      rename_i hne
      split at h
      · rename_i k v hk hv
        obtain ⟨ps, h1, h2⟩ := ih.mp h
        refine ⟨(k, v) :: ps, ?_, h2⟩
        cases hc : Str.cut "=".toList w with
        | none =>
          rw [hc] at hk hv
          simp only [Option.getD_none] at hk hv
          have hv' : v = [] := by simpa [queryUnescape, flushBytes] using hv.symm
          subst hv'
          exact .alone hne (Str.cut_singleton_none.mp hc) hsemi (unescape_iff.mp hk) h1
        | some kv =>
          obtain ⟨a, b⟩ := kv
          rw [hc] at hk hv
          simp only [Option.getD_some] at hk hv
          obtain ⟨rfl, ha⟩ := Str.cut_singleton_iff.mp hc
          simp only [List.mem_append, List.mem_cons, not_or] at hsemi
          exact .pair ha hsemi.1 hsemi.2.2 (unescape_iff.mp hk) (unescape_iff.mp hv) h1
      · simp at h
    · rintro ⟨ps, h, rfl⟩
      cases h with
      | empty h1 =>
        simp only [parsePieces, List.not_mem_nil, if_false, if_true]
        exact ih.mpr ⟨_, h1, rfl⟩
      | alone h1 h2 h3 h4 h5 =>
        have hc : Str.cut "=".toList w = none := Str.cut_singleton_none.mpr h2
        simp only [parsePieces, if_neg h3, if_neg h1, hc, Option.getD_none, unescape_iff.mpr h4]
        exact ih.mpr ⟨_, h5, rfl⟩
      | pair h1 h2 h3 h4 h5 h6 =>
        rename_i a b k v ps
        have hc : Str.cut "=".toList (a ++ '=' :: b) = some (a, b) := Str.cut_singleton_iff.mpr ⟨rfl, h1⟩
        have hs : ';' ∉ a ++ '=' :: b := by simp [h2, h3]
        have hn : a ++ '=' :: b ≠ [] := by simp
        simp only [parsePieces, if_neg hs, if_neg hn, hc, Option.getD_some, unescape_iff.mpr h4, unescape_iff.mpr h5]
        exact ih.mpr ⟨_, h6, rfl⟩

theorem parseQuery_iff {utf8 : List Nat → Str} {q : Str} {m : SMap (List Str)} :
    goParseQuery utf8 q = some m ↔ ∃ ps, QueryText utf8 q ps ∧ m = addParams [] ps := by
  unfold goParseQuery
  rw [parsePieces_iff]
  constructor
  · rintro ⟨ps, h1, h2⟩; exact ⟨ps, ⟨_, splitInto_iff.mpr rfl, h1⟩, h2⟩
  · rintro ⟨ps, ⟨ws, h0, h1⟩, h2⟩
    rw [splitInto_iff] at h0
    exact ⟨ps, h0 ▸ h1, h2⟩

theorem store_nodup {V : Type} {m : SMap V} (h : m.keys.Nodup) (k : Str) (v : V) : (m.store k v).keys.Nodup := by
  have e : (m.store k v).keys = k :: (m.delete k).keys := rfl
  rw [e, List.nodup_cons]
  constructor
  · rw [SMap.mem_keys, SMap.load_delete]; simp
  · exact h.sublist (List.Sublist.map _ List.filter_sublist)

theorem addParams_nodup {ps : List (Str × Str)} : ∀ {m : SMap (List Str)}, m.keys.Nodup → (addParams m ps).keys.Nodup := by
  induction ps with
  | nil => intro m h; exact h
  | cons p ps ih => intro m h; exact ih (store_nodup h _ _)

theorem addParams_load {ps : List (Str × Str)} : ∀ {m : SMap (List Str)} (k : Str),
    ((addParams m ps).load k).getD [] = (m.load k).getD [] ++ valuesOf k ps ∧
    (((addParams m ps).load k).isSome ↔ (m.load k).isSome ∨ valuesOf k ps ≠ []) := by
  induction ps with
  | nil => intro m k; simp [addParams, valuesOf]
  | cons p ps ih =>
    intro m k
    have h := ih (m := m.store p.1 ((m.load p.1).getD [] ++ [p.2])) k
    have e : addParams m (p :: ps) = addParams (m.store p.1 ((m.load p.1).getD [] ++ [p.2])) ps := rfl
    rw [e, h.1, h.2, SMap.load_store]
    by_cases hk : p.1 = k
    · subst hk
      simp [valuesOf]
    · have hk' : ¬ k = p.1 := fun h => hk h.symm
      simp [valuesOf, hk, hk']

theorem addParams_mem (ps : List (Str × Str)) (k : Str) (vs : List Str) : (k, vs) ∈ addParams [] ps ↔ vs = valuesOf k ps ∧ vs ≠ [] := by
  have hn : (addParams [] ps).keys.Nodup := addParams_nodup (by simp [SMap.keys])
  rw [← load_iff_mem hn]
  have h := addParams_load (ps := ps) (m := []) k
  have e : SMap.load ([] : SMap (List Str)) k = none := rfl
  simp only [e, Option.getD_none, List.nil_append, Option.isSome_none, Bool.false_eq_true, false_or] at h
  cases hl : (addParams [] ps).load k with
  | none =>
    rw [hl] at h
    simp only [Option.isSome_none, Bool.false_eq_true, false_iff, ne_eq, Classical.not_not] at h
    simp only [reduceCtorEq, false_iff, not_and, ne_eq, Classical.not_not]
    intro hv
    rw [hv, h.2]
  | some vs' =>
    rw [hl] at h
    simp only [Option.getD_some, Option.isSome_some, true_iff] at h
    simp only [Option.some.injEq]
    constructor
    · rintro rfl; exact ⟨h.1, h.1 ▸ h.2⟩
    · rintro ⟨h1, _⟩; rw [h.1, h1]

theorem goParseQuery_ok (utf8 : List Nat → Str) : QueryParser.Ok (goParseQuery utf8) := by
  intro q m h
  obtain ⟨ps, _, rfl⟩ := parseQuery_iff.mp h
  exact addParams_nodup (by simp [SMap.keys])

end Athenz
