import Verif.Spec.Duration
import Verif.Spec.Options
import Verif.Proofs.Dur

/-! # C84: which texts are durations -/

namespace Athenz

open Spec

theorem digitVal_iff (c : Char) : (digitVal c).isSome = true ↔ '0' ≤ c ∧ c ≤ '9' := by
  unfold digitVal; split <;> simp [*]

theorem digitVal_of {c : Char} (h : '0' ≤ c ∧ c ≤ '9') : digitVal c = some (c.toNat - '0'.toNat) := by unfold digitVal; rw [if_pos h]

theorem parseDigits_fold {s : Str} (h : Digits s) (x : Nat) : parseDigits x s = some (s.foldl (fun n c => 10 * n + (c.toNat - '0'.toNat)) x) := by
  induction s generalizing x with
  | nil => rfl
  | cons c cs ih =>
    simp only [parseDigits, digitVal_of (h c List.mem_cons_self), List.foldl_cons]
    exact ih (fun d hd => h d (List.mem_cons_of_mem _ hd)) _

theorem leadingFraction_digits {ds : Str} {rest : Str} (hr : ∀ c, rest.head? = some c → digitVal c = none) :
    ∀ {x k n : Nat}, parseDigits x ds = some n → n ≤ 2 ^ 63 → leadingFraction x k false (ds ++ rest) = ((n, k + ds.length), rest) := by
  induction ds with
  | nil =>
    intro x k n h _
    simp only [parseDigits, Option.some.injEq] at h
    subst h
    cases rest with
    | nil => rfl
    | cons c cs => simp only [List.nil_append, leadingFraction, hr c rfl]; rfl
  | cons c cs ih =>
    intro x k n h hn
    simp only [parseDigits] at h
    split at h
    · rename_i d hd
      have hm := parseDigits_mono h
      have hlt : d ≤ 9 := by
        unfold digitVal at hd
        split at hd
        · rename_i hc
          simp only [Option.some.injEq] at hd
          have : c.toNat ≤ '9'.toNat := hc.2
          have h9 : '9'.toNat = 57 := rfl
          have h0 : '0'.toNat = 48 := rfl
          omega
        · cases hd
      simp only [List.cons_append, leadingFraction, hd]
      rw [if_neg (by
        rintro (h | h | h)
        · simp at h
        · omega
        · omega), Nat.mul_comm x 10, ih h hn]
      simp only [List.length_cons]
      congr 2
      omega
    · cases h

theorem timeUnits_spec {u : Str} {n : Nat} (h : (u, n) ∈ timeUnits) : durUnit u = some n ∧ 0 < n ∧ u ≠ [] ∧ ∀ c ∈ u, numChar c = false := by
  unfold timeUnits at h
  generalize hp : (u, n) = p at h
  simp only [List.mem_cons, List.not_mem_nil, or_false] at h
  rcases h with rfl | rfl | rfl | rfl | rfl | rfl | rfl | rfl <;> cases hp <;> decide +kernel

/-- The text goes on with the next part, or ends. -/
def PartNext (s : Str) : Prop := ∀ c, s.head? = some c → numChar c = true

theorem takeWhile_unit {u rest : Str} (hu : ∀ c ∈ u, numChar c = false) (hr : PartNext rest) :
    (u ++ rest).takeWhile (fun c => !numChar c) = u ∧ (u ++ rest).dropWhile (fun c => !numChar c) = rest := by
  have h1 : ∀ a ∈ u, (fun c => !numChar c) a = true := fun a ha => by simp [hu a ha]
  rw [List.takeWhile_append_of_pos h1, List.dropWhile_append_of_pos h1]
  cases rest with
  | nil => simp
  | cons c cs => simp [hr c rfl]

theorem text_next (p : DurPart) (hp : p.Good) (rest : Str) : PartNext (p.text ++ rest) := by
  intro c hc
  unfold DurPart.text at hc
  cases hw : p.whole with
  | cons d ds =>
    rw [hw] at hc
    simp only [List.cons_append, List.head?_cons, Option.some.injEq] at hc
    subst hc
    have := hp.whole d (by rw [hw]; simp)
    unfold numChar
    rw [(digitVal_iff d).mpr this, Bool.or_true]
  | nil =>
    rw [hw] at hc
    cases hf : p.fraction with
    | none => exact absurd (by simp [hw, hf]) hp.some
    | some f =>
      rw [hf] at hc
      simp only [List.nil_append, List.cons_append, List.head?_cons, Option.some.injEq] at hc
      subst hc
      rfl

theorem durText_next (ps : List DurPart) (h : ∀ p ∈ ps, p.Good) : PartNext (durText ps) := by
  cases ps with
  | nil => intro c hc; simp [durText] at hc
  | cons p ps =>
    unfold durText
    rw [List.flatMap_cons]
    exact text_next p (h p List.mem_cons_self) _

/-- The number of a part. -/
theorem durNumber_part (frac : Nat → Nat → Nat → Nat) (p : DurPart) (hp : p.Good) (hs : p.Short) (rest : Str) (hw : numberOf p.whole ≤ 2 ^ 63) :
    ∃ f k, durNumber (p.text ++ rest) = some (numberOf p.whole, (f, k), p.unit ++ rest) ∧
      p.value frac = numberOf p.whole * p.ns + (if f > 0 then frac f k p.ns else 0) := by
  obtain ⟨hu1, hu2, hu3, hu4⟩ := timeUnits_spec hp.unit
  obtain ⟨e, es, hue⟩ : ∃ e es, p.unit = e :: es := by
    cases h : p.unit with
    | nil => exact absurd h hu3
    | cons e es => exact ⟨e, es, rfl⟩
  have he := hu4 e (by rw [hue]; simp)
  have he1 : e ≠ '.' := by rintro rfl; revert he; decide
  have he2 : digitVal e = none := by
    unfold numChar at he
    simp only [Bool.or_eq_false_iff] at he
    simpa using he.2
  have hwd := parseDigits_fold hp.whole 0
  cases hf : p.fraction with
  | none =>
    have hne : p.whole ≠ [] := by have := hp.some; rw [hf] at this; simpa using this
    have ht : p.text ++ rest = p.whole ++ (p.unit ++ rest) := by unfold DurPart.text; rw [hf]; simp
    refine ⟨0, 0, ?_, by unfold DurPart.value; rw [hf]; simp⟩
    rw [ht]
    unfold durNumber
    rw [leadingInt_digits (by rw [hue]; intro c h; cases h; exact he2) hwd hw]
    dsimp only
    rw [hue]
    split
    · rename_i h; cases h; exact absurd rfl he1
    · rw [if_neg]
      · rfl
      · intro h
        have : 0 < p.whole.length := List.length_pos_iff.mpr hne
        simp only [List.length_append, List.length_cons] at h
        omega
  | some f =>
    have ht : p.text ++ rest = p.whole ++ ('.' :: (f ++ (p.unit ++ rest))) := by unfold DurPart.text; rw [hf]; simp
    have hfd : Digits f := by have := hp.fraction; rw [hf] at this; exact this
    have hfs : numberOf f ≤ 2 ^ 63 := by have := hs; unfold DurPart.Short at this; rw [hf] at this; exact this
    refine ⟨numberOf f, f.length, ?_, ?_⟩
    · rw [ht]
      unfold durNumber
      rw [leadingInt_digits (rest := '.' :: (f ++ (p.unit ++ rest))) (by intro c h; cases h; rfl) hwd hw]
      simp only [leadingFraction_digits (ds := f) (rest := p.unit ++ rest) (k := 0) (by rw [hue]; intro c h; cases h; exact he2) (parseDigits_fold hfd 0) hfs]
      rw [if_neg]
      · rw [Nat.zero_add]; rfl
      · rintro ⟨h1, h2⟩
        simp only [List.length_append, List.length_cons] at h1 h2
        have h3 : p.whole = [] := List.length_eq_zero_iff.mp (by omega)
        have h4 : f = [] := List.length_eq_zero_iff.mp (by omega)
        exact hp.some (by rw [h3, hf, h4]; rfl)
    · unfold DurPart.value
      rw [hf]
      dsimp only
      by_cases h0 : numberOf f = 0
      · rw [if_pos h0, if_neg (by omega)]
      · rw [if_neg h0, if_pos (by omega)]

theorem durLoop_parts (frac : Nat → Nat → Nat → Nat) (ps : List DurPart) (hg : ∀ p ∈ ps, p.Good ∧ p.Short) (fuel d : Nat) (hf : ps.length ≤ fuel)
    (hd : d + durSum frac ps ≤ 2 ^ 63) : durLoop frac fuel d (durText ps) = some (d + durSum frac ps) := by
  induction ps generalizing fuel d with
  | nil => cases fuel <;> rfl
  | cons p ps ih =>
    obtain ⟨hp, hs⟩ := hg p List.mem_cons_self
    have hg' : ∀ q ∈ ps, q.Good ∧ q.Short := fun q hq => hg q (List.mem_cons_of_mem _ hq)
    obtain ⟨hu1, hu2, hu3, hu4⟩ := timeUnits_spec hp.unit
    have hsum : durSum frac (p :: ps) = p.value frac + durSum frac ps := by simp [durSum]
    rw [hsum] at hd
    have hv : numberOf p.whole * p.ns ≤ p.value frac := by unfold DurPart.value; omega
    have hw : numberOf p.whole ≤ 2 ^ 63 := by
      have := Nat.le_mul_of_pos_right (numberOf p.whole) hu2
      omega
    have htext : durText (p :: ps) = p.text ++ durText ps := by unfold durText; rw [List.flatMap_cons]
    obtain ⟨f, k, h1, h2⟩ := durNumber_part frac p hp hs (durText ps) hw
    cases fuel with
    | zero => simp at hf
    | succ fuel =>
      have hne : p.text ++ durText ps ≠ [] := by
        unfold DurPart.text
        simp [hu3]
      obtain ⟨c, cs, hc⟩ : ∃ c cs, p.text ++ durText ps = c :: cs := by
        cases h : p.text ++ durText ps with
        | nil => exact absurd h hne
        | cons c cs => exact ⟨c, cs, rfl⟩
      obtain ⟨ht, hdr⟩ := takeWhile_unit hu4 (durText_next ps fun q hq => (hg' q hq).1)
      rw [htext, hc]
      rw [hc] at h1
      simp only [durLoop, h1, ht, hu1, hdr]
      have hq : ¬ numberOf p.whole > 2 ^ 63 / p.ns := by
        intro h
        have h3 := (Nat.div_lt_iff_lt_mul hu2).mp h
        omega
      rw [if_neg hq]
      have hval : (if f > 0 then (numberOf p.whole * p.ns + frac f k p.ns) % 2 ^ 64 else numberOf p.whole * p.ns) = p.value frac := by
        rw [h2]
        rw [h2] at hd
        split
        · rename_i h0
          rw [if_pos h0] at hd
          exact Nat.mod_eq_of_lt (by omega)
        · simp
      rw [hval, if_neg (by omega), Nat.mod_eq_of_lt (by omega), if_neg (by omega), ih hg' fuel (d + p.value frac) (by simpa using hf) (by omega), hsum]
      congr 1
      omega

theorem durAbs_parts (frac : Nat → Nat → Nat → Nat) (ps : List DurPart) (hne : ps ≠ []) (hg : ∀ p ∈ ps, p.Good ∧ p.Short)
    (hd : durSum frac ps ≤ 2 ^ 63) : durAbs frac (durText ps) = some (durSum frac ps) ∧ ∃ c cs, durText ps = c :: cs ∧ numChar c = true := by
  have hnext := durText_next ps fun p hp => (hg p hp).1
  have hlen : ∀ qs : List DurPart, (∀ p ∈ qs, p.Good ∧ p.Short) → 2 * qs.length ≤ (durText qs).length := by
    intro qs
    induction qs with
    | nil => intro _; simp
    | cons q qs ih =>
      intro h
      have h1 := ih fun p hp => h p (List.mem_cons_of_mem _ hp)
      have hq := (h q List.mem_cons_self).1
      obtain ⟨_, _, hu3, _⟩ := timeUnits_spec hq.unit
      have h2 : 2 ≤ q.text.length := by
        have h3 : 0 < q.unit.length := List.length_pos_iff.mpr hu3
        have h4 : 0 < (q.whole ++ q.fraction.getD []).length := List.length_pos_iff.mpr hq.some
        unfold DurPart.text
        cases hf : q.fraction with
        | none => rw [hf] at h4; simp only [Option.getD_none, List.length_append, List.length_nil] at h4 ⊢; omega
        | some f => rw [hf] at h4; simp only [Option.getD_some, List.length_append, List.length_cons] at h4 ⊢; omega
      unfold durText at h1 ⊢
      rw [List.flatMap_cons]
      simp only [List.length_append, List.length_cons]
      omega
  have h2 := hlen ps hg
  have hpos : 0 < ps.length := List.length_pos_iff.mpr hne
  constructor
  · unfold durAbs
    rw [if_neg (by intro h; rw [h] at h2; simp at h2; omega), if_neg (by intro h; rw [h] at h2; simp at h2; omega), durLoop_parts frac ps hg _ _ (by omega) (by omega), Nat.zero_add]
  · cases h : durText ps with
    | nil => rw [h] at h2; simp at h2; omega
    | cons c cs => exact ⟨c, cs, rfl, hnext c (by rw [h]; rfl)⟩

/-- **C84**.  A text of numbers with units is accepted as the sum, with a sign or without. -/
theorem C84_accepts (frac : Nat → Nat → Nat → Nat) (ps : List DurPart) (hne : ps ≠ []) (hg : ∀ p ∈ ps, p.Good ∧ p.Short)
    (hd : durSum frac ps < 2 ^ 63) :
    parseDuration frac (durText ps) = some ((durSum frac ps : Nat) : Int) ∧
    parseDuration frac ('+' :: durText ps) = some ((durSum frac ps : Nat) : Int) ∧
    parseDuration frac ('-' :: durText ps) = some (-((durSum frac ps : Nat) : Int)) := by
  obtain ⟨h, c, cs, hc, hn⟩ := durAbs_parts frac ps hne hg (by omega)
  have hfin : (durAbs frac (durText ps)).bind (fun d => if d < 2 ^ 63 then some (d : Int) else none) = some ((durSum frac ps : Nat) : Int) := by
    rw [h]; simp only [Option.bind_some, if_pos hd]
  refine ⟨?_, hfin, ?_⟩
  · rw [← hfin]
    unfold parseDuration
    split
    · rename_i h; rw [hc] at h; cases h; exact absurd hn (by decide)
    · rename_i h; rw [hc] at h; cases h; exact absurd hn (by decide)
    · rfl
  · simp only [parseDuration, h]
    rfl

theorem leadingInt_split {s rest : Str} : ∀ {x n : Nat}, leadingInt x s = some (n, rest) → ∃ ds, s = ds ++ rest ∧ Digits ds := by
  induction s with
  | nil => intro x n h; simp only [leadingInt, Option.some.injEq, Prod.mk.injEq] at h; exact ⟨[], by simp [h.2], by simp [Digits]⟩
  | cons c cs ih =>
    intro x n h
    simp only [leadingInt] at h
    split at h
    · simp only [Option.some.injEq, Prod.mk.injEq] at h
      exact ⟨[], by simp [h.2], by simp [Digits]⟩
    · rename_i d hd
      split at h
      · cases h
      · obtain ⟨ds, rfl, h2⟩ := ih h
        refine ⟨c :: ds, rfl, ?_⟩
        intro e he
        rcases List.mem_cons.mp he with rfl | he
        · exact (digitVal_iff e).mp (by rw [hd]; rfl)
        · exact h2 e he

theorem leadingFraction_split {s rest : Str} : ∀ {x k : Nat} {b : Bool} {fk : Nat × Nat}, leadingFraction x k b s = (fk, rest) →
    ∃ ds, s = ds ++ rest ∧ Digits ds := by
  induction s with
  | nil => intro x k b fk h; simp only [leadingFraction, Prod.mk.injEq] at h; exact ⟨[], by simp [h.2], by simp [Digits]⟩
  | cons c cs ih =>
    intro x k b fk h
    simp only [leadingFraction] at h
    split at h
    · simp only [Prod.mk.injEq] at h
      exact ⟨[], by simp [h.2], by simp [Digits]⟩
    · rename_i d hd
      have : ∃ ds, cs = ds ++ rest ∧ Digits ds := by
        split at h
        · exact ih h
        · exact ih h
      obtain ⟨ds, rfl, h2⟩ := this
      refine ⟨c :: ds, rfl, ?_⟩
      intro e he
      rcases List.mem_cons.mp he with rfl | he
      · exact (digitVal_iff e).mp (by rw [hd]; rfl)
      · exact h2 e he

theorem durUnit_mem {u : Str} {n : Nat} (h : durUnit u = some n) : (u, n) ∈ timeUnits := by
  have := durUnit_cases h
  exact this

theorem durNumber_split {s rest : Str} {v : Nat} {fk : Nat × Nat} (h : durNumber s = some (v, fk, rest)) :
    ∃ w f, s = w ++ (match f with | some f => '.' :: f | none => []) ++ rest ∧ Digits w ∧ Digits (Option.getD f []) ∧ w ++ Option.getD f [] ≠ [] := by
  unfold durNumber at h
  split at h
  · cases h
  · rename_i v' s1 hi
    obtain ⟨w, rfl, hw⟩ := leadingInt_split hi
    split at h
    · rename_i r
      dsimp only at h
      split at h
      · cases h
      · rename_i hn
        simp only [Option.some.injEq, Prod.mk.injEq] at h
        obtain ⟨-, -, rfl⟩ := h
        obtain ⟨f, hf, hfd⟩ := leadingFraction_split (s := r) (rest := (leadingFraction 0 0 false r).2) (fk := (leadingFraction 0 0 false r).1) (x := 0) (k := 0) (b := false) rfl
        refine ⟨w, some f, ?_, hw, hfd, ?_⟩
        · rw [List.append_assoc, List.cons_append, ← hf]
        · intro h0
          apply hn
          simp only [Option.getD_some, List.append_eq_nil_iff] at h0
          rw [h0.2] at hf
          refine ⟨by rw [h0.1]; rfl, ?_⟩
          rw [← List.nil_append (leadingFraction 0 0 false r).2, ← hf]
    · split at h
      · cases h
      · rename_i hn
        simp only [Option.some.injEq, Prod.mk.injEq] at h
        obtain ⟨-, -, rfl⟩ := h
        refine ⟨w, none, by simp, hw, by simp [Digits], ?_⟩
        intro h0
        apply hn
        simp only [Option.getD_none, List.append_nil] at h0
        rw [h0]; rfl

theorem durLoop_split (frac : Nat → Nat → Nat → Nat) (fuel : Nat) : ∀ (d n : Nat) (s : Str), durLoop frac fuel d s = some n →
    ∃ ps : List DurPart, s = durText ps ∧ ∀ p ∈ ps, p.Good := by
  induction fuel with
  | zero =>
    intro d n s h
    cases s with
    | nil => exact ⟨[], rfl, by simp⟩
    | cons c cs => simp [durLoop] at h
  | succ fuel ih =>
    intro d n s h
    cases s with
    | nil => exact ⟨[], rfl, by simp⟩
    | cons c cs =>
      simp only [durLoop] at h
      split at h
      · cases h
      · rename_i v f k s2 hn
        obtain ⟨w, fr, h1, h2, h3, h4⟩ := durNumber_split hn
        split at h
        · cases h
        · rename_i unit hu
          have hd : ∃ d', durLoop frac fuel d' (s2.dropWhile fun c => !numChar c) = some n := by
            repeat' split at h
            all_goals first | exact ⟨_, h⟩ | cases h
          obtain ⟨d', hd⟩ := hd
          obtain ⟨ps, h5, h6⟩ := ih _ _ _ hd
          refine ⟨⟨w, fr, s2.takeWhile fun c => !numChar c, unit⟩ :: ps, ?_, ?_⟩
          · rw [h1]
            unfold durText at h5 ⊢
            rw [List.flatMap_cons, ← h5]
            unfold DurPart.text
            dsimp only
            rw [List.append_assoc, List.append_assoc _ _ (List.dropWhile _ _), List.takeWhile_append_dropWhile]
            cases fr <;> simp
          · intro p hp
            rcases List.mem_cons.mp hp with rfl | hp
            · exact ⟨h2, h3, h4, durUnit_mem hu⟩
            · exact h6 p hp

/-- **C84**.  Nothing else is accepted, but for the single digit `0`. -/
theorem C84_only (frac : Nat → Nat → Nat → Nat) (s : Str) (d : Int) (h : parseDuration frac s = some d) :
    ∃ sign body, s = sign ++ body ∧ (sign = [] ∨ sign = "+".toList ∨ sign = "-".toList) ∧
      (body = "0".toList ∨ ∃ ps : List DurPart, ps ≠ [] ∧ body = durText ps ∧ ∀ p ∈ ps, p.Good) := by
  have key : ∀ r n, durAbs frac r = some n → r = "0".toList ∨ ∃ ps : List DurPart, ps ≠ [] ∧ r = durText ps ∧ ∀ p ∈ ps, p.Good := by
    intro r n h
    unfold durAbs at h
    split at h
    · rename_i h0; exact .inl h0
    · split at h
      · cases h
      · rename_i h0
        obtain ⟨ps, h1, h2⟩ := durLoop_split frac _ _ _ _ h
        refine .inr ⟨ps, ?_, h1, h2⟩
        rintro rfl
        exact h0 h1
  unfold parseDuration at h
  split at h
  · rename_i r
    cases hr : durAbs frac r with
    | none => rw [hr] at h; cases h
    | some n => exact ⟨"-".toList, r, rfl, .inr (.inr rfl), key r n hr⟩
  · rename_i r
    simp only [Option.bind_eq_some_iff] at h
    obtain ⟨n, h, _⟩ := h
    exact ⟨"+".toList, r, rfl, .inr (.inl rfl), key r n h⟩
  · simp only [Option.bind_eq_some_iff] at h
    obtain ⟨n, h, _⟩ := h
    exact ⟨[], s, rfl, .inl rfl, key s n h⟩

/-- **C84**, for the options of `New`: such a text is accepted by every option that takes a duration, and it is what the setting becomes. -/
theorem C84_setting (F : NewFns) (ps : List DurPart) (hne : ps ≠ []) (hg : ∀ p ∈ ps, p.Good ∧ p.Short) (hd : durSum F.frac ps < 2 ^ 63) (dflt : Int) :
    DurOk F (durText ps) ∧ durOf F (durText ps) dflt = ((durSum F.frac ps : Nat) : Int) := by
  have h := (C84_accepts F.frac ps hne hg hd).1
  refine ⟨.inr ⟨_, h⟩, ?_⟩
  obtain ⟨_, c, cs, hc, _⟩ := durAbs_parts F.frac ps hne hg (by omega)
  unfold durOf
  rw [if_neg (by rw [hc]; simp), h]
  rfl

/-- An hour and a half, with a fraction; and a text that is not accepted, by `C84_only`. -/
example : parseDuration (fun f k u => f * u / 10 ^ k) "1h0.5h".toList = some 5400000000000 := by
  have h := (C84_accepts (fun f k u => f * u / 10 ^ k) [⟨"1".toList, none, "h".toList, 60 * 60 * 10 ^ 9⟩, ⟨"0".toList, some "5".toList, "h".toList, 60 * 60 * 10 ^ 9⟩]
    (by simp) (by
      simp only [List.mem_cons, List.not_mem_nil, or_false]
      rintro p (rfl | rfl)
      · exact ⟨⟨by unfold Digits; decide, by unfold Digits; decide, by decide, by decide +kernel⟩, by unfold DurPart.Short; decide⟩
      · exact ⟨⟨by unfold Digits; decide, by unfold Digits; decide, by decide, by decide +kernel⟩, by unfold DurPart.Short; decide⟩) (by decide)).1
  exact h

end Athenz
