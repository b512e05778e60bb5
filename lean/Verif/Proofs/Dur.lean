import Verif.Go.Dur

/-! # What `time.ParseDuration` does with a whole number and one unit -/

namespace Athenz

theorem parseDigits_mono {ds : Str} : ∀ {x n : Nat}, parseDigits x ds = some n → x ≤ n := by
  induction ds with
  | nil => intro x n h; simp [parseDigits] at h; omega
  | cons c cs ih =>
    intro x n h
    simp only [parseDigits] at h
    split at h
    · have := ih h; omega
    · cases h

theorem leadingInt_digits {ds : Str} {rest : Str} (hr : ∀ c, rest.head? = some c → digitVal c = none) :
    ∀ {x n : Nat}, parseDigits x ds = some n → n ≤ 2 ^ 63 → leadingInt x (ds ++ rest) = some (n, rest) := by
  induction ds with
  | nil =>
    intro x n h _
    simp only [parseDigits, Option.some.injEq] at h
    subst h
    cases rest with
    | nil => rfl
    | cons c cs => simp only [List.nil_append, leadingInt, hr c rfl]
  | cons c cs ih =>
    intro x n h hn
    simp only [parseDigits] at h
    split at h
    · rename_i d hd
      have hm := parseDigits_mono h
      simp only [List.cons_append, leadingInt, hd]
      rw [if_neg (by omega), Nat.mul_comm x 10]
      exact ih h hn
    · cases h

theorem durUnit_cases {u : Str} {unit : Nat} (h : durUnit u = some unit) :
    (u, unit) ∈ [("ns".toList, 1), ("us".toList, 1000), ("µs".toList, 1000), ("μs".toList, 1000), ("ms".toList, 1000000), ("s".toList, 1000000000),
      ("m".toList, 60000000000), ("h".toList, 3600000000000)] := by
  simp only [List.mem_cons, Prod.mk.injEq, List.not_mem_nil, or_false]
  unfold durUnit at h
  repeat' split at h
  all_goals (first | (simp only [Option.some.injEq] at h; subst h; simp_all) | cases h)

/-- A whole number with one unit. -/
theorem parseDuration_whole (frac : Nat → Nat → Nat → Nat) {ds u : Str} {n unit : Nat} (hne : ds ≠ []) (hd : parseDigits 0 ds = some n)
    (hu : durUnit u = some unit) (hb : n * unit < 2 ^ 63) : parseDuration frac (ds ++ u) = some ((n * unit : Nat) : Int) := by
  have hu' := durUnit_cases hu
  have hun : u.all (fun c => !numChar c) = true ∧ u ≠ [] ∧ 0 < unit := by
    revert hu'
    generalize h : (u, unit) = p
    intro hu'
    simp only [List.mem_cons, List.not_mem_nil, or_false] at hu'
    rcases hu' with rfl | rfl | rfl | rfl | rfl | rfl | rfl | rfl <;> cases h <;> decide
  obtain ⟨hall, hune, hpos⟩ := hun
  cases hds : ds with
  | nil => exact absurd hds hne
  | cons c cs =>
    have hc : (digitVal c).isSome := by
      rw [hds] at hd
      simp only [parseDigits] at hd
      split at hd
      · rename_i h; rw [h]; rfl
      · cases hd
    cases hu2 : u with
    | nil => exact absurd hu2 hune
    | cons e es =>
      have he : numChar e = false := by
        rw [hu2] at hall
        simp only [List.all_cons, Bool.and_eq_true, Bool.not_eq_true'] at hall
        exact hall.1
      have he1 : e ≠ '.' := by rintro rfl; revert he; decide
      have he2 : digitVal e = none := by
        unfold numChar at he
        simp only [Bool.or_eq_false_iff] at he
        simpa using he.2
      have hnu : n ≤ n * unit := Nat.le_mul_of_pos_right n hpos
      have hint : leadingInt 0 (ds ++ u) = some (n, u) := leadingInt_digits (by rw [hu2]; intro c h; cases h; exact he2) hd (by omega)
      have hlen : u.length ≠ (ds ++ u).length := by rw [hds]; simp only [List.length_append, List.length_cons]; omega
      have hnum : durNumber (ds ++ u) = some (n, (0, 0), u) := by
        unfold durNumber
        rw [hint]
        simp only
        rw [hu2] at hlen ⊢
        split
        · rename_i h; cases h; exact absurd rfl he1
        · rw [if_neg hlen]
      have htw : u.takeWhile (fun c => !numChar c) = u := by
        rw [← List.append_nil u, List.takeWhile_append_of_pos (fun a ha => List.all_eq_true.mp hall a ha)]; rfl
      have hdw : u.dropWhile (fun c => !numChar c) = [] := by
        have := List.takeWhile_append_dropWhile (p := fun c => !numChar c) (l := u)
        rw [htw] at this
        exact List.append_right_eq_self.mp this
      have habs : durAbs frac (ds ++ u) = some (n * unit) := by
        unfold durAbs
        have h0 : ds ++ u ≠ "0".toList := by
          rw [hds, hu2]
          intro h
          have := congrArg List.length h
          simp at this
        have h1 : ds ++ u ≠ [] := by rw [hds]; simp
        rw [if_neg h0, if_neg h1]
        have hlen2 : ∃ k, (ds ++ u).length = k + 1 := ⟨(cs ++ u).length, by rw [hds]; simp⟩
        obtain ⟨k, hk⟩ := hlen2
        rw [hk]
        have hcons : ds ++ u = c :: (cs ++ u) := by rw [hds]; rfl
        rw [hcons] at hnum ⊢
        simp only [durLoop, hnum, htw, hu, hdw]
        have hq : ¬ n > 2 ^ 63 / unit := by
          intro h
          have h3 := (Nat.div_lt_iff_lt_mul hpos).mp h
          omega
        rw [if_neg hq]
        have hm : n * unit % 2 ^ 64 = n * unit := Nat.mod_eq_of_lt (by omega)
        simp only [Nat.lt_irrefl, if_false, Nat.zero_add, hm]
        rw [if_neg (by rintro ⟨h, _⟩; exact h), if_neg (by omega)]
      have hfin : (durAbs frac (ds ++ u)).bind (fun d => if d < 2 ^ 63 then some (d : Int) else none) = some ((n * unit : Nat) : Int) := by
        rw [habs]
        simp only [Option.bind_some, if_pos hb]
      have hm : c ≠ '-' := by rintro rfl; revert hc; decide
      have hp : c ≠ '+' := by rintro rfl; revert hc; decide
      rw [← hds, ← hu2]
      rw [← hfin]
      unfold parseDuration
      split
      · rename_i h; rw [hds] at h; cases h; exact absurd rfl hm
      · rename_i h; rw [hds] at h; cases h; exact absurd rfl hp
      · rfl

/-- The values of `time.Duration`. -/
theorem durLoop_le (frac : Nat → Nat → Nat → Nat) (fuel : Nat) : ∀ d s n, d ≤ 2 ^ 63 → durLoop frac fuel d s = some n → n ≤ 2 ^ 63 := by
  induction fuel with
  | zero =>
    intro d s n hd h
    cases s with
    | nil => simp only [durLoop, Option.some.injEq] at h; omega
    | cons c cs => simp [durLoop] at h
  | succ fuel ih =>
    intro d s n hd h
    cases s with
    | nil => simp only [durLoop, Option.some.injEq] at h; omega
    | cons c cs =>
      simp only [durLoop] at h
      split at h
      · cases h
      · split at h
        · cases h
        · split at h
          · cases h
          · rename_i v f k s2 _ _ unit _ _
            generalize (if f > 0 then (v * unit + frac f k unit) % 2 ^ 64 else v * unit) = w at h
            by_cases h1 : f > 0 ∧ w > 2 ^ 63
            · rw [if_pos h1] at h; cases h
            · rw [if_neg h1] at h
              by_cases h2 : (d + w) % 2 ^ 64 > 2 ^ 63
              · rw [if_pos h2] at h; cases h
              · rw [if_neg h2] at h
                exact ih _ _ _ (by omega) h

theorem parseDuration_int64 (frac : Nat → Nat → Nat → Nat) (s : Str) (d : Int) (h : parseDuration frac s = some d) : IsInt64 d := by
  have habs : ∀ r n, durAbs frac r = some n → n ≤ 2 ^ 63 := by
    intro r n h
    unfold durAbs at h
    split at h
    · simp at h; omega
    · split at h
      · cases h
      · exact durLoop_le frac _ _ _ _ (by omega) h
  have hpos : ∀ r, (durAbs frac r).bind (fun d => if d < 2 ^ 63 then some (d : Int) else none) = some d → IsInt64 d := by
    intro r h
    cases hr : durAbs frac r with
    | none => rw [hr] at h; cases h
    | some n =>
      rw [hr] at h
      change (if n < 2 ^ 63 then some (n : Int) else none) = some d at h
      split at h
      · rename_i hlt
        simp only [Option.some.injEq] at h
        subst h
        unfold IsInt64
        omega
      · cases h
  unfold parseDuration at h
  split at h
  · rename_i r
    cases hr : durAbs frac r with
    | none => rw [hr] at h; cases h
    | some n =>
      have hn := habs r n hr
      rw [hr] at h
      change some (-(n : Int)) = some d at h
      simp only [Option.some.injEq] at h
      subst h
      unfold IsInt64
      omega
  · exact hpos _ h
  · exact hpos _ h

end Athenz
