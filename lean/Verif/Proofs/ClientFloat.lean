import Verif.Model.ClientFloat
import Verif.Spec.ClientFloat
import Mathlib.Tactic.Linarith
import Mathlib.Tactic.NormNum
import Mathlib.Tactic.Positivity
import Mathlib.Tactic.FieldSimp
import Mathlib.Tactic.Ring

/-! # The error of floating point arithmetic -/

namespace Athenz.FloatP

theorem roundEven_err (x : ℚ) : |(roundEven x : ℚ) - x| ≤ 1 / 2 := by
  have h1 := Int.floor_le x
  have h2 := Int.lt_floor_add_one x
  rw [abs_le]
  unfold roundEven
  split
  · constructor <;> linarith
  · split
    · push_cast; constructor <;> linarith
    · split
      · constructor <;> linarith
      · push_cast; constructor <;> linarith

theorem ulp_pos (x : ℚ) : 0 < ulp x := by unfold ulp; exact zpow_pos (by norm_num) _

theorem round53_err (x : ℚ) : |round53 x - x| ≤ ulp x / 2 := by
  have hu := ulp_pos x
  have h := roundEven_err (x / ulp x)
  have e : round53 x - x = ((roundEven (x / ulp x) : ℚ) - x / ulp x) * ulp x := by
    unfold round53; field_simp
  rw [e, abs_mul, abs_of_pos hu]
  calc _ ≤ 1 / 2 * ulp x := by apply mul_le_mul_of_nonneg_right h hu.le
    _ = _ := by ring

/-- The unit roundoff. -/
def u : ℚ := 1 / 2 ^ 53

/-- Rounding changes a number that is not too small by a factor next to 1. -/
theorem round53_rel {x : ℚ} (hx : (2 : ℚ) ^ (-1022 : Int) ≤ x) : x * (1 - u) ≤ round53 x ∧ round53 x ≤ x * (1 + u) := by
  have hpos : 0 < x := lt_of_lt_of_le (zpow_pos (by norm_num) _) hx
  have hl : -1022 ≤ Int.log 2 x := (Int.zpow_le_iff_le_log (b := 2) (by norm_num) hpos).mp (by exact_mod_cast hx)
  have hz : ((2 : ℕ) : ℚ) ^ Int.log 2 x ≤ x := Int.zpow_log_le_self (by norm_num) hpos
  have hu : ulp x / 2 ≤ x * u := by
    unfold ulp u
    rw [abs_of_pos hpos, max_eq_left hl, zpow_sub₀ (by norm_num)]
    have : (2 : ℚ) ^ Int.log 2 x ≤ x := by exact_mod_cast hz
    have e : (2 : ℚ) ^ Int.log 2 x / 2 ^ (52 : Int) / 2 = 2 ^ Int.log 2 x * (1 / 2 ^ 53) := by
      norm_num; ring
    rw [e]
    exact mul_le_mul_of_nonneg_right this (by norm_num)
  have h := abs_le.mp (round53_err x)
  constructor <;> nlinarith [h.1, h.2]

theorem ofRat_fin {x : ℚ} (hx : 1 / 2 ^ 200 ≤ x) (hb : x ≤ 2 ^ 200) :
    ∃ r, F64.ofRat x = .fin r ∧ x * (1 - u) ≤ r ∧ r ≤ x * (1 + u) := by
  have hx' : (2 : ℚ) ^ (-1022 : Int) ≤ x := by
    refine le_trans (zpow_le_zpow_right₀ (by norm_num) (show (-1022 : Int) ≤ -200 by norm_num)) (le_trans (le_of_eq ?_) hx)
    rw [zpow_neg, one_div]; rfl
  obtain ⟨h1, h2⟩ := round53_rel hx'
  refine ⟨round53 x, ?_, h1, h2⟩
  unfold F64.ofRat
  rw [if_neg]
  have hpos : 0 < x := lt_of_lt_of_le (by norm_num) hx
  have h3 : x * (1 + u) ≤ 2 ^ 201 := by
    have : (1 + u) ≤ 2 := by unfold u; norm_num
    nlinarith
  have hlt : (2 : ℚ) ^ 201 < 2 ^ 1024 := pow_lt_pow_right₀ (by norm_num) (by norm_num)
  exact not_le.mpr (lt_of_le_of_lt (le_trans h2 h3) hlt)

/-- Four roundings, one of them in the denominator. -/
theorem four {N R Q w b d : ℚ} (hN : 0 < N) (hR : 0 < R) (hQl : R * (1 - u) ≤ Q) (hQh : Q ≤ R * (1 + 2 * u)) (hb1 : Q * (1 - u) ≤ b)
    (hb2 : b ≤ Q * (1 + u)) (hw1 : N * (1 - u) ≤ w) (hw2 : w ≤ N * (1 + u)) (hd1 : w * b * (1 - u) ≤ d) (hd2 : d ≤ w * b * (1 + u)) :
    N * R * (1 - 1 / 2 ^ 50) ≤ d ∧ d ≤ N * R * (1 + 1 / 2 ^ 50) := by
  have l0 : (0 : ℚ) ≤ 1 - u := by unfold u; norm_num
  have h0 : (0 : ℚ) ≤ 1 + u := by unfold u; norm_num
  have m0 : (0 : ℚ) ≤ 1 + 2 * u := by unfold u; norm_num
  have bl : R * (1 - u) * (1 - u) ≤ b := le_trans (mul_le_mul_of_nonneg_right hQl l0) hb1
  have bh : b ≤ R * (1 + 2 * u) * (1 + u) := le_trans hb2 (mul_le_mul_of_nonneg_right hQh h0)
  have bl0 : 0 ≤ R * (1 - u) * (1 - u) := mul_nonneg (mul_nonneg hR.le l0) l0
  have b0 : 0 ≤ b := le_trans bl0 bl
  have w0 : 0 ≤ w := le_trans (mul_nonneg hN.le l0) hw1
  have wbl : N * (1 - u) * (R * (1 - u) * (1 - u)) ≤ w * b := mul_le_mul hw1 bl bl0 w0
  have wbh : w * b ≤ N * (1 + u) * (R * (1 + 2 * u) * (1 + u)) := mul_le_mul hw2 bh b0 (mul_nonneg hN.le h0)
  have hNR : 0 < N * R := mul_pos hN hR
  have k1 : (1 - 1 / 2 ^ 50 : ℚ) ≤ (1 - u) * (1 - u) * (1 - u) * (1 - u) := by unfold u; norm_num
  have k2 : (1 + u) * (1 + 2 * u) * (1 + u) * (1 + u) ≤ (1 + 1 / 2 ^ 50 : ℚ) := by unfold u; norm_num
  constructor
  · calc N * R * (1 - 1 / 2 ^ 50) ≤ N * R * ((1 - u) * (1 - u) * (1 - u) * (1 - u)) := mul_le_mul_of_nonneg_left k1 hNR.le
      _ = N * (1 - u) * (R * (1 - u) * (1 - u)) * (1 - u) := by ring
      _ ≤ w * b * (1 - u) := mul_le_mul_of_nonneg_right wbl l0
      _ ≤ d := hd1
  · calc d ≤ w * b * (1 + u) := hd2
      _ ≤ N * (1 + u) * (R * (1 + 2 * u) * (1 + u)) * (1 + u) := mul_le_mul_of_nonneg_right wbh h0
      _ = N * R * ((1 + u) * (1 + 2 * u) * (1 + u) * (1 + u)) := by ring
      _ ≤ N * R * (1 + 1 / 2 ^ 50) := mul_le_mul_of_nonneg_left k2 hNR.le

/-- Dividing by a number rounded. -/
theorem quot {S a : ℚ} (hS : 0 < S) (ha0 : 0 < a) (h1 : S * (1 - u) ≤ a) (h2 : a ≤ S * (1 + u)) :
    (1000000000 / S) * (1 - u) ≤ 1000000000 / a ∧ 1000000000 / a ≤ (1000000000 / S) * (1 + 2 * u) := by
  have hu0 : 0 < u := by unfold u; norm_num
  have hu1 : u < 1 / 2 := by unfold u; norm_num
  constructor
  · rw [le_div_iff₀ ha0, div_mul_eq_mul_div, div_mul_eq_mul_div, div_le_iff₀ hS]
    nlinarith [mul_pos hS hu0]
  · rw [div_le_iff₀ ha0, div_mul_eq_mul_div, div_mul_eq_mul_div, le_div_iff₀ hS]
    nlinarith [mul_pos hS hu0]

theorem times_close {f : ℚ} {count : Nat} (hl : 1 / 2 ^ 40 ≤ |f|) (hh : |f| ≤ 2 ^ 40) (hc : count < 2 ^ 62) :
    ∃ d, F64.times (2 * count + 1) (F64.under 1000000000 (F64.square f)) = .fin d ∧
      Spec.exactWait f count * (1 - 1 / 2 ^ 50) ≤ d ∧ d ≤ Spec.exactWait f count * (1 + 1 / 2 ^ 50) := by
  have hu : u = 1 / 2 ^ 53 := rfl
  have hu0 : 0 < u := by unfold u; norm_num
  have hu1 : u < 1 / 2 := by unfold u; norm_num
  have hf2 : f * f = |f| * |f| := (abs_mul_abs_self f).symm
  have hsl : 1 / 2 ^ 80 ≤ f * f := by
    rw [hf2, show (1 / 2 ^ 80 : ℚ) = 1 / 2 ^ 40 * (1 / 2 ^ 40) by norm_num]
    exact mul_le_mul hl hl (by norm_num) (abs_nonneg f)
  have hsh : f * f ≤ 2 ^ 80 := by
    rw [hf2, show (2 ^ 80 : ℚ) = 2 ^ 40 * 2 ^ 40 by norm_num]
    exact mul_le_mul hh hh (abs_nonneg f) (by norm_num)
  have hs0 : 0 < f * f := lt_of_lt_of_le (by norm_num) hsl
  generalize hS : f * f = S at hsl hsh hs0
  obtain ⟨a, ha, ha1, ha2⟩ := ofRat_fin (x := S) (le_trans (by norm_num) hsl) (le_trans hsh (by norm_num))
  have ha0 : 0 < a := lt_of_lt_of_le (by nlinarith) ha1
  have hale : a ≤ 2 ^ 81 := by nlinarith
  have hage : 1 / 2 ^ 81 ≤ a := by nlinarith
  have hq1 : 1 / 2 ^ 81 ≤ 1000000000 / a := by
    rw [le_div_iff₀ ha0]; nlinarith
  have hq2 : 1000000000 / a ≤ 2 ^ 111 := by
    rw [div_le_iff₀ ha0]; nlinarith
  obtain ⟨b, hb, hb1, hb2⟩ := ofRat_fin (x := 1000000000 / a) (le_trans (by norm_num) hq1) (le_trans hq2 (by norm_num))
  have hQ0 : 0 < 1000000000 / a := by positivity
  have hb0 : 0 < b := lt_of_lt_of_le (by nlinarith) hb1
  have hn1 : (1 : ℚ) ≤ ((2 * count + 1 : Nat) : ℚ) := by push_cast; have : (0 : ℚ) ≤ count := by positivity
                                                         linarith
  have hn2 : ((2 * count + 1 : Nat) : ℚ) ≤ 2 ^ 64 := by
    have : 2 * count + 1 ≤ 2 ^ 64 := by omega
    exact_mod_cast this
  obtain ⟨w, hw, hw1, hw2⟩ := ofRat_fin (x := ((2 * count + 1 : Nat) : ℚ))
    (le_trans (by norm_num) hn1) (le_trans hn2 (by norm_num))
  generalize hN : ((2 * count + 1 : Nat) : ℚ) = N at hn1 hn2 hw hw1 hw2
  have hw0 : 1 / 2 ≤ w := by nlinarith
  have hwh : w ≤ 2 ^ 65 := by nlinarith
  have hbl : 1 / 2 ^ 82 ≤ b := by nlinarith
  have hbh : b ≤ 2 ^ 112 := by nlinarith
  have hp1 : 1 / 2 ^ 83 ≤ w * b := by
    rw [show (1 / 2 ^ 83 : ℚ) = 1 / 2 * (1 / 2 ^ 82) by norm_num]
    exact mul_le_mul hw0 hbl (by norm_num) (by linarith)
  have hp2 : w * b ≤ 2 ^ 177 := by
    rw [show (2 ^ 177 : ℚ) = 2 ^ 65 * 2 ^ 112 by norm_num]
    exact mul_le_mul hwh hbh hb0.le (by norm_num)
  obtain ⟨d, hd, hd1, hd2⟩ := ofRat_fin (x := w * b) (le_trans (by norm_num) hp1) (le_trans hp2 (by norm_num))
  refine ⟨d, ?_, ?_⟩
  · unfold F64.square
    rw [hS, ha]
    simp only [F64.under, if_neg (ne_of_gt ha0)]
    unfold F64.times
    rw [hb, hN, hw]
    exact hd
  · have hE : Spec.exactWait f count = N * (1000000000 / S) := by
      unfold Spec.exactWait
      rw [← hS, ← hN]; push_cast; rw [pow_two]; ring
    rw [hE]
    obtain ⟨q1, q2⟩ := quot hs0 ha0 ha1 ha2
    exact four (by linarith) (by positivity) q1 q2 hb1 hb2 hw1 hw2 hd1 hd2

/-- A square that is zero: infinite pauses. -/
theorem wait_zero (big : Int) (count : Nat) : waitDur big 0 count = big := by
  have h0 : F64.square 0 = .fin 0 := by
    have : round53 0 = 0 := by simp [round53, roundEven]
    simp [F64.square, F64.ofRat, this]
  unfold waitDur
  rw [h0]
  simp only [F64.under, if_true]
  unfold F64.times
  cases F64.ofRat ((2 * count + 1 : Nat) : ℚ) <;> rfl

theorem floor_roundEven (x : ℚ) : ⌊x⌋ ≤ roundEven x ∧ roundEven x ≤ ⌊x⌋ + 1 := by
  unfold roundEven
  split
  · omega
  · split
    · omega
    · split <;> omega

theorem roundEven_mono {x y : ℚ} (h : x ≤ y) : roundEven x ≤ roundEven y := by
  have hx := floor_roundEven x
  have hy := floor_roundEven y
  have hf := Int.floor_mono h
  by_cases e : ⌊x⌋ = ⌊y⌋
  · unfold roundEven
    rw [e]
    by_cases h1 : 2 * (y - ⌊y⌋) < 1
    · rw [if_pos h1, if_pos (by linarith)]
    · rw [if_neg h1]
      by_cases h2 : 1 < 2 * (y - ⌊y⌋)
      · rw [if_pos h2]
        split
        · omega
        · split
          · omega
          · split <;> omega
      · rw [if_neg h2, if_neg (by linarith : ¬ 1 < 2 * (x - ⌊y⌋))]
        split
        · split <;> omega
        · exact Int.le_refl _
  · omega

theorem roundEven_int (n : Int) : roundEven (n : ℚ) = n := by simp [roundEven]

/-- The exponent of the numbers around `x`. -/
def expo (x : ℚ) : Int := max (Int.log 2 |x|) (-1022)

theorem expo_mono {x y : ℚ} (h0 : 0 < x) (h : x ≤ y) : expo x ≤ expo y := by
  unfold expo
  rw [abs_of_pos h0, abs_of_pos (lt_of_lt_of_le h0 h)]
  exact max_le_max (Int.log_mono_right h0 h) (le_refl _)

theorem round53_nonneg {x : ℚ} (h : 0 ≤ x) : 0 ≤ round53 x := by
  have hu := ulp_pos x
  have := roundEven_mono (x := 0) (y := x / ulp x) (by positivity)
  rw [show (0 : ℚ) = ((0 : Int) : ℚ) by norm_num, roundEven_int] at this
  unfold round53
  have : (0 : ℚ) ≤ roundEven (x / ulp x) := by exact_mod_cast this
  positivity

/-- Powers of two with 53 bits are not overstepped. -/
theorem round53_le {x : ℚ} {e : Int} (he : expo x ≤ e) (hx : x ≤ 2 ^ e) : round53 x ≤ 2 ^ e := by
  have hu := ulp_pos x
  have e1 : (2 : ℚ) ^ e = ((2 ^ (e - (expo x - 52)).toNat : Int) : ℚ) * ulp x := by
    unfold ulp
    push_cast
    rw [← zpow_natCast, ← zpow_add₀ (by norm_num)]
    congr 1
    have : max (Int.log 2 |x|) (-1022) = expo x := rfl
    rw [this]
    omega
  have h := roundEven_mono (x := x / ulp x) (y := ((2 ^ (e - (expo x - 52)).toNat : Int) : ℚ)) (by
    rw [div_le_iff₀ hu, ← e1]; exact hx)
  rw [roundEven_int] at h
  have h' : (roundEven (x / ulp x) : ℚ) ≤ ((2 ^ (e - (expo x - 52)).toNat : Int) : ℚ) := by exact_mod_cast h
  unfold round53
  rw [e1]
  exact mul_le_mul_of_nonneg_right h' hu.le

theorem le_round53 {x : ℚ} {e : Int} (he : expo x - 52 ≤ e) (hx : 2 ^ e ≤ x) : 2 ^ e ≤ round53 x := by
  have hu := ulp_pos x
  have e1 : (2 : ℚ) ^ e = ((2 ^ (e - (expo x - 52)).toNat : Int) : ℚ) * ulp x := by
    unfold ulp
    push_cast
    rw [← zpow_natCast, ← zpow_add₀ (by norm_num)]
    congr 1
    have : max (Int.log 2 |x|) (-1022) = expo x := rfl
    rw [this]
    omega
  have h := roundEven_mono (y := x / ulp x) (x := ((2 ^ (e - (expo x - 52)).toNat : Int) : ℚ)) (by
    rw [le_div_iff₀ hu, ← e1]; exact hx)
  rw [roundEven_int] at h
  have h' : ((2 ^ (e - (expo x - 52)).toNat : Int) : ℚ) ≤ (roundEven (x / ulp x) : ℚ) := by exact_mod_cast h
  unfold round53
  rw [e1]
  exact mul_le_mul_of_nonneg_right h' hu.le

/-- Rounding keeps the order. -/
theorem round53_mono {x y : ℚ} (h0 : 0 ≤ x) (h : x ≤ y) : round53 x ≤ round53 y := by
  rcases eq_or_lt_of_le h0 with h0 | h0
  · rw [← h0]
    have : round53 0 = 0 := by simp [round53, roundEven]
    rw [this]
    exact round53_nonneg (by linarith)
  · have hm := expo_mono h0 h
    have hy0 : 0 < y := lt_of_lt_of_le h0 h
    rcases Int.lt_or_eq_of_le hm with hlt | heq
    · have hlog : expo y = Int.log 2 y := by
        unfold expo at hlt ⊢
        rw [abs_of_pos hy0] at hlt ⊢
        omega
      have hyl : (2 : ℚ) ^ expo y ≤ y := by
        rw [hlog]
        exact_mod_cast Int.zpow_log_le_self (b := 2) (by norm_num) hy0
      have hxl : x ≤ (2 : ℚ) ^ expo y := by
        have h1 : x < ((2 : ℕ) : ℚ) ^ (Int.log 2 x + 1) := Int.lt_zpow_succ_log_self (by norm_num) x
        have h2 : Int.log 2 x + 1 ≤ expo y := by
          unfold expo at hlt ⊢
          rw [abs_of_pos h0] at hlt
          omega
        have h3 : (2 : ℚ) ^ (Int.log 2 x + 1) ≤ 2 ^ expo y := zpow_le_zpow_right₀ (by norm_num) h2
        exact le_trans (le_of_lt (by exact_mod_cast h1)) h3
      exact le_trans (round53_le hm hxl) (le_round53 (by omega) hyl)
    · have hu : ulp x = ulp y := by
        unfold ulp
        have e1 : max (Int.log 2 |x|) (-1022) = expo x := rfl
        have e2 : max (Int.log 2 |y|) (-1022) = expo y := rfl
        rw [e1, e2, heq]
      unfold round53
      rw [hu]
      have hp := ulp_pos y
      have := roundEven_mono (x := x / ulp y) (y := y / ulp y) (by gcongr)
      have h' : (roundEven (x / ulp y) : ℚ) ≤ roundEven (y / ulp y) := by exact_mod_cast this
      exact mul_le_mul_of_nonneg_right h' hp.le

/-- Which of two `float64` numbers is larger. -/
def leF : F64 → F64 → Prop
  | _, .inf => True
  | .inf, .fin _ => False
  | .fin a, .fin b => a ≤ b

theorem ofRat_mono {x y : ℚ} (h0 : 0 ≤ x) (h : x ≤ y) : leF (F64.ofRat x) (F64.ofRat y) := by
  have := round53_mono h0 h
  unfold F64.ofRat
  by_cases hy : 2 ^ 1024 ≤ round53 y
  · rw [if_pos hy]; split <;> trivial
  · rw [if_neg hy, if_neg (fun hx => hy (le_trans hx this))]; exact this

theorem ofRat_nonneg {x q : ℚ} (h0 : 0 ≤ x) (h : F64.ofRat x = .fin q) : 0 ≤ q := by
  unfold F64.ofRat at h
  split at h
  · cases h
  · injection h with h; rw [← h]; exact round53_nonneg h0

theorem under_nonneg {s q : ℚ} {x : F64} (hs : 0 ≤ s) (hx : ∀ a, x = .fin a → 0 ≤ a) (h : F64.under s x = .fin q) : 0 ≤ q := by
  cases x with
  | inf => injection h with h; rw [← h]
  | fin a =>
    simp only [F64.under] at h
    split at h
    · cases h
    · have := hx a rfl
      exact ofRat_nonneg (by positivity) h

theorem times_mono {m n : Nat} (h : m ≤ n) {x : F64} (hx : ∀ a, x = .fin a → 0 ≤ a) : leF (F64.times m x) (F64.times n x) := by
  have hm : (0 : ℚ) ≤ m := by positivity
  have h1 := ofRat_mono hm (y := (n : ℚ)) (by exact_mod_cast h)
  unfold F64.times
  cases hn : F64.ofRat (n : ℚ) with
  | inf => cases F64.ofRat (m : ℚ) <;> cases x <;> trivial
  | fin b =>
    rw [hn] at h1
    cases hmm : F64.ofRat (m : ℚ) with
    | inf => rw [hmm] at h1; exact absurd h1 (by simp [leF])
    | fin a =>
      rw [hmm] at h1
      cases x with
      | inf => trivial
      | fin c =>
        have hc := hx c rfl
        have ha := ofRat_nonneg hm hmm
        have h1' : a ≤ b := h1
        exact ofRat_mono (mul_nonneg ha hc) (mul_le_mul_of_nonneg_right h1' hc)

theorem toInt64_mono {big : Int} {x y : F64} (h : leF x y) : F64.toInt64 big y = big ∨ F64.toInt64 big x ≤ F64.toInt64 big y := by
  cases y with
  | inf => exact Or.inl rfl
  | fin b =>
    cases x with
    | inf => exact absurd h (by simp [leF])
    | fin a =>
      have h' : a ≤ b := h
      have := Int.floor_mono h'
      by_cases hb : ⌊b⌋ < 2 ^ 63
      · right
        simp only [F64.toInt64, if_pos hb, if_pos (lt_of_le_of_lt this hb)]
        exact this
      · left; simp only [F64.toInt64, if_neg hb]

/-- Pauses grow. -/
theorem wait_mono (big : Int) (f : ℚ) {m n : Nat} (h : m ≤ n) : waitDur big f n = big ∨ waitDur big f m ≤ waitDur big f n := by
  refine toInt64_mono (times_mono (by omega) fun a ha => ?_)
  exact under_nonneg (by norm_num) (fun b hb => ofRat_nonneg (mul_self_nonneg f) hb) ha

theorem wait_nonneg (big : Int) (f : ℚ) (n : Nat) : waitDur big f n = big ∨ 0 ≤ waitDur big f n := by
  unfold waitDur
  cases hx : F64.times (2 * n + 1) (F64.under 1000000000 (F64.square f)) with
  | inf => exact Or.inl rfl
  | fin q =>
    have hq : 0 ≤ q := by
      unfold F64.times at hx
      split at hx
      · rename_i a b ha hb
        have h1 : 0 ≤ a := ofRat_nonneg (by positivity) ha
        have h2 : 0 ≤ b := under_nonneg (by norm_num) (fun b hb => ofRat_nonneg (mul_self_nonneg f) hb) hb
        exact ofRat_nonneg (mul_nonneg h1 h2) hx
      · cases hx
    simp only [F64.toInt64]
    split
    · exact Or.inr (Int.floor_nonneg.mpr hq)
    · exact Or.inl rfl

theorem ulp_eq (x : ℚ) : ulp x = 2 ^ (expo x - 52) := rfl

theorem roundEven_best (y : ℚ) (n : Int) : |(roundEven y : ℚ) - y| ≤ |(n : ℚ) - y| := by
  by_cases e : n = roundEven y
  · rw [e]
  · have h := roundEven_err y
    refine le_trans h ?_
    rw [abs_le] at h
    rw [le_abs]
    rcases lt_or_gt_of_ne e with hlt | hgt
    · right
      have : (n : ℚ) + 1 ≤ roundEven y := by exact_mod_cast hlt
      linarith
    · left
      have : (roundEven y : ℚ) + 1 ≤ n := by exact_mod_cast hgt
      linarith

theorem roundEven_tie (y : ℚ) (n : Int) (hn : n ≠ roundEven y) (h : |(n : ℚ) - y| = |(roundEven y : ℚ) - y|) : roundEven y % 2 = 0 := by
  have hr := abs_le.mp (roundEven_err y)
  have hh : |(n : ℚ) - y| ≤ 1 / 2 := h ▸ roundEven_err y
  have hm := abs_le.mp hh
  have hf1 := Int.floor_le y
  have hf2 := Int.lt_floor_add_one y
  have hy : 2 * (y - ⌊y⌋) = 1 := by
    rcases lt_or_gt_of_ne hn with hlt | hgt
    · have : (n : ℚ) + 1 ≤ roundEven y := by exact_mod_cast hlt
      have e1 : y = n + 1 / 2 := by linarith
      have e2 : ⌊y⌋ = n := by rw [Int.floor_eq_iff]; constructor <;> linarith
      rw [e2]; linarith
    · have : (roundEven y : ℚ) + 1 ≤ n := by exact_mod_cast hgt
      have e1 : y = roundEven y + 1 / 2 := by linarith
      have e2 : ⌊y⌋ = roundEven y := by rw [Int.floor_eq_iff]; constructor <;> linarith
      rw [e2]; linarith
  unfold roundEven
  rw [if_neg (by linarith), if_neg (by linarith)]
  split <;> omega

/-- In the units of `x`. -/
theorem dist_units (x : ℚ) (n : Int) : |(n : ℚ) * ulp x - x| = |(n : ℚ) - x / ulp x| * ulp x := by
  have hu := ulp_pos x
  have e : (n : ℚ) * ulp x - x = ((n : ℚ) - x / ulp x) * ulp x := by field_simp
  rw [e, abs_mul, abs_of_pos hu]

theorem pow_units (x : ℚ) : (2 : ℚ) ^ expo x = ((2 ^ 52 : Int) : ℚ) * ulp x := by
  rw [ulp_eq, zpow_sub₀ (by norm_num)]
  have : (2 : ℚ) ^ (52 : Int) = ((2 ^ 52 : Int) : ℚ) := by norm_num
  rw [this]
  field_simp

/-- Next to `x`, a number is a multiple of the unit of `x`, or `2 ^ expo x`, which is, lies between. -/
theorem double_units {x z : ℚ} (h0 : 0 < x) (hz : Spec.IsDouble z) :
    (∃ n : Int, z = n * ulp x) ∨ (z < 2 ^ expo x ∧ 2 ^ expo x ≤ x) := by
  obtain ⟨k, e, hk, he, rfl⟩ := hz
  by_cases hE : expo x - 52 ≤ e
  · left
    refine ⟨k * 2 ^ (e - (expo x - 52)).toNat, ?_⟩
    rw [ulp_eq]
    push_cast
    rw [mul_assoc, ← zpow_natCast, ← zpow_add₀ (by norm_num)]
    congr 2
    omega
  · have hlog : expo x = Int.log 2 x := by
      unfold expo at hE ⊢
      rw [abs_of_pos h0] at hE ⊢
      omega
    have hx : (2 : ℚ) ^ expo x ≤ x := by
      rw [hlog]
      exact_mod_cast Int.zpow_log_le_self (b := 2) (by norm_num) h0
    have hk' : (k : ℚ) ≤ 2 ^ (53 : Int) := by
      have : k ≤ 2 ^ 53 := le_trans (le_abs_self k) hk
      exact_mod_cast this
    have h1 : (k : ℚ) * 2 ^ e ≤ 2 ^ (53 : Int) * 2 ^ e := mul_le_mul_of_nonneg_right hk' (zpow_pos (by norm_num) _).le
    rw [← zpow_add₀ (by norm_num)] at h1
    have h2 : (2 : ℚ) ^ (53 + e) ≤ 2 ^ expo x := zpow_le_zpow_right₀ (by norm_num) (by omega)
    rcases eq_or_lt_of_le (le_trans h1 h2) with h3 | h3
    · left
      exact ⟨2 ^ 52, by rw [h3, pow_units]⟩
    · exact Or.inr ⟨h3, hx⟩

theorem round53_best_units (x : ℚ) (n : Int) : |round53 x - x| ≤ |(n : ℚ) * ulp x - x| := by
  rw [dist_units]
  unfold round53
  rw [dist_units]
  exact mul_le_mul_of_nonneg_right (roundEven_best _ n) (ulp_pos x).le

/-- Rounding gives a `float64`, and none is nearer. -/
theorem round53_best {x : ℚ} (h0 : 0 < x) : Spec.IsDouble (round53 x) ∧ ∀ z, Spec.IsDouble z → |round53 x - x| ≤ |z - x| := by
  constructor
  · have hu := ulp_pos x
    refine ⟨roundEven (x / ulp x), expo x - 52, ?_, by unfold expo; omega, rfl⟩
    have hn : 0 ≤ roundEven (x / ulp x) := by
      have := roundEven_mono (x := 0) (y := x / ulp x) (by positivity)
      rwa [show (0 : ℚ) = ((0 : Int) : ℚ) by norm_num, roundEven_int] at this
    rw [abs_of_nonneg hn]
    have hx : x < (2 : ℚ) ^ (expo x + 1) := by
      have h1 : x < ((2 : ℕ) : ℚ) ^ (Int.log 2 x + 1) := Int.lt_zpow_succ_log_self (by norm_num) x
      have h2 : Int.log 2 x + 1 ≤ expo x + 1 := by unfold expo; rw [abs_of_pos h0]; omega
      exact lt_of_lt_of_le (by exact_mod_cast h1) (zpow_le_zpow_right₀ (by norm_num) h2)
    have h3 := round53_le (x := x) (e := expo x + 1) (by omega) hx.le
    unfold round53 at h3
    have e : (2 : ℚ) ^ (expo x + 1) = ((2 ^ 53 : Int) : ℚ) * ulp x := by
      rw [zpow_add₀ (by norm_num), pow_units]
      push_cast
      ring
    rw [e] at h3
    exact_mod_cast le_of_mul_le_mul_right h3 hu
  · intro z hz
    rcases double_units h0 hz with ⟨n, rfl⟩ | ⟨h1, h2⟩
    · exact round53_best_units x n
    · refine le_trans (round53_best_units x (2 ^ 52)) ?_
      rw [← pow_units, abs_sub_comm, abs_of_nonneg (by linarith), abs_sub_comm, abs_of_nonneg (by linarith)]
      linarith

/-- Of two that are as near, rounding gives the one with an even last digit. -/
theorem round53_tie {x z : ℚ} (h0 : 0 < x) (hz : Spec.IsDouble z) (hne : z ≠ round53 x) (h : |z - x| = |round53 x - x|) :
    ∃ k : Int, round53 x = (2 * k) * ulp x := by
  have hu := ulp_pos x
  rcases double_units h0 hz with ⟨n, rfl⟩ | ⟨h1, h2⟩
  · have hn : n ≠ roundEven (x / ulp x) := by rintro rfl; exact hne rfl
    rw [dist_units] at h
    unfold round53 at h
    rw [dist_units] at h
    have := roundEven_tie _ n hn (mul_right_cancel₀ (ne_of_gt hu) h)
    refine ⟨roundEven (x / ulp x) / 2, ?_⟩
    unfold round53
    congr 1
    exact_mod_cast (by omega : roundEven (x / ulp x) = 2 * (roundEven (x / ulp x) / 2))
  · have h3 := round53_best_units x (2 ^ 52)
    rw [← pow_units, ← h, abs_sub_comm, abs_of_nonneg (by linarith), abs_sub_comm, abs_of_nonneg (by linarith)] at h3
    linarith

/-- If every pause is what the conversion gives on amd64 for numbers that are too large, no attempt is left out. -/
theorem hammer {cfg : RtCfg} {env : Nat → Attempt} {limit : Int} (hd : ∀ c, cfg.dur c = bigAmd64) (hl : 0 ≤ limit)
    (he : ∀ c, ∃ e now, env c = .fail true e now ∧ 0 ≤ now ∧ now < 2 ^ 63) (fuel : Nat) : ∀ cnt last,
    Spec.attempts (rtLoop cfg env limit fuel cnt last).1 = List.range' cnt fuel ∧
    Spec.pauses (rtLoop cfg env limit fuel cnt last).1 = List.replicate fuel bigAmd64 := by
  induction fuel with
  | zero => intro cnt last; simp [rtLoop, Spec.attempts, Spec.pauses]
  | succ n ih =>
    intro cnt last
    obtain ⟨e, now, h, h1, h2⟩ := he cnt
    have hr : canRetry now (cfg.dur cnt) limit = true := by
      rw [hd]
      unfold canRetry
      refine decide_eq_true ?_
      unfold wrap64 bigAmd64
      omega
    obtain ⟨i1, i2⟩ := ih (cnt + 1) (none, some e)
    simp only [rtLoop, h, hr, Bool.true_eq_false, if_false]
    constructor
    · simp only [Spec.attempts, i1, List.range'_succ]
    · simp only [Spec.pauses, i2, hd, List.replicate_succ]

end Athenz.FloatP
