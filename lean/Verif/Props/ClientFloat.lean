import Verif.Proofs.ClientFloat

/-! # C96: the pauses of the retrying transport as they are computed -/

namespace Athenz

/-- **C96**, the full statement, on amd64: whatever the back-off factor, a pause is never negative (`time.Sleep` of a negative duration returns at
once). -/
def C96_statement : Prop := ∀ (f : ℚ) (count : Nat), 0 ≤ waitDur bigAmd64 f count

/-- **C96**, as far as it holds: for factors from `2^-40` to `2^40`, positive or negative, and pauses that a `time.Duration` can hold, the pause is
that of C85 up to the last bits: it differs by at most a part in `2^50` and one nanosecond.  Missing: other factors. -/
theorem C96_close_partial (big : Int) (f : ℚ) (count : Nat) (hl : 1 / 2 ^ 40 ≤ |f|) (hh : |f| ≤ 2 ^ 40) (hc : count < 2 ^ 62)
    (hs : Spec.exactWait f count * (1 + 1 / 2 ^ 50) < 2 ^ 63) :
    |(waitDur big f count : ℚ) - Spec.exactWait f count| ≤ Spec.exactWait f count / 2 ^ 50 + 1 ∧ 0 ≤ waitDur big f count := by
  obtain ⟨d, hd, h1, h2⟩ := FloatP.times_close hl hh hc
  have hfl : ⌊d⌋ < 2 ^ 63 := by
    have : d < ((2 ^ 63 : Int) : ℚ) := by push_cast; linarith
    exact Int.floor_lt.mpr this
  have hE : 0 ≤ Spec.exactWait f count := by unfold Spec.exactWait; positivity
  have hd0 : 0 ≤ d := le_trans (mul_nonneg hE (by norm_num)) h1
  have e : waitDur big f count = ⌊d⌋ := by
    unfold waitDur
    rw [hd]
    simp only [F64.toInt64, if_pos hfl]
  rw [e]
  have f1 := Int.floor_le d
  have f2 := Int.lt_floor_add_one d
  refine ⟨?_, Int.floor_nonneg.mpr hd0⟩
  rw [abs_le]
  constructor <;> linarith

/-- One second divided by `(3/2)²`, the first pause for a factor of one and a half. -/
example : (1 : ℚ) / 2 ^ 40 ≤ |3 / 2| ∧ |(3 / 2 : ℚ)| ≤ 2 ^ 40 ∧ Spec.exactWait (3 / 2) 0 = 4000000000 / 9 ∧
    Spec.exactWait (3 / 2) 0 * (1 + 1 / 2 ^ 50) < 2 ^ 63 := by
  have : |(3 / 2 : ℚ)| = 3 / 2 := abs_of_pos (by norm_num)
  rw [this]
  refine ⟨by norm_num, by norm_num, ?_, ?_⟩ <;> · unfold Spec.exactWait; norm_num

/-- **C96**, pauses that are too long for a `time.Duration`, which is more than 292 years: what comes out depends on the processor. -/
theorem C96_long (big : Int) (f : ℚ) (count : Nat) (hl : 1 / 2 ^ 40 ≤ |f|) (hh : |f| ≤ 2 ^ 40) (hc : count < 2 ^ 62)
    (hs : 2 ^ 63 ≤ Spec.exactWait f count * (1 - 1 / 2 ^ 50)) : waitDur big f count = big := by
  obtain ⟨d, hd, h1, h2⟩ := FloatP.times_close hl hh hc
  have hfl : ¬ ⌊d⌋ < 2 ^ 63 := by
    have h : ((2 ^ 63 : Int) : ℚ) ≤ d := by push_cast; linarith
    have := Int.le_floor.mpr h
    omega
  unfold waitDur
  rw [hd]
  simp only [F64.toInt64, if_neg hfl]

example : (1 : ℚ) / 2 ^ 40 ≤ |1 / 2 ^ 20| ∧ |(1 / 2 ^ 20 : ℚ)| ≤ 2 ^ 40 ∧ 2 ^ 63 ≤ Spec.exactWait (1 / 2 ^ 20) 4 * (1 - 1 / 2 ^ 50) := by
  have : |(1 / 2 ^ 20 : ℚ)| = 1 / 2 ^ 20 := abs_of_pos (by norm_num)
  rw [this]
  refine ⟨by norm_num, by norm_num, ?_⟩
  unfold Spec.exactWait; norm_num

/-- **C96**, pauses grow, for every factor: a later pause is no shorter than an earlier one, or it is too long for a `time.Duration`; and a pause
that is not too long is not negative. -/
theorem C96_grows (big : Int) (f : ℚ) (m n : Nat) (h : m ≤ n) :
    (waitDur big f n = big ∨ waitDur big f m ≤ waitDur big f n) ∧ (waitDur big f n = big ∨ 0 ≤ waitDur big f n) :=
  ⟨FloatP.wait_mono big f h, FloatP.wait_nonneg big f n⟩

/-- On amd64, a pause that is not negative is no shorter than those before. -/
example (f : ℚ) (m n : Nat) (h : m ≤ n) (hn : 0 ≤ waitDur bigAmd64 f n) : waitDur bigAmd64 f m ≤ waitDur bigAmd64 f n :=
  (C96_grows bigAmd64 f m n h).1.resolve_left fun e => absurd (e ▸ hn) (by decide)

/-- **C96**, the arithmetic is that of IEEE 754: the result of rounding is a number of 64 bit floating point, none is nearer, and if another one is as
near, the result is the one with an even last digit. -/
theorem C96_rounding (x : ℚ) (h : 0 < x) :
    Spec.IsDouble (round53 x) ∧ (∀ z, Spec.IsDouble z → |round53 x - x| ≤ |z - x|) ∧
    ∀ z, Spec.IsDouble z → z ≠ round53 x → |z - x| = |round53 x - x| → ∃ k : Int, round53 x = (2 * k) * ulp x :=
  ⟨(FloatP.round53_best h).1, (FloatP.round53_best h).2, fun _ hz hne he => FloatP.round53_tie h hz hne he⟩

/-- `1 + 2^-53` lies in the middle between 1 and the next number. -/
example : Spec.IsDouble 1 ∧ Spec.IsDouble (1 + 1 / 2 ^ 52) ∧ |(1 : ℚ) - (1 + 1 / 2 ^ 53)| = |1 + 1 / 2 ^ 52 - (1 + 1 / 2 ^ 53)| := by
  refine ⟨⟨1, 0, by norm_num, by norm_num, by norm_num⟩, ⟨2 ^ 52 + 1, -52, by norm_num [abs_of_pos], by norm_num, by norm_num⟩, ?_⟩
  rw [abs_sub_comm, abs_of_pos (by norm_num), abs_of_pos (by norm_num)]
  norm_num

/-- **C96**, the factor 0: all pauses are infinite, and what comes out depends on the processor. -/
theorem C96_zero (big : Int) (count : Nat) : waitDur big 0 count = big := FloatP.wait_zero big count

/-- **C96**, what this does on amd64: a transport with the factor 0 that meets only temporary errors makes all its attempts without a pause and
whatever its time limit. -/
theorem C96_hammer (maxRetryCount maxRetryTime now0 : Int) (env : Nat → Attempt) (hl : 0 ≤ now0 + maxRetryTime) (hi : IsInt64 (now0 + maxRetryTime))
    (he : ∀ c, ∃ e now, env c = .fail true e now ∧ 0 ≤ now ∧ now < 2 ^ 63) :
    Spec.attempts (roundTrip (newExpRtF bigAmd64 0 maxRetryCount maxRetryTime) env now0).1 = List.range maxRetryCount.toNat ∧
    ∀ d ∈ Spec.pauses (roundTrip (newExpRtF bigAmd64 0 maxRetryCount maxRetryTime) env now0).1, d < 0 := by
  have hw : wrap64 (now0 + maxRetryTime) = now0 + maxRetryTime := by
    unfold IsInt64 at hi
    unfold wrap64
    omega
  obtain ⟨h1, h2⟩ := FloatP.hammer (cfg := newExpRtF bigAmd64 0 maxRetryCount maxRetryTime) (env := env) (limit := wrap64 (now0 + maxRetryTime))
    (fun c => C96_zero _ c) (by rw [hw]; exact hl) he maxRetryCount.toNat 0 (none, none)
  refine ⟨by rw [List.range_eq_range']; exact h1, ?_⟩
  intro d hd
  have : d ∈ List.replicate maxRetryCount.toNat bigAmd64 := h2 ▸ hd
  rw [(List.mem_replicate.mp this).2]
  decide

example : (0 : Int) ≤ 1000 + 50 ∧ IsInt64 (1000 + 50) ∧
    ∀ _ : Nat, ∃ e now, Attempt.fail true "timeout".toList 2000 = .fail true e now ∧ 0 ≤ now ∧ now < 2 ^ 63 :=
  ⟨by omega, by decide, fun _ => ⟨_, _, rfl, by omega, by omega⟩⟩

/-- **C96** is false: there is no pause for the factor 0. -/
theorem C96_refuted : ¬ C96_statement := by
  intro h
  have := h 0 0
  rw [C96_zero] at this
  exact absurd this (by decide)

end Athenz
