import Verif.Go.Num

/-! Lemmas about int64 arithmetic, `parseInt64` and `GoTime`. -/

namespace Athenz

theorem wrap64_range (x : Int) : IsInt64 (wrap64 x) := by
  unfold IsInt64 wrap64; omega

theorem wrap64_id {x : Int} (h : IsInt64 x) : wrap64 x = x := by
  unfold IsInt64 at h; unfold wrap64; omega

theorem wrap64_wrap64_sub_add {x k : Int} (h : IsInt64 x) : wrap64 (wrap64 (x + k) - k) = x := by
  unfold IsInt64 at h; unfold wrap64; omega

theorem GoTime.unix_ofUnix {s : Int} (h : IsInt64 s) : (GoTime.ofUnix s).unix = s :=
  wrap64_wrap64_sub_add h

/-- The internal seconds of `time.Unix(s, 0)` are exact below the wrap-around point and negative above it. -/
theorem GoTime.ofUnix_isec {s : Int} (h : IsInt64 s) :
    (GoTime.ofUnix s).isec = if s < 2 ^ 63 - unixToInternal then s + unixToInternal else s + unixToInternal - 2 ^ 64 := by
  unfold IsInt64 at h
  split <;> rename_i hs <;> simp only [GoTime.ofUnix, wrap64, unixToInternal] at * <;> omega

theorem parseInt64_range {s : Str} {n : Int} (h : parseInt64 s = some n) : IsInt64 n := by
  have key : ∀ (neg : Bool) (ds : Str), (if ds = [] then none
    else match parseDigits 0 ds with
      | none => none
      | some n =>
        if neg then (if n ≤ 2 ^ 63 then some (-(n : Int)) else none)
        else (if n < 2 ^ 63 then some (n : Int) else none)) = some n → IsInt64 n := by
    intro neg ds h
    unfold IsInt64
    split at h
    · simp at h
    · split at h
      · simp at h
      · split at h <;> split at h <;> simp at h <;> omega
  unfold parseInt64 at h
  simp only at h
  split at h
  · simp at h
  · split at h
    · exact key false _ h
    · split at h
      · exact key true _ h
      · exact key false _ h

end Athenz
