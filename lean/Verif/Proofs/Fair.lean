/-! # A thread that is scheduled fairly and whose steps bring it nearer to its end reaches it -/

namespace Athenz

theorem fair_reaches {S A M : Type} {r : M → M → Prop} (wf : WellFounded r) (state : Nat → S) (act : Nat → A) (does : S → A → Prop)
    (en inv goal : S → Prop) (μ : S → M)
    (hfair : ∀ n, (∀ m, n ≤ m → en (state m)) → ∃ m, n ≤ m ∧ does (state m) (act m))
    (hen : ∀ m, inv (state m) → ¬ goal (state m) → en (state m))
    (hstep : ∀ m, inv (state m) → ¬ goal (state m) → inv (state (m + 1)) ∧
      (does (state m) (act m) → r (μ (state (m + 1))) (μ (state m))) ∧ (¬ does (state m) (act m) → μ (state (m + 1)) = μ (state m)))
    (n : Nat) (h0 : inv (state n)) : ∃ m, n ≤ m ∧ goal (state m) := by
  generalize hv : μ (state n) = v
  induction v using wf.induction generalizing n with
  | _ v ih =>
    refine Classical.byContradiction fun hno => ?_
    have hng : ∀ m, n ≤ m → ¬ goal (state m) := fun m hm hg => hno ⟨m, hm, hg⟩
    have hinv : ∀ k, inv (state (n + k)) := by
      intro k
      induction k with
      | zero => exact h0
      | succ k ihk => exact (hstep _ ihk (hng _ (by omega))).1
    have hinv' : ∀ m, n ≤ m → inv (state m) := fun m hm => by
      have := hinv (m - n)
      rwa [show n + (m - n) = m by omega] at this
    obtain ⟨m0, hm0⟩ := hfair n fun m hm => hen m (hinv' m hm) (hng m hm)
    -- the first step
    obtain ⟨m, ⟨hm, hw⟩, hmin⟩ : ∃ m, (n ≤ m ∧ does (state m) (act m)) ∧ ∀ k, k < m → ¬ (n ≤ k ∧ does (state k) (act k)) := by
      clear ih
      induction m0 using Nat.strongRecOn with
      | _ m0 ihm =>
        by_cases hlt : ∃ k, k < m0 ∧ n ≤ k ∧ does (state k) (act k)
        · obtain ⟨k, hk, hk'⟩ := hlt; exact ihm k hk hk'
        · exact ⟨m0, hm0, fun k hk hk' => hlt ⟨k, hk, hk'⟩⟩
    have hsame : ∀ k, n + k ≤ m → μ (state (n + k)) = v := by
      intro k
      induction k with
      | zero => intro _; exact hv
      | succ k ihk =>
        intro hk
        rw [← ihk (by omega)]
        exact (hstep _ (hinv k) (hng _ (by omega))).2.2 fun hd => hmin (n + k) (by omega) ⟨by omega, hd⟩
    have hvm : μ (state m) = v := by
      have := hsame (m - n) (by omega)
      rwa [show n + (m - n) = m by omega] at this
    have hlt := (hstep m (hinv' m hm) (hng m hm)).2.1 hw
    rw [hvm] at hlt
    obtain ⟨m', hm', hg⟩ := ih _ hlt (m + 1) (hinv' _ (by omega)) rfl
    exact hno ⟨m', by omega, hg⟩

end Athenz
