import Verif.Spec.Timing
import Mathlib.Tactic.Ring
import Mathlib.Tactic.Linarith

/-! # Lemmas about the time that fetching takes -/

namespace Athenz.TimingP

variable {delay : Int} {env : TServer}

theorem follows (fuel : Nat) : ∀ (i : Nat) (now : Int),
    Spec.Follows now (retryFrom delay env fuel i now).1 (retryFrom delay env fuel i now).2.1 := by
  induction fuel with
  | zero => intro i now; simp [retryFrom, Spec.Follows]
  | succ n ih =>
    intro i now
    simp only [retryFrom]
    split
    · simp [Spec.Follows, Spec.starts, Spec.over]
    · simp only [Spec.Follows, Spec.starts, Spec.over, true_and]
      exact ih _ _

/-- The end of a call is its beginning, what the requests took, and a pause for each failure. -/
theorem exact (fuel : Nat) : ∀ (i : Nat) (now : Int),
    (retryFrom delay env fuel i now).2.1
      = now + Spec.requestTime (retryFrom delay env fuel i now).1 + ((retryFrom delay env fuel i now).1.countP Spec.isFailed) * delay.toNat := by
  induction fuel with
  | zero => intro i now; simp [retryFrom, Spec.requestTime]
  | succ n ih =>
    intro i now
    simp only [retryFrom]
    split
    · rename_i h
      simp [Spec.requestTime, Spec.isFailed, h]
    · rename_i h
      simp only [Bool.not_eq_true] at h
      simp only
      rw [ih]
      simp only [Spec.requestTime, List.map_cons, List.sum_cons, List.countP_cons, Spec.isFailed, h, Bool.not_false, if_true]
      push_cast
      simp
      ring

theorem fetches (fuel : Nat) : ∀ (i : Nat) (now : Int), (retryFrom delay env fuel i now).1.countP Spec.isFetch ≤ fuel := by
  induction fuel with
  | zero => intro i now; simp [retryFrom]
  | succ n ih =>
    intro i now
    simp only [retryFrom]
    split
    · simp [Spec.isFetch]
    · simp only [List.countP_cons, Spec.isFetch]
      have := ih (i + 1) (now + (env i now).dur + delay.toNat)
      simp only [if_true, Bool.false_eq_true, if_false, Nat.add_zero]
      omega

/-- A call that fails has made all its requests, all failed. -/
theorem failed (fuel : Nat) : ∀ (i : Nat) (now : Int), (retryFrom delay env fuel i now).2.2 = false →
    (retryFrom delay env fuel i now).1.countP Spec.isFetch = fuel ∧ (retryFrom delay env fuel i now).1.countP Spec.isFailed = fuel := by
  induction fuel with
  | zero => intro i now _; simp [retryFrom]
  | succ n ih =>
    intro i now
    simp only [retryFrom]
    split
    · simp
    · rename_i h
      simp only [Bool.not_eq_true] at h
      intro h'
      have := ih _ _ h'
      simp only [List.countP_cons, Spec.isFetch, Spec.isFailed, h]
      simp only [if_true, Bool.not_false, Bool.false_eq_true, if_false, Nat.add_zero]
      omega

/-- A call that succeeds has made one request that did not fail, the last thing it did. -/
theorem succeeded (fuel : Nat) : ∀ (i : Nat) (now : Int), (retryFrom delay env fuel i now).2.2 = true →
    ∃ t f, (retryFrom delay env fuel i now).1.getLast? = some (.fetch t f) ∧ f.ok = true ∧
      (retryFrom delay env fuel i now).1.countP Spec.isFetch = (retryFrom delay env fuel i now).1.countP Spec.isFailed + 1 := by
  induction fuel with
  | zero => intro i now h; simp [retryFrom] at h
  | succ n ih =>
    intro i now
    simp only [retryFrom]
    split
    · rename_i h
      intro _
      exact ⟨now, env i now, rfl, h, by simp [Spec.isFetch, Spec.isFailed, h]⟩
    · rename_i h
      simp only [Bool.not_eq_true] at h
      intro h'
      obtain ⟨t, f, h1, h2, h3⟩ := ih _ _ h'
      refine ⟨t, f, ?_, h2, ?_⟩
      · simp only [List.getLast?_cons, h1, Option.getD_some]
      · simp only [List.countP_cons, Spec.isFetch, Spec.isFailed, h]
        simp only [if_true, Bool.not_false, Bool.false_eq_true, if_false, Nat.add_zero]
        omega

/-- A call that fails and made a request ends with a pause. -/
theorem last_pause (fuel : Nat) : ∀ (i : Nat) (now : Int), (retryFrom delay env (fuel + 1) i now).2.2 = false →
    ∃ t, (retryFrom delay env (fuel + 1) i now).1.getLast? = some (.sleep t delay.toNat) := by
  induction fuel with
  | zero =>
    intro i now
    simp only [retryFrom]
    split
    · simp
    · intro _; exact ⟨_, rfl⟩
  | succ n ih =>
    intro i now
    rw [retryFrom]
    simp only
    split
    · simp
    · intro h'
      obtain ⟨t, h1⟩ := ih _ _ h'
      exact ⟨t, by simp only [List.getLast?_cons, h1, Option.getD_some]⟩

/-- What is slept is the configured time. -/
theorem sleeps (fuel : Nat) : ∀ (i : Nat) (now : Int) (t : Int) (d : Nat), TEvent.sleep t d ∈ (retryFrom delay env fuel i now).1 → d = delay.toNat := by
  induction fuel with
  | zero => intro i now t d h; simp [retryFrom] at h
  | succ n ih =>
    intro i now t d
    simp only [retryFrom]
    split
    · simp
    · simp only [List.mem_cons]
      rintro (h | h | h)
      · cases h
      · cases h; rfl
      · exact ih _ _ _ _ h

theorem mono (fuel : Nat) : ∀ (i : Nat) (now : Int), now ≤ (retryFrom delay env fuel i now).2.1 := by
  intro i now
  rw [exact]
  have : (0 : Int) ≤ ((retryFrom delay env fuel i now).1.countP Spec.isFailed) * delay.toNat := by positivity
  omega

theorem bound {D : Nat} (hD : Spec.AtMost D env) (fuel : Nat) : ∀ (i : Nat) (now : Int),
    (retryFrom delay env fuel i now).2.1 ≤ now + fuel * ((D : Int) + delay.toNat) := by
  induction fuel with
  | zero => intro i now; simp [retryFrom]
  | succ n ih =>
    intro i now
    have hd := hD i now
    have hn : (0 : Int) ≤ (n : Int) * ((D : Int) + delay.toNat) := by positivity
    simp only [retryFrom]
    split
    · push_cast
      have : ((n : Int) + 1) * ((D : Int) + delay.toNat) = n * ((D : Int) + delay.toNat) + ((D : Int) + delay.toNat) := by ring
      rw [this]
      omega
    · refine Int.le_trans (ih (i + 1) (now + (env i now).dur + delay.toNat)) ?_
      have e : ((n + 1 : Nat) : Int) * ((D : Int) + delay.toNat) = n * ((D : Int) + delay.toNat) + ((D : Int) + delay.toNat) := by
        push_cast; ring
      rw [e]
      omega

/-- With a context that is done, every request fails at once, and only the pauses take time. -/
theorem after {T : Int} (hc : Spec.EndsOnCancel T env) (fuel : Nat) : ∀ (i : Nat) (now : Int), T ≤ now →
    (retryFrom delay env fuel i now).2.1 = now + fuel * (delay.toNat : Int) ∧ (retryFrom delay env fuel i now).2.2 = false ∧
      (retryFrom delay env fuel i now).1.countP (Spec.fetchBefore T) = 0 := by
  induction fuel with
  | zero => intro i now _; simp [retryFrom]
  | succ n ih =>
    intro i now h
    obtain ⟨h1, h2⟩ := hc.after i now h
    have hd : (0 : Int) ≤ delay.toNat := by positivity
    obtain ⟨i1, i2, i3⟩ := ih (i + 1) (now + (env i now).dur + delay.toNat) (by omega)
    simp only [retryFrom, h2, Bool.false_eq_true, if_false, i1, i2, List.countP_cons, i3, Spec.fetchBefore]
    refine ⟨?_, trivial, by simp; omega⟩
    rw [h1]; push_cast; ring

theorem cancel {T : Int} (hc : Spec.EndsOnCancel T env) (fuel : Nat) : ∀ (i : Nat) (now : Int), now ≤ T →
    (retryFrom delay env fuel i now).2.1
      ≤ T + (fuel + 1 - max 1 ((retryFrom delay env fuel i now).1.countP (Spec.fetchBefore T)) : Nat) * (delay.toNat : Int) := by
  induction fuel with
  | zero => intro i now h; simp [retryFrom]; omega
  | succ n ih =>
    intro i now h
    rcases Int.lt_or_eq_of_le h with hlt | heq
    · have hb := hc.before i now hlt
      simp only [retryFrom]
      split
      · have : (0 : Int) ≤ (n + 1 + 1 - max 1 (([TEvent.fetch now (env i now)] : List TEvent).countP (Spec.fetchBefore T)) : Nat) * (delay.toNat : Int) := by
          positivity
        simp only
        omega
      · simp only [List.countP_cons, Spec.fetchBefore, hlt, decide_true, if_true, Bool.false_eq_true, if_false]
        rcases Int.le_total (now + (env i now).dur + delay.toNat) T with hw | hw
        · have := ih (i + 1) _ hw
          refine Int.le_trans this ?_
          have hm : (n + 1 - max 1 ((retryFrom delay env n (i + 1) (now + (env i now).dur + delay.toNat)).1.countP (Spec.fetchBefore T)))
              ≤ (n + 1 + 1 - max 1 ((retryFrom delay env n (i + 1) (now + (env i now).dur + delay.toNat)).1.countP (Spec.fetchBefore T) + 0 + 1)) := by
            omega
          have : (0 : Int) ≤ delay.toNat := by positivity
          nlinarith [Int.ofNat_le.mpr hm]
        · obtain ⟨a1, _, a3⟩ := after (delay := delay) hc n (i + 1) _ hw
          rw [a1, a3]
          simp only [Nat.zero_add, Nat.add_zero, Nat.max_self, Nat.add_sub_cancel]
          push_cast
          have : ((n : Int) + 1) * (delay.toNat : Int) = n * (delay.toNat : Int) + delay.toNat := by ring
          rw [this]
          omega
    · obtain ⟨a1, _, a3⟩ := after (delay := delay) hc (n + 1) i now (by omega)
      rw [a1, a3, heq]
      simp

/-- A trace ends when the last thing in it is over. -/
theorem follows_last {es : List TEvent} {e : TEvent} : ∀ {t t' : Int}, Spec.Follows t es t' → es.getLast? = some e → Spec.over e = t' := by
  induction es with
  | nil => intro t t' _ h; simp at h
  | cons x es ih =>
    intro t t' h hl
    cases es with
    | nil => simp at hl; subst hl; exact h.2
    | cons y ys => exact ih h.2 (by simpa [List.getLast?_cons] using hl)

theorem foldl_max_ge (l : List Int) : ∀ a : Int, a ≤ l.foldl max a ∧ ∀ x ∈ l, x ≤ l.foldl max a := by
  induction l with
  | nil => intro a; simp
  | cons y l ih =>
    intro a
    obtain ⟨h1, h2⟩ := ih (max a y)
    simp only [List.foldl_cons, List.mem_cons]
    exact ⟨by omega, by rintro x (rfl | hx); · omega
                        · exact h2 x hx⟩

theorem foldl_max_mem (l : List Int) : ∀ a : Int, l.foldl max a = a ∨ l.foldl max a ∈ l := by
  induction l with
  | nil => intro a; simp
  | cons y l ih =>
    intro a
    simp only [List.foldl_cons, List.mem_cons]
    rcases ih (max a y) with h | h
    · rcases Int.le_total a y with h' | h'
      · right; left; rw [h]; omega
      · left; rw [h]; omega
    · right; right; exact h

/-- An update whose context is not done at its beginning ends when the last of its fetches ends. -/
theorem update_ends {n : Int} {cancel : Option Int} {doms : List TServer} {now : Int} (h : ∀ t, cancel = some t → now < t) :
    (∀ env ∈ doms, (timedFetch delay n env now).2.1 ≤ timedUpdate delay n cancel doms now) ∧
      (timedUpdate delay n cancel doms now = now ∨ ∃ env ∈ doms, timedUpdate delay n cancel doms now = (timedFetch delay n env now).2.1) := by
  have hc : cancel.any (fun t => decide (t ≤ now)) = false := by
    cases cancel with
    | none => rfl
    | some t => have := h t rfl; simp; omega
  simp only [timedUpdate, hc, Bool.false_eq_true, if_false]
  constructor
  · intro env he
    exact (foldl_max_ge _ now).2 _ (List.mem_map.mpr ⟨env, he, rfl⟩)
  · rcases foldl_max_mem (doms.map fun env => (timedFetch delay n env now).2.1) now with h' | h'
    · exact Or.inl h'
    · obtain ⟨env, he, e⟩ := List.mem_map.mp h'
      exact Or.inr ⟨env, he, e.symm⟩

end Athenz.TimingP
