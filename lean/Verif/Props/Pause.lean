import Verif.Spec.Pause
import Verif.Props.Client
import Mathlib.Tactic.Ring
import Mathlib.Tactic.Linarith
import Mathlib.Tactic.GCongr

/-! # C85: pauses between attempts -/

namespace Athenz

open Spec

theorem slept_append (a b : List RtEvent) : slept (a ++ b) = slept a + slept b := by
  induction a with
  | nil => simp [slept]
  | cons x a ih =>
    cases x with
    | call i => simpa [slept] using ih
    | sleep now d => simp only [List.cons_append, slept, ih]; omega

/-- Two calls in a row, or a call and a pause. -/
theorem rtLoop_between (cfg : RtCfg) (env : Nat → Attempt) (limit : Int) (fuel : Nat) : ∀ cnt last,
    (∀ x ∈ (rtLoop cfg env limit fuel cnt last).1.head?, x = .call cnt) ∧
    (∀ pre i j post, (rtLoop cfg env limit fuel cnt last).1 = pre ++ .call i :: .call j :: post → ∃ status body, env i = .resp status body ∧ status ∈ [429, 500, 503, 504]) ∧
    (∀ pre i now d post, (rtLoop cfg env limit fuel cnt last).1 = pre ++ .call i :: .sleep now d :: post → d = cfg.dur i) ∧
    (∀ pre now d now' d' post, (rtLoop cfg env limit fuel cnt last).1 ≠ pre ++ .sleep now d :: .sleep now' d' :: post) := by
  induction fuel with
  | zero => intro cnt last; simp [rtLoop]
  | succ fuel ih =>
    intro cnt last
    have one : (∀ x ∈ [RtEvent.call cnt].head?, x = .call cnt) ∧
        (∀ pre i j post, [RtEvent.call cnt] = pre ++ .call i :: .call j :: post → ∃ status body, env i = .resp status body ∧ status ∈ [429, 500, 503, 504]) ∧
        (∀ pre i now d post, [RtEvent.call cnt] = pre ++ .call i :: .sleep now d :: post → d = cfg.dur i) ∧
        (∀ pre now d now' d' post, [RtEvent.call cnt] ≠ pre ++ .sleep now d :: .sleep now' d' :: post) := by
      have no : ∀ (pre : List RtEvent) x y post, [RtEvent.call cnt] ≠ pre ++ x :: y :: post := by
        intro pre x y post h
        have := congrArg List.length h
        simp only [List.length_append, List.length_cons, List.length_nil] at this
        omega
      exact ⟨by simp, fun pre i j post h => absurd h (no _ _ _ _), fun pre i now d post h => absurd h (no _ _ _ _), fun _ _ _ _ _ _ => no _ _ _ _⟩
    simp only [rtLoop]
    split
    · rename_i temporary e now he
      split
      · exact one
      · split
        · exact one
        · obtain ⟨h1, h2, h3, h4⟩ := ih (cnt + 1) (none, some e)
          generalize (rtLoop cfg env limit fuel (cnt + 1) (none, some e)).1 = evs at h1 h2 h3 h4
          refine ⟨by simp, ?_, ?_, ?_⟩
          · intro pre i j post h
            match pre with
            | [] => simp at h
            | [a] => simp at h
            | a :: b :: pre =>
              simp only [List.cons_append, List.cons.injEq] at h
              exact h2 pre i j post h.2.2
          · intro pre i n d post h
            match pre with
            | [] =>
              simp only [List.nil_append, List.cons.injEq, RtEvent.call.injEq, RtEvent.sleep.injEq] at h
              rw [← h.2.1.2, h.1]
            | [a] => simp at h
            | a :: b :: pre =>
              simp only [List.cons_append, List.cons.injEq] at h
              exact h3 pre i n d post h.2.2
          · intro pre n d n' d' post h
            match pre with
            | [] => simp at h
            | [a] =>
              simp only [List.cons_append, List.nil_append, List.cons.injEq] at h
              have := h1 _ (by rw [h.2.2]; rfl)
              cases this
            | a :: b :: pre =>
              simp only [List.cons_append, List.cons.injEq] at h
              exact h4 pre n d n' d' post h.2.2
    · rename_i status body he
      split
      · rename_i hr
        obtain ⟨h1, h2, h3, h4⟩ := ih (cnt + 1) (some ⟨status, body, true⟩, none)
        generalize (rtLoop cfg env limit fuel (cnt + 1) (some ⟨status, body, true⟩, none)).1 = evs at h1 h2 h3 h4
        refine ⟨by simp, ?_, ?_, ?_⟩
        · intro pre i j post h
          cases pre with
          | nil =>
            simp only [List.nil_append, List.cons.injEq, RtEvent.call.injEq] at h
            rw [← h.1]
            exact ⟨status, body, he, by simpa using (retryable_iff status).mp hr⟩
          | cons a pre =>
            simp only [List.cons_append, List.cons.injEq] at h
            exact h2 pre i j post h.2
        · intro pre i n d post h
          cases pre with
          | nil =>
            simp only [List.nil_append, List.cons.injEq] at h
            have := h1 _ (by rw [h.2]; rfl)
            cases this
          | cons a pre =>
            simp only [List.cons_append, List.cons.injEq] at h
            exact h3 pre i n d post h.2
        · intro pre n d n' d' post h
          cases pre with
          | nil => simp at h
          | cons a pre =>
            simp only [List.cons_append, List.cons.injEq] at h
            exact h4 pre n d n' d' post h.2
      · exact one

/-- The full statement: between two attempts there is a pause. -/
def C85_statement : Prop :=
  ∀ (p q : Nat) (maxRetryCount maxRetryTime : Int) (env : Nat → Attempt) (now0 : Int) (pre : List RtEvent) (i j : Nat) (post : List RtEvent), 0 < p → 0 < q →
    (roundTrip (newExpRt p q maxRetryCount maxRetryTime) env now0).1 ≠ pre ++ .call i :: .call j :: post

/-- **C85**, as far as it holds: only after an answer that asks for another attempt there is no pause; the pause after attempt `i` takes
`(2 i + 1) / factor²` seconds, in whole nanoseconds.  Missing: a pause after the status codes 429, 500, 503 and 504. -/
theorem C85_between_partial (p q : Nat) (maxRetryCount maxRetryTime : Int) (env : Nat → Attempt) (now0 : Int) (hp : 0 < p) (pre : List RtEvent) (i : Nat)
    (ev : RtEvent) (post : List RtEvent) (h : (roundTrip (newExpRt p q maxRetryCount maxRetryTime) env now0).1 = pre ++ .call i :: ev :: post) :
    (∃ status body, env i = .resp status body ∧ status ∈ [429, 500, 503, 504]) ∨
    ∃ now d, ev = .sleep now d ∧ d * p ^ 2 ≤ (2 * i + 1) * (10 ^ 9 * q ^ 2) ∧ (2 * i + 1) * (10 ^ 9 * q ^ 2) < (d + 1) * p ^ 2 := by
  obtain ⟨_, h2, h3, _⟩ := rtLoop_between (newExpRt p q maxRetryCount maxRetryTime) env (wrap64 (now0 + maxRetryTime)) maxRetryCount.toNat 0 (none, none)
  cases ev with
  | call j => exact .inl (h2 pre i j post h)
  | sleep now d =>
    refine .inr ⟨now, d, rfl, ?_⟩
    rw [h3 pre i now d post h]
    show (((2 * i + 1) * (1000000000 * q ^ 2) / p ^ 2 : Nat) : Int) * _ ≤ _ ∧ _ < ((((2 * i + 1) * (1000000000 * q ^ 2) / p ^ 2 : Nat) : Int) + 1) * _
    have hpos : 0 < p ^ 2 := Nat.pow_pos hp
    have h4 := Nat.div_mul_le_self ((2 * i + 1) * (1000000000 * q ^ 2)) (p ^ 2)
    have h5 := Nat.lt_div_mul_add (a := (2 * i + 1) * (1000000000 * q ^ 2)) hpos
    generalize (2 * i + 1) * (1000000000 * q ^ 2) / p ^ 2 = d at h4 h5 ⊢
    constructor
    · exact_mod_cast h4
    · have : (2 * i + 1) * (1000000000 * q ^ 2) < (d + 1) * p ^ 2 := by
        rw [Nat.add_mul d 1 (p ^ 2), Nat.one_mul]
        exact h5
      exact_mod_cast this

/-- **C85**.  All pauses together are shorter than the limit. -/
theorem C85_total (p q : Nat) (maxRetryCount maxRetryTime : Int) (env : Nat → Attempt) (now0 : Int) (evs : List RtEvent)
    (he : (roundTrip (newExpRt p q maxRetryCount maxRetryTime) env now0).1 = evs) (hpass : Passing now0 evs) (h0 : IsInt64 (now0 + maxRetryTime))
    (h1 : ∀ now d, RtEvent.sleep now d ∈ evs → IsInt64 (now + d)) (hs : ∃ now d, RtEvent.sleep now d ∈ evs) : slept evs < maxRetryTime := by
  have last : ∀ l : List RtEvent, (∃ now d, RtEvent.sleep now d ∈ l) → ∃ pre now d post, l = pre ++ .sleep now d :: post ∧ slept post = 0 := by
    intro l
    induction l with
    | nil => rintro ⟨_, _, h⟩; simp at h
    | cons x l ih =>
      intro h
      by_cases hl : ∃ now d, RtEvent.sleep now d ∈ l
      · obtain ⟨pre, now, d, post, rfl, h2⟩ := ih hl
        exact ⟨x :: pre, now, d, post, rfl, h2⟩
      · have hz : ∀ l : List RtEvent, (¬ ∃ now d, RtEvent.sleep now d ∈ l) → slept l = 0 := by
          intro l
          induction l with
          | nil => intro _; rfl
          | cons y l ih2 =>
            intro hn
            cases y with
            | call _ => exact ih2 fun ⟨n, d, hm⟩ => hn ⟨n, d, List.mem_cons_of_mem _ hm⟩
            | sleep n d => exact absurd ⟨n, d, List.mem_cons_self⟩ hn
        obtain ⟨now, d, hm⟩ := h
        rcases List.mem_cons.mp hm with rfl | hm
        · exact ⟨[], now, d, l, rfl, hz l hl⟩
        · exact absurd ⟨now, d, hm⟩ hl
  obtain ⟨pre, now, d, post, hsplit, hz⟩ := last evs hs
  have h2 := hpass pre now d post hsplit
  have hm : RtEvent.sleep now d ∈ evs := by rw [hsplit]; simp
  have h3 := C55_sleep (newExpRt p q maxRetryCount maxRetryTime) env now0 now d (by rw [he]; exact hm) h0 (h1 now d hm)
  have h4 : now + d < now0 + maxRetryTime := h3
  rw [hsplit, slept_append]
  simp only [slept]
  omega

/-- What is slept if all attempts fail with temporary errors. -/
theorem rtLoop_failing (cfg : RtCfg) (env : Nat → Attempt) (limit : Int) (hf : ∀ i, ∃ e now, env i = .fail true e now) (fuel : Nat) : ∀ cnt last,
    ∃ k n, (k = n ∨ k + 1 = n) ∧ (calls (rtLoop cfg env limit fuel cnt last).1).length = n ∧
      slept (rtLoop cfg env limit fuel cnt last).1 = ((List.range' cnt k).map cfg.dur).sum ∧
      (0 < k → ∃ now d, RtEvent.sleep now d ∈ (rtLoop cfg env limit fuel cnt last).1) := by
  induction fuel with
  | zero => intro cnt last; exact ⟨0, 0, .inl rfl, rfl, rfl, by simp⟩
  | succ fuel ih =>
    intro cnt last
    obtain ⟨e, now, he⟩ := hf cnt
    simp only [rtLoop, he, Bool.true_eq_false, if_false]
    split
    · exact ⟨0, 1, .inr rfl, rfl, rfl, by simp⟩
    · obtain ⟨k, n, h1, h2, h3, h4⟩ := ih (cnt + 1) (none, some e)
      refine ⟨k + 1, n + 1, by omega, by simp [calls, h2], ?_, fun _ => ⟨now, cfg.dur cnt, by simp⟩⟩
      simp [slept, h3, List.range'_succ]

theorem sum_durs (p q : Nat) (hp : 0 < p) (a b : Int) (k : Nat) :
    ((k : Int) ^ 2 * (10 ^ 9 * q ^ 2) ≤ (((List.range' 0 k).map (newExpRt p q a b).dur).sum + k) * p ^ 2) ∧
    ((List.range' 0 k).map (newExpRt p q a b).dur).sum * p ^ 2 ≤ (k : Int) ^ 2 * (10 ^ 9 * q ^ 2) := by
  induction k with
  | zero => simp
  | succ k ih =>
    rw [List.range'_concat, List.map_append, List.sum_append]
    simp only [Nat.one_mul, Nat.zero_add, List.map_cons, List.map_nil, List.sum_cons, List.sum_nil, Int.add_zero]
    have hd : (newExpRt p q a b).dur k = (((2 * k + 1) * (1000000000 * q ^ 2) / p ^ 2 : Nat) : Int) := rfl
    rw [hd]
    have hpos : 0 < p ^ 2 := Nat.pow_pos hp
    have h4 := Nat.div_mul_le_self ((2 * k + 1) * (1000000000 * q ^ 2)) (p ^ 2)
    have h5 := Nat.lt_div_mul_add (a := (2 * k + 1) * (1000000000 * q ^ 2)) hpos
    generalize (2 * k + 1) * (1000000000 * q ^ 2) / p ^ 2 = d at h4 h5
    generalize ((List.range' 0 k).map (newExpRt p q a b).dur).sum = t at ih
    have h4' : (d : Int) * p ^ 2 ≤ (2 * k + 1) * (1000000000 * q ^ 2) := by exact_mod_cast h4
    have h5' : ((2 * k + 1) * (1000000000 * q ^ 2) : Int) < d * p ^ 2 + p ^ 2 := by exact_mod_cast h5
    have e1 : ((k + 1 : Nat) : Int) ^ 2 * (10 ^ 9 * (q : Int) ^ 2) = (k : Int) ^ 2 * (10 ^ 9 * (q : Int) ^ 2) + (2 * k + 1) * (1000000000 * (q : Int) ^ 2) := by
      push_cast
      ring
    rw [e1]
    have e2 : (t + d + ((k + 1 : Nat) : Int)) * (p : Int) ^ 2 = (t + k) * p ^ 2 + (d * p ^ 2 + p ^ 2) := by push_cast; ring
    have e3 : (t + d) * (p : Int) ^ 2 = t * p ^ 2 + d * p ^ 2 := by ring
    rw [e2, e3]
    exact ⟨by omega, by omega⟩

/-- **C85**.  If all attempts fail with temporary errors, the pauses add up to `k² / factor²` seconds for `k` pauses, up to a nanosecond for each. -/
theorem C85_quadratic (p q : Nat) (hp : 0 < p) (maxRetryCount maxRetryTime : Int) (env : Nat → Attempt) (now0 : Int)
    (hf : ∀ i, ∃ e now, env i = .fail true e now) :
    ∃ k : Nat, (k = (calls (roundTrip (newExpRt p q maxRetryCount maxRetryTime) env now0).1).length ∨
        k + 1 = (calls (roundTrip (newExpRt p q maxRetryCount maxRetryTime) env now0).1).length) ∧
      slept (roundTrip (newExpRt p q maxRetryCount maxRetryTime) env now0).1 * p ^ 2 ≤ (k : Int) ^ 2 * (10 ^ 9 * q ^ 2) ∧
      (k : Int) ^ 2 * (10 ^ 9 * q ^ 2) ≤ (slept (roundTrip (newExpRt p q maxRetryCount maxRetryTime) env now0).1 + k) * p ^ 2 := by
  obtain ⟨k, n, h1, h2, h3, _⟩ := rtLoop_failing (newExpRt p q maxRetryCount maxRetryTime) env (wrap64 (now0 + maxRetryTime)) hf maxRetryCount.toNat 0 (none, none)
  obtain ⟨h4, h5⟩ := sum_durs p q hp maxRetryCount maxRetryTime k
  rw [← h3] at h4 h5
  refine ⟨k, ?_, h5, h4⟩
  show k = (calls (rtLoop _ _ _ _ _ _).1).length ∨ k + 1 = (calls (rtLoop _ _ _ _ _ _).1).length
  rw [show (newExpRt p q maxRetryCount maxRetryTime).maxRetryTime = maxRetryTime from rfl, show (newExpRt p q maxRetryCount maxRetryTime).maxRetryCount = maxRetryCount from rfl, h2]
  exact h1

/-- **C85**.  So however large `maxRetryCount` is, temporary errors are given up on: with `n` attempts, `(n - 1)² / factor²` seconds have not
passed the limit. -/
theorem C85_attempts (p q : Nat) (hp : 0 < p) (maxRetryCount maxRetryTime : Int) (env : Nat → Attempt) (now0 : Int) (evs : List RtEvent)
    (he : (roundTrip (newExpRt p q maxRetryCount maxRetryTime) env now0).1 = evs) (hf : ∀ i, ∃ e now, env i = .fail true e now)
    (hpass : Passing now0 evs) (h0 : IsInt64 (now0 + maxRetryTime)) (h1 : ∀ now d, RtEvent.sleep now d ∈ evs → IsInt64 (now + d)) (n : Nat)
    (hn : (calls evs).length = n + 2) : ((n : Int) + 1) ^ 2 * (10 ^ 9 * q ^ 2) < (maxRetryTime + (n + 2)) * p ^ 2 := by
  obtain ⟨k, m, g1, g2, g3, g4⟩ := rtLoop_failing (newExpRt p q maxRetryCount maxRetryTime) env (wrap64 (now0 + maxRetryTime)) hf maxRetryCount.toNat 0 (none, none)
  rw [show (rtLoop (newExpRt p q maxRetryCount maxRetryTime) env (wrap64 (now0 + maxRetryTime)) maxRetryCount.toNat 0 (none, none)).1 = evs from he] at g2 g3 g4
  have hm : m = n + 2 := by omega
  have ht := C85_total p q maxRetryCount maxRetryTime env now0 evs he hpass h0 h1 (g4 (by omega))
  obtain ⟨h4, _⟩ := sum_durs p q hp maxRetryCount maxRetryTime k
  rw [← g3] at h4
  have hpos : (0 : Int) < (p : Int) ^ 2 := by exact_mod_cast Nat.pow_pos hp
  have hk : (n : Int) + 1 ≤ k := by omega
  have hk2 : (k : Int) ≤ n + 2 := by omega
  calc ((n : Int) + 1) ^ 2 * (10 ^ 9 * q ^ 2) ≤ (k : Int) ^ 2 * (10 ^ 9 * q ^ 2) := by gcongr
    _ ≤ (slept evs + k) * p ^ 2 := h4
    _ < (maxRetryTime + (n + 2)) * p ^ 2 := by
      apply Int.mul_lt_mul_of_pos_right _ hpos
      omega

/-- A server that is overloaded, and says so, is asked again at once. -/
theorem C85_refuted : ¬ C85_statement := by
  intro h
  exact h 5 1 2 (10 ^ 9) (fun _ => .resp 503 []) 0 [] 0 1 [] (by decide) (by decide) (by decide)

/-- Three attempts, two of them with pauses of a second and three seconds. -/
example : ∃ env : Nat → Attempt, (roundTrip (newExpRt 1 1 3 (10 * 10 ^ 9)) env 0).1 = [.call 0, .sleep 5 (10 ^ 9), .call 1, .sleep (2 * 10 ^ 9) (3 * 10 ^ 9), .call 2] ∧
    Passing 0 [.call 0, .sleep 5 (10 ^ 9), .call 1, .sleep (2 * 10 ^ 9) (3 * 10 ^ 9), .call 2] := by
  refine ⟨fun n => match n with | 0 => .fail true [] 5 | 1 => .fail true [] (2 * 10 ^ 9) | _ => .fail false [] 0, by decide, ?_⟩
  intro pre now d post h
  match pre with
  | [] => simp at h
  | [a] => simp at h; obtain ⟨rfl, ⟨rfl, rfl⟩, rfl⟩ := h; decide
  | [a, b] => simp at h
  | [a, b, c] => simp at h; obtain ⟨rfl, rfl, rfl, ⟨rfl, rfl⟩, rfl⟩ := h; decide
  | [a, b, c, e] => simp at h
  | a :: b :: c :: e :: f :: pre => simp at h

/-- All attempts fail; the third pause would be too long. -/
example : (calls (roundTrip (newExpRt 1 1 100 (5 * 10 ^ 9)) (fun n => .fail true [] ((n : Int) ^ 2 * 10 ^ 9)) 0).1).length = 0 + 2 + 1 := by decide

end Athenz
