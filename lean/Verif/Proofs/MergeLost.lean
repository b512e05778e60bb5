import Verif.Proofs.Merge

/-! An interleaving that loses a deny, for every document in which a policy mentions its key and does not deny it. -/

namespace Athenz

theorem mergeRun_append {U : CaseFns} {s s1 s2 : MergeState} {as bs : List Nat} (h1 : mergeRun U s as = some s1)
    (h2 : mergeRun U s1 bs = some s2) : mergeRun U s (as ++ bs) = some s2 := by
  induction as generalizing s with
  | nil => simp only [mergeRun, Option.some.injEq] at h1; subst h1; exact h2
  | cons a as ih =>
    simp only [mergeRun] at h1
    split at h1
    · simp at h1
    · rename_i s' hs'
      simp only [List.cons_append, mergeRun, hs']
      exact ih h1

/-- A goroutine works off a part of its policy alone. -/
theorem merge_alone {U : CaseFns} (K : Str) (i : Nat) (pre rest : List RawAssertion) : ∀ (s : MergeState),
    s.threads[i]? = some ⟨pre ++ rest, .idle, false⟩ →
    ∃ sched s', mergeRun U s sched = some s' ∧ s'.threads = s.threads.set i ⟨rest, .idle, false⟩ ∧
      ((∀ a ∈ pre, a.key ≠ K ∨ (a.isDeny U = false ∧ (s.map.load K).isSome = true)) → s'.map.load K = s.map.load K) := by
  induction pre with
  | nil =>
    intro s hs
    refine ⟨[], s, rfl, ?_, fun _ => rfl⟩
    rw [List.nil_append] at hs
    obtain ⟨hlt, he⟩ := List.getElem?_eq_some_iff.mp hs
    rw [← he, List.set_getElem_self]
  | cons a pre ih =>
    intro s hs
    have hlt := (List.getElem?_eq_some_iff.mp hs).1
    -- the load
    have h1 : mergeStep U false s i =
        some { s with threads := s.threads.set i ⟨a :: (pre ++ rest), .loaded (s.map.load a.key).isSome, false⟩ } := by
      unfold mergeStep
      rw [hs]
      rfl
    let s1 : MergeState := { s with threads := s.threads.set i ⟨a :: (pre ++ rest), .loaded (s.map.load a.key).isSome, false⟩ }
    -- the store
    have h2 : ∃ s2, mergeStep U false s1 i = some s2 ∧ s2.threads = s.threads.set i ⟨pre ++ rest, .idle, false⟩ ∧
        (a.key ≠ K ∨ (a.isDeny U = false ∧ (s.map.load K).isSome = true) → s2.map.load K = s.map.load K) := by
      have hs1 : s1.threads[i]? = some ⟨a :: (pre ++ rest), .loaded (s.map.load a.key).isSome, false⟩ := List.getElem?_set_self hlt
      unfold mergeStep
      rw [hs1]
      simp only
      split
      · rename_i hc
        refine ⟨_, rfl, by simp [s1], ?_⟩
        intro h
        by_cases hk : a.key = K
        · rcases h with h | ⟨h1, h2⟩
          · exact absurd hk h
          · subst hk
            simp [h1, h2] at hc
        · exact AssMap.load_store_other _ _ (Ne.symm hk)
      · refine ⟨_, rfl, by simp [s1], fun _ => rfl⟩
    obtain ⟨s2, h2, ht2, hm2⟩ := h2
    obtain ⟨sched, s', h3, ht3, hm3⟩ := ih s2 (by rw [ht2]; exact List.getElem?_set_self hlt)
    have hr : mergeRun U s [i, i] = some s2 := by
      have e1 : mergeRun U s [i] = some s1 := by unfold mergeRun; rw [h1]; rfl
      have e2 : mergeRun U s1 [i] = some s2 := by unfold mergeRun; rw [h2]; rfl
      exact mergeRun_append e1 e2
    refine ⟨[i, i] ++ sched, s', mergeRun_append hr h3, by rw [ht3, ht2, List.set_set], ?_⟩
    intro hall
    have hm := hm2 (hall a (by simp))
    rw [hm3 (fun b hb => by rw [hm]; exact hall b (by simp [hb])), hm]

/-- All goroutines but `j` work off what they have, one after the other. -/
theorem merge_others {U : CaseFns} (j : Nat) (s : MergeState)
    (h : ∀ i, i < s.threads.length → i ≠ j → ∃ todo, s.threads[i]? = some ⟨todo, .idle, false⟩) : ∀ n, n ≤ s.threads.length →
    ∃ sched s', mergeRun U s sched = some s' ∧ s'.threads.length = s.threads.length ∧ s'.threads[j]? = s.threads[j]? ∧
      (∀ i, i < n → i ≠ j → s'.threads[i]? = some ⟨[], .idle, false⟩) ∧ ∀ i, n ≤ i → s'.threads[i]? = s.threads[i]? := by
  intro n
  induction n with
  | zero => intro _; exact ⟨[], s, rfl, rfl, rfl, by simp, by simp⟩
  | succ n ih =>
    intro hn
    obtain ⟨sched, s1, h1, h2, h3, h4, h5⟩ := ih (by omega)
    by_cases hj : n = j
    · refine ⟨sched, s1, h1, h2, h3, fun i hi hij => h4 i (by omega) hij, fun i hi => h5 i (by omega)⟩
    · obtain ⟨todo, ht⟩ := h n (by omega) hj
      obtain ⟨sched', s2, h6, h7, _⟩ := merge_alone (U := U) [] n todo [] s1 (by rw [h5 n (Nat.le_refl _), List.append_nil]; exact ht)
      refine ⟨sched ++ sched', s2, mergeRun_append h1 h6, by rw [h7, List.length_set, h2], ?_, ?_, ?_⟩
      · rw [h7, List.getElem?_set_ne hj]; exact h3
      · intro i hi hij
        rw [h7]
        by_cases hin : n = i
        · subst hin; exact List.getElem?_set_self (by omega)
        · rw [List.getElem?_set_ne hin]; exact h4 i (by omega) hij
      · intro i hi
        rw [h7, List.getElem?_set_ne (by omega)]; exact h5 i (by omega)

theorem split_first {α : Type} (P : α → Prop) [DecidablePred P] : ∀ (l : List α), (∃ a ∈ l, P a) →
    ∃ pre a post, l = pre ++ a :: post ∧ P a ∧ ∀ b ∈ pre, ¬ P b := by
  intro l
  induction l with
  | nil => simp
  | cons x l ih =>
    intro h
    by_cases hx : P x
    · exact ⟨[], x, l, rfl, hx, by simp⟩
    · obtain ⟨a, ha, hp⟩ := h
      rcases List.mem_cons.mp ha with rfl | ha
      · exact absurd hp hx
      · obtain ⟨pre, b, post, h1, h2, h3⟩ := ih ⟨a, ha, hp⟩
        refine ⟨x :: pre, b, post, by rw [h1]; rfl, h2, ?_⟩
        intro c hc
        rcases List.mem_cons.mp hc with rfl | hc
        · exact hx
        · exact h3 c hc

/-- If a policy mentions the key and does not deny it, then some interleaving leaves that policy's assertion in the map. -/
theorem merge_lost {U : CaseFns} {d : PolicyDoc} {K : Str} {p : List RawAssertion} (hp : p ∈ d.policies) (hm : ∃ b ∈ p, b.key = K)
    (hno : ∀ a ∈ p, a.key = K → a.isDeny U = false) :
    ∃ sched s b, mergeRun U d.mergeInit sched = some s ∧ s.finished = true ∧ s.map.load K = some b ∧ b.isDeny U = false := by
  obtain ⟨j, hj⟩ := List.mem_iff_getElem?.mp hp
  obtain ⟨pre, b, post, rfl, hbk, hpre⟩ := split_first (fun a : RawAssertion => a.key = K) p hm
  have hlt : j < d.mergeInit.threads.length := by
    have := (List.getElem?_eq_some_iff.mp hj).1
    simpa [PolicyDoc.mergeInit] using this
  have hinit : ∀ (i : Nat) (q : List RawAssertion), d.policies[i]? = some q →
      d.mergeInit.threads[i]? = some (⟨q, .idle, false⟩ : MThread) := by
    intro i q hq; simp [PolicyDoc.mergeInit, hq]
  -- `j` goes up to its first assertion with the key, and loads
  obtain ⟨sc1, s1, r1, t1, m1⟩ := merge_alone (U := U) K j pre (b :: post) d.mergeInit (hinit j _ hj)
  have l1 : s1.map.load K = none := by
    rw [m1 (fun a ha => .inl (hpre a ha))]; rfl
  have hj1 : s1.threads[j]? = some ⟨b :: post, .idle, false⟩ := by rw [t1]; exact List.getElem?_set_self hlt
  have st2 : mergeStep U false s1 j = some { s1 with threads := s1.threads.set j ⟨b :: post, .loaded false, false⟩ } := by
    unfold mergeStep
    rw [hj1]
    simp [hbk, l1]
  have hlt1 : j < s1.threads.length := (List.getElem?_eq_some_iff.mp hj1).1
  have hlen1 : s1.threads.length = d.policies.length := by rw [t1]; simp [PolicyDoc.mergeInit]
  -- the others finish
  obtain ⟨sc3, s3, r3, n3, j3, o3, _⟩ := merge_others (U := U) j { s1 with threads := s1.threads.set j ⟨b :: post, .loaded false, false⟩ }
    (by
      intro i hi hij
      simp only [List.length_set] at hi
      rw [hlen1] at hi
      refine ⟨d.policies[i], ?_⟩
      simp only
      rw [List.getElem?_set_ne (Ne.symm hij), t1, List.getElem?_set_ne (Ne.symm hij)]
      exact hinit i _ (List.getElem?_eq_getElem hi)) _ (Nat.le_refl _)
  simp only [List.length_set] at n3 o3
  have hj3 : s3.threads[j]? = some ⟨b :: post, .loaded false, false⟩ := by rw [j3]; exact List.getElem?_set_self hlt1
  -- `j` stores
  have st4 : mergeStep U false s3 j = some ⟨s3.map.store b.key b, s3.threads.set j ⟨post, .idle, false⟩⟩ := by
    unfold mergeStep
    rw [hj3]
    simp
  have hlt3 : j < s3.threads.length := (List.getElem?_eq_some_iff.mp hj3).1
  have l4 : (s3.map.store b.key b).load K = some b := by rw [← hbk]; exact AssMap.load_store_same _ _ _
  -- and goes on to the end
  obtain ⟨sc5, s5, r5, t5, m5⟩ := merge_alone (U := U) K j post [] ⟨s3.map.store b.key b, s3.threads.set j ⟨post, .idle, false⟩⟩
    (by rw [List.append_nil]; exact List.getElem?_set_self hlt3)
  refine ⟨sc1 ++ ([j] ++ (sc3 ++ ([j] ++ sc5))), s5, b, ?_, ?_, ?_, hno b (by simp) hbk⟩
  · exact mergeRun_append r1 (mergeRun_append (by simp only [mergeRun, st2])
      (mergeRun_append r3 (mergeRun_append (by simp only [mergeRun, st4]) r5)))
  · simp only [MergeState.finished, List.all_eq_true]
    intro t ht
    obtain ⟨i, hi⟩ := List.mem_iff_getElem?.mp ht
    rw [t5] at hi
    simp only [List.set_set] at hi
    by_cases hij : j = i
    · subst hij
      rw [List.getElem?_set_self hlt3] at hi
      simp only [Option.some.injEq] at hi
      subst hi; rfl
    · rw [List.getElem?_set_ne hij] at hi
      have := o3 i (by have := (List.getElem?_eq_some_iff.mp hi).1; omega) (Ne.symm hij)
      rw [this] at hi
      simp only [Option.some.injEq] at hi
      subst hi; rfl
  · rw [m5 ?_]
    · exact l4
    · intro a ha
      by_cases hk : a.key = K
      · exact .inr ⟨hno a (by simp [ha]) hk, by rw [l4]; rfl⟩
      · exact .inl hk

end Athenz
