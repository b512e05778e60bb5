import Verif.Model.Simplify
import Verif.Proofs.CheckPolicy

/-! The merge phase: what is in the assertion map, for every interleaving. -/

namespace Athenz

namespace AssMap

theorem load_map_same (m : AssMap) (k : Str) (a : RawAssertion) (h : m.any (fun p => p.1 == k) = true) :
    AssMap.load (m.map (fun p => if p.1 == k then (k, a) else p)) k = some a := by
  induction m with
  | nil => simp at h
  | cons p m ih =>
    by_cases hp : p.1 = k
    · simp [load, hp]
    · have h1 : (p.1 == k) = false := by simpa using hp
      simp only [List.any_cons, h1, Bool.false_or] at h
      simp only [load, List.map_cons, h1, Bool.false_eq_true, if_false, List.find?_cons]
      exact ih h

theorem load_map_other (m : AssMap) {k k' : Str} (a : RawAssertion) (hk2 : (k == k') = false) :
    AssMap.load (m.map (fun p => if p.1 == k then (k, a) else p)) k' = AssMap.load m k' := by
  induction m with
  | nil => rfl
  | cons p m ih =>
    simp only [load, List.map_cons, List.find?_cons] at ih ⊢
    by_cases hp : p.1 = k
    · simp only [hp, beq_self_eq_true, if_true, hk2]
      exact ih
    · have h1 : (p.1 == k) = false := by simpa using hp
      simp only [h1, Bool.false_eq_true, if_false]
      cases h2 : (p.1 == k') with
      | true => rfl
      | false => exact ih

theorem load_store_same (m : AssMap) (k : Str) (a : RawAssertion) : (m.store k a).load k = some a := by
  unfold store
  split
  · rename_i h; exact load_map_same m k a h
  · rename_i h
    induction m with
    | nil => simp [load]
    | cons p m ih =>
      simp only [List.any_cons, Bool.or_eq_true, not_or] at h
      simp only [load, List.cons_append, List.find?_cons]
      have : (p.1 == k) = false := by simpa using h.1
      simp only [this]
      exact ih h.2

theorem load_store_other (m : AssMap) {k k' : Str} (a : RawAssertion) (hk : k' ≠ k) : (m.store k a).load k' = m.load k' := by
  have hk2 : (k == k') = false := by simpa using fun h => hk h.symm
  unfold store
  split
  · exact load_map_other m a hk2
  · simp only [load, List.find?_append]
    have : List.find? (fun p : Str × RawAssertion => p.1 == k') [(k, a)] = none := by simp [hk2]
    rw [this]
    simp

theorem mem_of_load {m : AssMap} {k : Str} {a : RawAssertion} (h : m.load k = some a) : (k, a) ∈ m := by
  simp only [load, Option.map_eq_some_iff] at h
  obtain ⟨p, hp, rfl⟩ := h
  have h1 := List.find?_some hp
  have h2 := List.mem_of_find?_eq_some hp
  simp only [beq_iff_eq] at h1
  subst h1
  exact h2

theorem store_mem {m : AssMap} {k : Str} {a : RawAssertion} {p : Str × RawAssertion} (h : p ∈ m.store k a) :
    p ∈ m ∨ p = (k, a) := by
  unfold store at h
  split at h
  · obtain ⟨q, hq, rfl⟩ := List.mem_map.mp h
    split
    · exact .inr rfl
    · exact .inl hq
  · rcases List.mem_append.mp h with h | h
    · exact .inl h
    · exact .inr (by simpa using h)

theorem store_nodup {m : AssMap} (h : (m.map (·.1)).Nodup) (k : Str) (a : RawAssertion) :
    ((m.store k a).map (·.1)).Nodup := by
  unfold store
  split
  · have : (m.map (fun p => if p.1 == k then (k, a) else p)).map (·.1) = m.map (·.1) := by
      rw [List.map_map]
      apply List.map_congr_left
      intro p _
      simp only [Function.comp]
      split
      · rename_i hp; simpa using (beq_iff_eq.mp hp).symm
      · rfl
    rw [this]; exact h
  · rename_i hk
    simp only [List.any_eq_true, not_exists, not_and] at hk
    rw [List.map_append, List.nodup_append]
    refine ⟨h, by simp, ?_⟩
    intro x hx y hy
    simp at hy
    subst hy
    obtain ⟨p, hp, rfl⟩ := List.mem_map.mp hx
    have := hk p hp
    simpa using this

end AssMap

/-- Every policy of the document that mentions the key denies it somewhere: then no goroutine can overwrite another one's deny for
good (`C10_exact` shows that this is necessary, too). -/
def KeySafe (U : CaseFns) (d : PolicyDoc) (k : Str) : Prop :=
  ∀ p ∈ d.policies, (∃ b ∈ p, b.key = k) → ∃ a ∈ p, a.key = k ∧ a.isDeny U = true

/-- Invariant of the merge; `cons i` are the assertions goroutine `i` is done with. -/
structure MergeInv (U : CaseFns) (d : PolicyDoc) (s : MergeState) (cons : Nat → List RawAssertion) : Prop where
  len : s.threads.length = d.policies.length
  split : ∀ (i : Nat) (t : MThread), s.threads[i]? = some t → ∃ p, d.policies[i]? = some p ∧
    (t.failed = false → p = cons i ++ t.todo) ∧ (∀ a ∈ cons i, a ∈ p) ∧ (∀ a ∈ t.todo, a ∈ p)
  nodup : (s.map.map (·.1)).Nodup
  sub : ∀ p ∈ s.map, p.1 = p.2.key ∧ p.2 ∈ d.policies.flatten
  cover : ∀ i, i < s.threads.length → ∀ a ∈ cons i, ∃ b, s.map.load a.key = some b
  miss : ∀ (i : Nat) (t : MThread) (a : RawAssertion) (rest : List RawAssertion), s.threads[i]? = some t → t.todo = a :: rest →
    t.pc = .loaded false → ∀ b ∈ cons i, b.key ≠ a.key
  hit : ∀ (i : Nat) (t : MThread) (a : RawAssertion) (rest : List RawAssertion), s.threads[i]? = some t → t.todo = a :: rest →
    t.pc = .loaded true → ∃ b, s.map.load a.key = some b
  deny : ∀ (k : Str) (b : RawAssertion), KeySafe U d k → s.map.load k = some b → b.isDeny U = false →
    ∃ (i : Nat) (t : MThread), s.threads[i]? = some t ∧ (t.failed = true ∨ ∃ a ∈ t.todo, a.key = k ∧ a.isDeny U = true)

theorem mergeInit_inv (U : CaseFns) (d : PolicyDoc) : MergeInv U d d.mergeInit (fun _ => []) := by
  refine ⟨by simp [PolicyDoc.mergeInit], ?_, by simp [PolicyDoc.mergeInit], by simp [PolicyDoc.mergeInit],
    by simp, by simp, ?_, by simp [PolicyDoc.mergeInit, AssMap.load]⟩
  · intro i t h
    simp only [PolicyDoc.mergeInit, List.getElem?_map, Option.map_eq_some_iff] at h
    obtain ⟨p, hp, rfl⟩ := h
    exact ⟨p, hp, by simp, by simp, by simp⟩
  · intro i t a rest h _ hpc
    simp only [PolicyDoc.mergeInit, List.getElem?_map, Option.map_eq_some_iff] at h
    obtain ⟨p, hp, rfl⟩ := h
    simp at hpc

theorem getElem?_set_cases {α : Type} {l : List α} {i j : Nat} {w x w0 : α} (h0 : l[i]? = some w0)
    (h : (l.set i w)[j]? = some x) : (j = i ∧ x = w) ∨ (j ≠ i ∧ l[j]? = some x) := by
  by_cases hji : j = i
  · subst hji
    have hlt : j < l.length := by
      by_cases hlt : j < l.length
      · exact hlt
      · rw [List.getElem?_eq_none (by omega)] at h0; simp at h0
    rw [List.getElem?_set_self hlt] at h
    exact .inl ⟨rfl, by simpa using h.symm⟩
  · rw [List.getElem?_set_ne (Ne.symm hji)] at h
    exact .inr ⟨hji, h⟩

theorem MergeInv.step {U : CaseFns} {d : PolicyDoc} {s s' : MergeState} {cons : Nat → List RawAssertion}
    (h : MergeInv U d s cons) {c : Bool} {i : Nat} (hs : mergeStep U c s i = some s') :
    ∃ cons', MergeInv U d s' cons' := by
  unfold mergeStep at hs
  split at hs
  · simp at hs
  · rename_i t ht
    have hlt : i < s.threads.length := by
      by_cases hlt : i < s.threads.length
      · exact hlt
      · rw [List.getElem?_eq_none (by omega)] at ht; simp at ht
    obtain ⟨p, hp, hsp, hcp, htp⟩ := h.split i t ht
    split at hs
    · simp at hs
    · rename_i a rest hto hpc
      split at hs
      · -- cancelled
        simp only [Option.some.injEq] at hs; subst hs
        refine ⟨cons, by simpa using h.len, ?_, h.nodup, h.sub, by simpa using h.cover, ?_, ?_, ?_⟩
        · intro j x hj
          rcases getElem?_set_cases ht hj with ⟨rfl, rfl⟩ | ⟨hji, hj⟩
          · exact ⟨p, hp, by simp, hcp, by simp⟩
          · exact h.split j x hj
        · intro j x b r hj h1 h2
          rcases getElem?_set_cases ht hj with ⟨rfl, rfl⟩ | ⟨hji, hj⟩
          · simp at h1
          · exact h.miss j x b r hj h1 h2
        · intro j x b r hj h1 h2
          rcases getElem?_set_cases ht hj with ⟨rfl, rfl⟩ | ⟨hji, hj⟩
          · simp at h1
          · exact h.hit j x b r hj h1 h2
        · intro k b hk hb hbd
          obtain ⟨j, x, hj, hx⟩ := h.deny k b hk hb hbd
          by_cases hji : j = i
          · exact ⟨i, _, List.getElem?_set_self hlt, .inl rfl⟩
          · exact ⟨j, x, by rw [List.getElem?_set_ne (Ne.symm hji)]; exact hj, hx⟩
      · -- load
        simp only [Option.some.injEq] at hs; subst hs
        refine ⟨cons, by simpa using h.len, ?_, h.nodup, h.sub, by simpa using h.cover, ?_, ?_, ?_⟩
        · intro j x hj
          rcases getElem?_set_cases ht hj with ⟨rfl, rfl⟩ | ⟨hji, hj⟩
          · exact ⟨p, hp, by simpa [hto] using hsp, hcp, by simpa [hto] using htp⟩
          · exact h.split j x hj
        · intro j x b r hj h1 h2
          rcases getElem?_set_cases ht hj with ⟨rfl, rfl⟩ | ⟨hji, hj⟩
          · simp only [List.cons.injEq] at h1
            obtain ⟨rfl, rfl⟩ := h1
            intro b hb hk
            obtain ⟨b', hb'⟩ := h.cover j hlt b hb
            rw [hk] at hb'
            simp [hb'] at h2
          · exact h.miss j x b r hj h1 h2
        · intro j x b r hj h1 h2
          rcases getElem?_set_cases ht hj with ⟨rfl, rfl⟩ | ⟨hji, hj⟩
          · simp only [List.cons.injEq] at h1
            obtain ⟨rfl, rfl⟩ := h1
            simp only [MPc.loaded.injEq, Option.isSome_iff_exists] at h2
            exact h2
          · exact h.hit j x b r hj h1 h2
        · intro k b hk hb hbd
          obtain ⟨j, x, hj, hx⟩ := h.deny k b hk hb hbd
          by_cases hji : j = i
          · subst hji
            rw [ht] at hj
            simp only [Option.some.injEq] at hj
            subst hj
            exact ⟨j, _, List.getElem?_set_self hlt, by simpa [hto] using hx⟩
          · exact ⟨j, x, by rw [List.getElem?_set_ne (Ne.symm hji)]; exact hj, hx⟩
    · rename_i a rest present hto hpc
      have hap : a ∈ p := htp a (by simp [hto])
      have haf : a ∈ d.policies.flatten := List.mem_flatten.mpr ⟨p, List.mem_of_getElem? hp, hap⟩
      let cons' : Nat → List RawAssertion := fun j => if j = i then cons i ++ [a] else cons j
      have hsplit : ∀ (j : Nat) (x : MThread), (s.threads.set i ⟨rest, .idle, t.failed⟩)[j]? = some x → ∃ p, d.policies[j]? = some p ∧
          (x.failed = false → p = cons' j ++ x.todo) ∧ (∀ a ∈ cons' j, a ∈ p) ∧ (∀ a ∈ x.todo, a ∈ p) := by
        intro j x hj
        rcases getElem?_set_cases ht hj with ⟨rfl, rfl⟩ | ⟨hji, hj⟩
        · refine ⟨p, hp, ?_, ?_, ?_⟩
          · intro hf; simpa [cons', hto] using hsp hf
          · intro b hb
            simp only [cons', if_true, List.mem_append, List.mem_singleton] at hb
            rcases hb with hb | rfl
            · exact hcp b hb
            · exact hap
          · intro b hb; exact htp b (by rw [hto]; simp at hb ⊢; exact .inr hb)
        · simpa [cons', hji] using h.split j x hj
      have hcons' : ∀ j b, b ∈ cons' j → (j ≠ i ∧ b ∈ cons j) ∨ (j = i ∧ (b ∈ cons i ∨ b = a)) := by
        intro j b hb
        by_cases hji : j = i
        · simp only [cons', hji, if_true, List.mem_append, List.mem_singleton] at hb
          exact .inr ⟨hji, hb⟩
        · simp only [cons', hji, if_false] at hb
          exact .inl ⟨hji, hb⟩
      simp only at hs
      split at hs
      · -- store
        rename_i hcond
        simp only [Option.some.injEq] at hs; subst hs
        refine ⟨cons', by simpa using h.len, hsplit, AssMap.store_nodup h.nodup _ _, ?_, ?_, ?_, ?_, ?_⟩
        · intro q hq
          rcases AssMap.store_mem hq with hq | rfl
          · exact h.sub q hq
          · exact ⟨rfl, haf⟩
        · intro j hj b hb
          by_cases hk : b.key = a.key
          · exact ⟨a, by rw [hk]; exact AssMap.load_store_same _ _ _⟩
          · simp only [AssMap.load_store_other _ _ hk]
            simp only [List.length_set] at hj
            rcases hcons' j b hb with ⟨_, hb⟩ | ⟨rfl, hb | rfl⟩
            · exact h.cover j hj b hb
            · exact h.cover j hj b hb
            · exact absurd rfl hk
        · intro j x b r hj h1 h2
          rcases getElem?_set_cases ht hj with ⟨rfl, rfl⟩ | ⟨hji, hj⟩
          · simp at h2
          · simpa [cons', hji] using h.miss j x b r hj h1 h2
        · intro j x b r hj h1 h2
          rcases getElem?_set_cases ht hj with ⟨rfl, rfl⟩ | ⟨hji, hj⟩
          · simp at h2
          · by_cases hk : b.key = a.key
            · exact ⟨a, by rw [hk]; exact AssMap.load_store_same _ _ _⟩
            · simp only [AssMap.load_store_other _ _ hk]
              exact h.hit j x b r hj h1 h2
        · intro k b hsafe hb hbd
          by_cases hk : k = a.key
          · subst hk
            rw [AssMap.load_store_same] at hb
            simp only [Option.some.injEq] at hb
            subst hb
            refine ⟨i, _, List.getElem?_set_self hlt, ?_⟩
            cases hf : t.failed with
            | true => exact .inl rfl
            | false =>
              right
              have hpres : present = false := by
                cases hpr : present with
                | false => rfl
                | true => simp [hpr, hbd] at hcond
              obtain ⟨a', ha', hk', hd'⟩ := hsafe p (List.mem_of_getElem? hp) ⟨a, hap, rfl⟩
              rw [hsp hf, hto] at ha'
              rcases List.mem_append.mp ha' with ha' | ha'
              · exact absurd hk' (h.miss i t a rest ht hto (by rw [hpc, hpres]) a' ha')
              · rcases List.mem_cons.mp ha' with rfl | ha'
                · rw [hbd] at hd'; simp at hd'
                · exact ⟨a', ha', hk', hd'⟩
          · rw [AssMap.load_store_other _ _ hk] at hb
            obtain ⟨j, x, hj, hx⟩ := h.deny k b hsafe hb hbd
            by_cases hji : j = i
            · subst hji
              rw [ht] at hj
              simp only [Option.some.injEq] at hj
              subst hj
              refine ⟨j, _, List.getElem?_set_self hlt, ?_⟩
              rcases hx with hx | ⟨c, hc, hck, hcd⟩
              · exact .inl hx
              · rw [hto] at hc
                rcases List.mem_cons.mp hc with rfl | hc
                · exact absurd hck.symm hk
                · exact .inr ⟨c, hc, hck, hcd⟩
            · exact ⟨j, x, by simp only; rw [List.getElem?_set_ne (Ne.symm hji)]; exact hj, hx⟩
      · rename_i hcond
        simp only [Bool.or_eq_true, Bool.not_eq_true', not_or, Bool.not_eq_false, Bool.not_eq_true] at hcond
        obtain ⟨rfl, hnd⟩ := hcond
        simp only [Option.some.injEq] at hs; subst hs
        refine ⟨cons', by simpa using h.len, hsplit, h.nodup, h.sub, ?_, ?_, ?_, ?_⟩
        · intro j hj b hb
          simp only [List.length_set] at hj
          rcases hcons' j b hb with ⟨_, hb⟩ | ⟨rfl, hb | rfl⟩
          · exact h.cover j hj b hb
          · exact h.cover j hj b hb
          · exact h.hit j t b rest ht hto hpc
        · intro j x b r hj h1 h2
          rcases getElem?_set_cases ht hj with ⟨rfl, rfl⟩ | ⟨hji, hj⟩
          · simp at h2
          · simpa [cons', hji] using h.miss j x b r hj h1 h2
        · intro j x b r hj h1 h2
          rcases getElem?_set_cases ht hj with ⟨rfl, rfl⟩ | ⟨hji, hj⟩
          · simp at h2
          · exact h.hit j x b r hj h1 h2
        · intro k b hsafe hb hbd
          obtain ⟨j, x, hj, hx⟩ := h.deny k b hsafe hb hbd
          by_cases hji : j = i
          · subst hji
            rw [ht] at hj
            simp only [Option.some.injEq] at hj
            subst hj
            refine ⟨j, _, List.getElem?_set_self hlt, ?_⟩
            rcases hx with hx | ⟨c, hc, hck, hcd⟩
            · exact .inl hx
            · rw [hto] at hc
              rcases List.mem_cons.mp hc with rfl | hc
              · rw [hnd] at hcd; simp at hcd
              · exact .inr ⟨c, hc, hck, hcd⟩
          · exact ⟨j, x, by simp only; rw [List.getElem?_set_ne (Ne.symm hji)]; exact hj, hx⟩

/-- What the map of a finished merge contains, relative to the document. -/
structure Merged (U : CaseFns) (d : PolicyDoc) (l : List RawAssertion) : Prop where
  /-- nothing invented -/
  sub : ∀ a ∈ l, a ∈ d.policies.flatten
  /-- one assertion per key -/
  nodup : (l.map RawAssertion.key).Nodup
  /-- no key lost -/
  cover : ∀ a ∈ d.policies.flatten, ∃ b ∈ l, b.key = a.key
  /-- no deny lost, if every policy that mentions the key denies it -/
  deny : ∀ a ∈ d.policies.flatten, KeySafe U d a.key → ∃ b ∈ l, b.key = a.key ∧ b.isDeny U = true

theorem MergeInv.cons_eq {U : CaseFns} {d : PolicyDoc} {s : MergeState} {cons : Nat → List RawAssertion}
    (h : MergeInv U d s cons) (hfin : s.finished = true) (hnf : s.failed = false) {a : RawAssertion}
    (ha : a ∈ d.policies.flatten) : ∃ i, i < s.threads.length ∧ a ∈ cons i := by
  obtain ⟨p, hp, hap⟩ := List.mem_flatten.mp ha
  obtain ⟨i, hi⟩ := List.mem_iff_getElem?.mp hp
  have hlt : i < s.threads.length := by
    rw [h.len]
    by_cases hlt : i < d.policies.length
    · exact hlt
    · rw [List.getElem?_eq_none (by omega)] at hi; simp at hi
  obtain ⟨t, ht⟩ : ∃ t, s.threads[i]? = some t := ⟨_, List.getElem?_eq_getElem hlt⟩
  obtain ⟨p', hp', hsp, _, _⟩ := h.split i t ht
  rw [hi] at hp'
  simp only [Option.some.injEq] at hp'
  subst hp'
  have hto : t.todo = [] := by
    have := List.all_eq_true.mp hfin t (List.mem_of_getElem? ht)
    simpa using this
  have htf : t.failed = false := by
    have := hnf
    simp only [MergeState.failed, List.any_eq_false] at this
    simpa using this t (List.mem_of_getElem? ht)
  have := hsp htf
  rw [hto, List.append_nil] at this
  exact ⟨i, hlt, by rw [← this]; exact hap⟩

theorem MergeInv.merged {U : CaseFns} {d : PolicyDoc} {s : MergeState} {cons : Nat → List RawAssertion}
    (h : MergeInv U d s cons) (hfin : s.finished = true) (hnf : s.failed = false) :
    Merged U d (s.map.map (·.2)) := by
  have hload : ∀ k b, s.map.load k = some b → b ∈ s.map.map (·.2) ∧ b.key = k := by
    intro k b hb
    have hm := AssMap.mem_of_load hb
    exact ⟨List.mem_map.mpr ⟨_, hm, rfl⟩, (h.sub _ hm).1.symm⟩
  refine ⟨?_, ?_, ?_, ?_⟩
  · intro a ha
    obtain ⟨q, hq, rfl⟩ := List.mem_map.mp ha
    exact (h.sub q hq).2
  · have : (s.map.map (·.2)).map RawAssertion.key = s.map.map (·.1) := by
      rw [List.map_map]
      apply List.map_congr_left
      intro q hq
      exact (h.sub q hq).1.symm
    rw [this]; exact h.nodup
  · intro a ha
    obtain ⟨i, hi, hc⟩ := h.cons_eq hfin hnf ha
    obtain ⟨b, hb⟩ := h.cover i hi a hc
    exact ⟨b, hload _ _ hb⟩
  · intro a ha hsafe
    obtain ⟨i, hi, hc⟩ := h.cons_eq hfin hnf ha
    obtain ⟨b, hb⟩ := h.cover i hi a hc
    refine ⟨b, (hload _ _ hb).1, (hload _ _ hb).2, ?_⟩
    cases hbd : b.isDeny U with
    | true => rfl
    | false =>
      obtain ⟨j, t, hj, hx⟩ := h.deny _ b hsafe hb hbd
      have hmem := List.mem_of_getElem? hj
      rcases hx with hx | ⟨c, hc, _⟩
      · have := hnf
        simp only [MergeState.failed, List.any_eq_false] at this
        exact absurd hx (this t hmem)
      · have := List.all_eq_true.mp hfin t hmem
        rw [List.isEmpty_iff] at this
        rw [this] at hc
        simp at hc

theorem Merged.perm {U : CaseFns} {d : PolicyDoc} {l l' : List RawAssertion} (h : Merged U d l) (hp : l'.Perm l) :
    Merged U d l' := by
  refine ⟨fun a ha => h.sub a (hp.mem_iff.mp ha), ((hp.map _).nodup_iff).mpr h.nodup, ?_, ?_⟩
  · intro a ha
    obtain ⟨b, hb, hk⟩ := h.cover a ha
    exact ⟨b, hp.mem_iff.mpr hb, hk⟩
  · intro a ha hsafe
    obtain ⟨b, hb, hk⟩ := h.deny a ha hsafe
    exact ⟨b, hp.mem_iff.mpr hb, hk⟩

theorem mergeRun_inv {U : CaseFns} {d : PolicyDoc} {s s' : MergeState} {cons : Nat → List RawAssertion}
    (h : MergeInv U d s cons) {is : List Nat} (hs : mergeRun U s is = some s') : ∃ cons', MergeInv U d s' cons' := by
  induction is generalizing s cons with
  | nil => simp only [mergeRun, Option.some.injEq] at hs; subst hs; exact ⟨cons, h⟩
  | cons i is ih =>
    simp only [mergeRun] at hs
    split at hs
    · simp at hs
    · rename_i s1 hs1
      obtain ⟨c1, h1⟩ := h.step hs1
      exact ih h1 hs

end Athenz
