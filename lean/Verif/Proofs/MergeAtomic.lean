import Verif.Proofs.Update

/-! Merging with an atomic load-and-store, and independence of the merge order. -/

namespace Athenz

/-- Every entry that was there is still there under its key, and denies stay denies. -/
def Grows (U : CaseFns) (m m' : AssMap) : Prop :=
  ∀ k b, m.load k = some b → ∃ b', m'.load k = some b' ∧ (b.isDeny U = true → b'.isDeny U = true)

structure AtomInv (U : CaseFns) (d : PolicyDoc) (s : MergeState) : Prop where
  len : s.threads.length = d.policies.length
  keyed : ∀ p ∈ s.map, p.1 = p.2.key
  thr : ∀ (i : Nat) (t : MThread), s.threads[i]? = some t → t.pc = .idle ∧ ∃ p c, d.policies[i]? = some p ∧ p = c ++ t.todo ∧
    ∀ a ∈ c, ∃ b, s.map.load a.key = some b ∧ (a.isDeny U = true → b.isDeny U = true)

theorem atomInit (U : CaseFns) (d : PolicyDoc) : AtomInv U d d.mergeInit := by
  refine ⟨by simp [PolicyDoc.mergeInit], by simp [PolicyDoc.mergeInit], ?_⟩
  intro i t h
  simp only [PolicyDoc.mergeInit, List.getElem?_map, Option.map_eq_some_iff] at h
  obtain ⟨p, hp, rfl⟩ := h
  exact ⟨rfl, p, [], hp, by simp, by simp⟩

theorem AtomInv.pair {U : CaseFns} {d : PolicyDoc} {s s1 s2 : MergeState} (h : AtomInv U d s) {i : Nat}
    (h1 : mergeStep U false s i = some s1) (h2 : mergeStep U false s1 i = some s2) : AtomInv U d s2 := by
  unfold mergeStep at h1
  split at h1
  · simp at h1
  · rename_i t ht
    obtain ⟨hpc, p, c, hp, hpe, hc⟩ := h.thr i t ht
    have hlt : i < s.threads.length := by
      by_cases hlt : i < s.threads.length
      · exact hlt
      · rw [List.getElem?_eq_none (by omega)] at ht; simp at ht
    split at h1
    · simp at h1
    · rename_i a rest hto hidle
      simp only [Bool.false_eq_true, if_false, Option.some.injEq] at h1
      subst h1
      unfold mergeStep at h2
      simp only [List.getElem?_set_self hlt, List.set_set] at h2
      -- the map grows, and has a good entry for `a`
      obtain ⟨m', hm', hg, ha, hk⟩ : ∃ m', s2 = ⟨m', s.threads.set i ⟨rest, .idle, t.failed⟩⟩ ∧ Grows U s.map m' ∧
          (∃ b, m'.load a.key = some b ∧ (a.isDeny U = true → b.isDeny U = true)) ∧ ∀ p ∈ m', p.1 = p.2.key := by
        split at h2
        · rename_i hcond
          simp only [Option.some.injEq] at h2
          refine ⟨s.map.store a.key a, h2.symm, ?_, ⟨a, AssMap.load_store_same _ _ _, id⟩, ?_⟩
          · intro k b hb
            by_cases hka : k = a.key
            · subst hka
              refine ⟨a, AssMap.load_store_same _ _ _, ?_⟩
              simp only [hb, Option.isSome_some, Bool.not_true, Bool.false_or] at hcond
              exact fun _ => hcond
            · exact ⟨b, by rw [AssMap.load_store_other _ _ hka]; exact hb, id⟩
          · intro q hq
            rcases AssMap.store_mem hq with hq | rfl
            · exact h.keyed q hq
            · rfl
        · rename_i hcond
          simp only [Option.some.injEq] at h2
          simp only [Bool.or_eq_true, Bool.not_eq_true', not_or, Bool.not_eq_false, Bool.not_eq_true] at hcond
          obtain ⟨b, hb⟩ := Option.isSome_iff_exists.mp hcond.1
          exact ⟨s.map, h2.symm, fun k b hb => ⟨b, hb, id⟩, ⟨b, hb, by simp [hcond.2]⟩, h.keyed⟩
      subst hm'
      refine ⟨by simpa using h.len, hk, ?_⟩
      intro j x hj
      rcases getElem?_set_cases ht hj with ⟨rfl, rfl⟩ | ⟨hji, hj⟩
      · refine ⟨rfl, p, c ++ [a], hp, by simp [hpe, hto], ?_⟩
        intro b hb
        rcases List.mem_append.mp hb with hb | hb
        · obtain ⟨b1, hb1, hd1⟩ := hc b hb
          obtain ⟨b2, hb2, hd2⟩ := hg _ _ hb1
          exact ⟨b2, hb2, fun h => hd2 (hd1 h)⟩
        · simp at hb; subst hb; exact ha
      · obtain ⟨hpc', p', c', hp', hpe', hc'⟩ := h.thr j x hj
        refine ⟨hpc', p', c', hp', hpe', ?_⟩
        intro b hb
        obtain ⟨b1, hb1, hd1⟩ := hc' b hb
        obtain ⟨b2, hb2, hd2⟩ := hg _ _ hb1
        exact ⟨b2, hb2, fun h => hd2 (hd1 h)⟩
    · rename_i hpc'
      rw [hpc] at hpc'; simp at hpc'

theorem AtomInv.run {U : CaseFns} {d : PolicyDoc} {s s' : MergeState} (h : AtomInv U d s) {is : List Nat}
    (hs : mergeRun U s (is.flatMap fun i => [i, i]) = some s') : AtomInv U d s' := by
  induction is generalizing s with
  | nil => simp only [List.flatMap_nil, mergeRun, Option.some.injEq] at hs; subst hs; exact h
  | cons i is ih =>
    simp only [List.flatMap_cons, List.cons_append, List.nil_append, mergeRun] at hs
    split at hs
    · simp at hs
    · rename_i s1 hs1
      split at hs
      · simp at hs
      · rename_i s2 hs2
        exact ih (h.pair hs1 hs2) hs

theorem AtomInv.deny {U : CaseFns} {d : PolicyDoc} {s : MergeState} (h : AtomInv U d s) (hfin : s.finished = true)
    {a : RawAssertion} (ha : a ∈ d.policies.flatten) (had : a.isDeny U = true) :
    ∃ b ∈ s.map.map (·.2), b.key = a.key ∧ b.isDeny U = true := by
  obtain ⟨p, hp, hap⟩ := List.mem_flatten.mp ha
  obtain ⟨i, hi⟩ := List.mem_iff_getElem?.mp hp
  have hlt : i < s.threads.length := by
    rw [h.len]
    by_cases hlt : i < d.policies.length
    · exact hlt
    · rw [List.getElem?_eq_none (by omega)] at hi; simp at hi
  have ht := List.getElem?_eq_getElem hlt
  obtain ⟨_, p', c, hp', hpe, hc⟩ := h.thr i _ ht
  have hto : s.threads[i].todo = [] := by
    have := List.all_eq_true.mp hfin _ (List.getElem_mem hlt)
    simpa using this
  rw [hi] at hp'
  simp only [Option.some.injEq] at hp'
  subst hp'
  rw [hto, List.append_nil] at hpe
  subst hpe
  obtain ⟨b, hb, hd⟩ := hc a hap
  have hm := AssMap.mem_of_load hb
  exact ⟨b, List.mem_map.mpr ⟨_, hm, rfl⟩, (h.keyed _ hm).symm, hd had⟩

/-- `conv` looks at the effect only through `isDeny`. -/
theorem conv_congr {U : CaseFns} {a b : RawAssertion} (h1 : a.action = b.action) (h2 : a.resource = b.resource)
    (h3 : a.isDeny U = b.isDeny U) : a.conv U = b.conv U := by
  unfold RawAssertion.conv newAssertion
  unfold RawAssertion.isDeny at h3
  rw [h1, h2, h3]

/-- Two merges of the same document yield the same assertions per role. -/
theorem Merged.same {U : CaseFns} {d : PolicyDoc} {l1 l2 : List RawAssertion} (h1 : Merged U d l1) (h2 : Merged U d l2)
    (hR : DenySafe U d) (hC : CommaFree d.policies.flatten) (k : Str) :
    ((l1.filter fun a => a.role == k).filterMap (RawAssertion.conv U)).Perm
      ((l2.filter fun a => a.role == k).filterMap (RawAssertion.conv U)) := by
  -- what key determines
  have hkey : ∀ a b, a ∈ d.policies.flatten → b ∈ d.policies.flatten → a.key = b.key →
      a.role = b.role ∧ a.action = b.action ∧ a.resource = b.resource := by
    intro a b ha hb hk
    exact key_inj hk (hC a ha) (hC b hb)
  have huniq : ∀ (l : List RawAssertion), (l.map RawAssertion.key).Nodup → ∀ a ∈ l, ∀ b ∈ l, a.key = b.key → a = b := by
    intro l hn a ha b hb hk
    induction l with
    | nil => simp at ha
    | cons c l ih =>
      simp only [List.map_cons, List.nodup_cons] at hn
      rcases List.mem_cons.mp ha with rfl | ha' <;> rcases List.mem_cons.mp hb with rfl | hb'
      · rfl
      · exact absurd (List.mem_map.mpr ⟨b, hb', hk.symm⟩) hn.1
      · exact absurd (List.mem_map.mpr ⟨a, ha', hk⟩) hn.1
      · exact ih hn.2 ha' hb'
  have hdeny : ∀ (l l' : List RawAssertion), Merged U d l → Merged U d l' → ∀ a ∈ l, ∀ b ∈ l', a.key = b.key →
      a.isDeny U = true → b.isDeny U = true := by
    intro l l' hl hl' a ha b hb hk had
    obtain ⟨c, hc, hck, hcd⟩ := hl'.deny a (hl.sub a ha) (hR.key hC (hl.sub a ha) had)
    have := huniq l' hl'.nodup c hc b hb (by rw [hck, hk])
    rw [← this]; exact hcd
  have hsame : ∀ a ∈ l1, ∀ b ∈ l2, a.key = b.key → a.role = b.role ∧ a.conv U = b.conv U := by
    intro a ha b hb hk
    obtain ⟨hr, hac, hre⟩ := hkey a b (h1.sub a ha) (h2.sub b hb) hk
    refine ⟨hr, conv_congr hac hre ?_⟩
    have e1 := hdeny l1 l2 h1 h2 a ha b hb hk
    have e2 := hdeny l2 l1 h2 h1 b hb a ha hk.symm
    cases ha' : a.isDeny U <;> cases hb' : b.isDeny U <;> simp_all
  have hperm : (l1.map RawAssertion.key).Perm (l2.map RawAssertion.key) := by
    rw [List.perm_ext_iff_of_nodup h1.nodup h2.nodup]
    intro x
    constructor
    · intro hx
      obtain ⟨a, ha, rfl⟩ := List.mem_map.mp hx
      obtain ⟨b, hb, hk⟩ := h2.cover a (h1.sub a ha)
      exact List.mem_map.mpr ⟨b, hb, hk⟩
    · intro hx
      obtain ⟨a, ha, rfl⟩ := List.mem_map.mp hx
      obtain ⟨b, hb, hk⟩ := h1.cover a (h2.sub a ha)
      exact List.mem_map.mpr ⟨b, hb, hk⟩
  -- express the filtered list through the keys
  let φ : Str → Option Assertion := fun x =>
    match l1.find? (fun a => a.key == x) with
    | some a => if a.role == k then a.conv U else none
    | none => none
  have hφ1 : ∀ a ∈ l1, φ a.key = if a.role == k then a.conv U else none := by
    intro a ha
    simp only [φ]
    cases hf : l1.find? (fun b => b.key == a.key) with
    | none =>
      have := List.find?_eq_none.mp hf a ha
      simp at this
    | some b =>
      have hb := List.mem_of_find?_eq_some hf
      have hbk := List.find?_some hf
      rw [huniq l1 h1.nodup b hb a ha (by simpa using hbk)]
  have hφ2 : ∀ b ∈ l2, φ b.key = if b.role == k then b.conv U else none := by
    intro b hb
    obtain ⟨a, ha, hk⟩ := h1.cover b (h2.sub b hb)
    obtain ⟨hr, hc⟩ := hsame a ha b hb hk
    rw [← hk, hφ1 a ha, hr, hc]
  have hexp : ∀ (l : List RawAssertion), (∀ a ∈ l, φ a.key = if a.role == k then a.conv U else none) →
      (l.filter fun a => a.role == k).filterMap (RawAssertion.conv U) = (l.map RawAssertion.key).filterMap φ := by
    intro l hl
    induction l with
    | nil => rfl
    | cons a l ih =>
      have ih := ih (fun b hb => hl b (by simp [hb]))
      have ha := hl a (by simp)
      simp only [List.filter_cons, List.map_cons, List.filterMap_cons, ha]
      cases hr : (a.role == k) with
      | true => simp only [if_true, List.filterMap_cons, ih]
      | false => simp only [Bool.false_eq_true, if_false, ih]
  rw [hexp l1 hφ1, hexp l2 hφ2]
  exact hperm.filterMap φ

end Athenz
