import Verif.Proofs.Translator

/-! # What validated rules do -/

namespace Athenz
open Spec

theorem load_iff_mem {V : Type} {m : SMap V} (hn : m.keys.Nodup) {k : Str} {v : V} : m.load k = some v ↔ (k, v) ∈ m := by
  induction m with
  | nil => simp [SMap.load]
  | cons p m ih =>
    simp only [SMap.keys, List.map_cons, List.nodup_cons] at hn
    rw [SMap.load_cons]
    by_cases h : p.1 = k
    · rw [if_pos h]
      subst h
      constructor
      · intro h; simp only [Option.some.injEq] at h; rw [← h]; exact List.mem_cons_self ..
      · intro h
        rcases List.mem_cons.mp h with h | h
        · rw [← h]
        · exact absurd (List.mem_map.mpr ⟨_, h, rfl⟩) hn.1
    · rw [if_neg h, ih hn.2, List.mem_cons]
      constructor
      · exact .inr
      · rintro (h' | h')
        · exact absurd (by rw [← h']) h
        · exact h'

theorem subset_of_length {A B : List Str} (ha : A.Nodup) (hs : A ⊆ B) (hl : B.length ≤ A.length) : B ⊆ A := by
  intro b hb
  apply Classical.byContradiction
  intro hn
  have h1 : (b :: A).Nodup := List.nodup_cons.mpr ⟨hn, ha⟩
  have h2 : (b :: A) ⊆ B := List.cons_subset.mpr ⟨hb, hs⟩
  have := h1.length_le_of_subset h2
  simp only [List.length_cons] at this
  omega

theorem nodup_rev {α : Type} {l : List α} : l.reverse.Nodup ↔ l.Nodup := (List.reverse_perm l).nodup_iff

theorem keys_perm {V : Type} {m m' : SMap V} (h : m.Perm m') : m.keys.Perm m'.keys := h.map _

theorem ruleParts_iff {pq : QueryParser} {r : Rule} {segs : List Str} {qm : SMap (List Str)} :
    RuleParts pq r segs qm ↔ (Str.cut "?".toList r.path = none ∧ Str.split '/' r.path = segs ∧ qm = []) ∨
      ∃ p q, Str.cut "?".toList r.path = some (p, q) ∧ Str.split '/' p = segs ∧ pq q = some qm := by
  have e : "?".toList = ['?'] := rfl
  simp only [RuleParts, splitInto_iff, e, Str.cut_singleton_none, Str.cut_singleton_iff, and_assoc]

theorem ruleParts_unique {pq : QueryParser} {r : Rule} {segs segs' : List Str} {qm qm' : SMap (List Str)} (h : RuleParts pq r segs qm)
    (h' : RuleParts pq r segs' qm') : segs = segs' ∧ qm = qm' := by
  rw [ruleParts_iff] at h h'
  rcases h with ⟨h1, h2, h3⟩ | ⟨p, q, h1, h2, h3⟩ <;> rcases h' with ⟨h1', h2', h3'⟩ | ⟨p', q', h1', h2', h3'⟩
  · exact ⟨h2.symm.trans h2', h3.trans h3'.symm⟩
  · rw [h1] at h1'; simp at h1'
  · rw [h1] at h1'; simp at h1'
  · rw [h1] at h1'
    simp only [Option.some.injEq, Prod.mk.injEq] at h1'
    obtain ⟨rfl, rfl⟩ := h1'
    rw [h3] at h3'
    simp only [Option.some.injEq] at h3'
    exact ⟨h2.symm.trans h2', h3'⟩

theorem ruleParts_keys {pq : QueryParser} (hpq : pq.Ok) {r : Rule} {segs : List Str} {qm : SMap (List Str)} (h : RuleParts pq r segs qm) :
    qm.keys.Nodup := by
  rcases ruleParts_iff.mp h with ⟨_, _, rfl⟩ | ⟨p, q, _, _, h⟩
  · exact List.nodup_nil
  · exact hpq _ _ h

/-- The texts of a rule. -/
def ruleTexts (segs : List Str) (qm : SMap (List Str)) : List Str := segs ++ qm.flatMap (·.2)

/-- What validation demands of the parts of a rule, and what is left of earlier validations. -/
structure PartsOk (segs : List Str) (qm : SMap (List Str)) : Prop where
  single : ∀ e ∈ qm, ∃ v, e.2 = [v]
  noEmpty : emptyPh ∉ ruleTexts segs qm
  nodup : (ruleTexts segs qm).Pairwise fun a b => ph a = true → a ≠ b

theorem ph_symm : ∀ {x y : Str}, (ph x = true → x ≠ y) → ph y = true → y ≠ x := by
  rintro x y h hy rfl
  exact h hy rfl

theorem compile_iff {pq : QueryParser} (hpq : pq.Ok) {ord : SMap (List Str) → SMap (List Str)} (ho : ∀ m, (ord m).Perm m) {r r' : Rule} :
    r.compile pq ord = .ok r' ↔ (r.method ≠ [] ∧ r.action ≠ [] ∧ r.resource ≠ []) ∧ (r.path = [] ∨ ∃ t, r.path = '/' :: t) ∧
      ∃ segs qm, RuleParts pq r segs qm ∧ PartsOk segs qm ∧ (∀ s ∈ segs, ph s = true → NoPh (queryParams r) s) ∧
        r' = { r with splitPaths := segs.map toParam, queryValueMap := ((ord qm).map qEntry).reverse } := by
  unfold Rule.compile
  by_cases h0 : r.method = [] ∨ r.action = [] ∨ r.resource = []
  · rw [if_pos h0]
    refine ⟨fun h => by simp at h, ?_⟩
    rintro ⟨⟨h1, h2, h3⟩, _⟩
    rcases h0 with h | h | h
    · exact absurd h h1
    · exact absurd h h2
    · exact absurd h h3
  rw [if_neg h0]
  have h0' : r.method ≠ [] ∧ r.action ≠ [] ∧ r.resource ≠ [] := by
    simp only [not_or] at h0
    exact h0
  by_cases h1 : r.path ≠ [] ∧ Str.hasPrefix r.path "/".toList = false
  · rw [if_pos h1]
    refine ⟨fun h => by simp at h, ?_⟩
    rintro ⟨_, h | ⟨t, h⟩, _⟩
    · exact absurd h h1.1
    · have := h1.2
      rw [h] at this
      simp [Str.hasPrefix] at this
  rw [if_neg h1]
  have h1' : r.path = [] ∨ ∃ t, r.path = '/' :: t := by
    cases hp : r.path with
    | nil => exact .inl rfl
    | cons c cs =>
      right
      rw [hp] at h1
      simp only [ne_eq, reduceCtorEq, not_false_eq_true, true_and, Bool.not_eq_false] at h1
      obtain ⟨t, ht⟩ := List.isPrefixOf_iff_prefix.mp h1
      exact ⟨t, ht.symm⟩
  have hord0 : ord [] = [] := (ho []).eq_nil
  cases hc : Str.cut "?".toList r.path with
  | none =>
    cases ha : Rule.addPaths { r with splitPaths := [] } (Str.split '/' r.path) with
    | ok r1 =>
      obtain ⟨a1, a2, a3, a4⟩ := addPaths_iff.mp ha
      simp only [ha, Res.ok.injEq]
      simp only [List.nil_append] at a4
      constructor
      · rintro rfl
        refine ⟨h0', h1', _, [], ruleParts_iff.mpr (.inl ⟨hc, rfl, rfl⟩), ⟨by simp, by simpa [ruleTexts] using a1, by simpa [ruleTexts] using a2⟩,
          fun s hs hp => (a3 s hs hp).2, ?_⟩
        rw [a4, hord0]
        rfl
      · rintro ⟨_, _, segs, qm, hp, hok, hst, rfl⟩
        rcases ruleParts_iff.mp hp with ⟨_, rfl, rfl⟩ | ⟨p, q, h, _⟩
        · rw [a4, hord0]
          rfl
        · rw [hc] at h; simp at h
    | err e =>
      simp only [ha]
      refine ⟨fun h => by simp at h, ?_⟩
      rintro ⟨_, _, segs, qm, hp, hok, hst, rfl⟩
      rcases ruleParts_iff.mp hp with ⟨_, rfl, rfl⟩ | ⟨p, q, h, _⟩
      · have := (addPaths_iff (r := { r with splitPaths := [] })).mpr ⟨by simpa [ruleTexts] using hok.noEmpty, by simpa [ruleTexts] using hok.nodup,
          fun s hs hp => ⟨by intro p hp; simp at hp, hst s hs hp⟩, rfl⟩
        rw [ha] at this
        simp at this
      · rw [hc] at h; simp at h
    | panic => exact absurd ha (addPaths_no_panic _ _)
  | some pqs =>
    obtain ⟨p, q⟩ := pqs
    cases ha : Rule.addPaths { r with splitPaths := [] } (Str.split '/' p) with
    | ok r1 =>
      obtain ⟨a1, a2, a3, a4⟩ := addPaths_iff.mp ha
      simp only [ha]
      simp only [List.nil_append] at a4
      cases hq : pq q with
      | none =>
        refine ⟨fun h => by simp at h, ?_⟩
        rintro ⟨_, _, segs, qm, hp, hok, hst, rfl⟩
        rcases ruleParts_iff.mp hp with ⟨h, _, _⟩ | ⟨p', q', h, _, h'⟩
        · rw [hc] at h; simp at h
        · rw [hc] at h
          simp only [Option.some.injEq, Prod.mk.injEq] at h
          rw [← h.2, hq] at h'
          simp at h'
      | some qm =>
        have hperm := ho qm
        have hkeys : (ord qm).keys.Nodup := (keys_perm hperm).nodup_iff.mpr (hpq _ _ hq)
        have hflat := hperm.flatMap_right (f := fun e => e.2)
        have hb := addQueries_iff (r := { r1 with queryValueMap := [] }) (r' := r') hkeys (by intro k _; simp [SMap.keys])
        simp only
        rw [hb]
        have hcross : (∀ s ∈ (ord qm).flatMap (·.2), ph s = true → NoPh r1.splitPaths s ∧ NoPh (queryParams { r1 with queryValueMap := [] }) s) ↔
            ∀ x ∈ Str.split '/' p, ∀ s ∈ qm.flatMap (·.2), ph x = true → x ≠ s := by
          rw [a4]
          simp only [NoPh, List.mem_map, queryParams, List.not_mem_nil, false_and, exists_false, false_implies, implies_true, and_true,
            forall_exists_index, and_imp, toParam]
          constructor
          · intro h x hx s hs hp
            rintro rfl
            exact h x (hflat.mem_iff.mpr hs) hp _ x hx rfl hp rfl
          · intro h s hs _ _ x hx he hp' hxs
            subst he
            exact h x hx s (hflat.mem_iff.mp hs) hp' hxs
        simp only at hcross
        rw [hcross]
        constructor
        · rintro ⟨b1, b2, b3, b4, rfl⟩
          refine ⟨h0', h1', _, qm, ruleParts_iff.mpr (.inr ⟨p, q, hc, rfl, hq⟩), ⟨fun e he => b1 e (hperm.mem_iff.mpr he), ?_, ?_⟩,
            fun s hs hp => (a3 s hs hp).2, ?_⟩
          · simp only [ruleTexts, List.mem_append, not_or]
            exact ⟨a1, fun h => b2 (hflat.mem_iff.mpr h)⟩
          · rw [ruleTexts, List.pairwise_append]
            exact ⟨a2, (hflat.pairwise_iff ph_symm).mp b3, b4⟩
          · rw [a4]
            simp only [List.append_nil]
        · rintro ⟨_, _, segs, qm', hp, hok, hst, rfl⟩
          rcases ruleParts_iff.mp hp with ⟨h, _, _⟩ | ⟨p', q', h, h2, h'⟩
          · rw [hc] at h; simp at h
          · rw [hc] at h
            simp only [Option.some.injEq, Prod.mk.injEq] at h
            obtain ⟨rfl, rfl⟩ := h
            rw [hq] at h'
            simp only [Option.some.injEq] at h'
            subst h'
            subst h2
            obtain ⟨c1, c2, c3⟩ := hok
            simp only [ruleTexts, List.mem_append, not_or, List.pairwise_append] at c2 c3
            refine ⟨fun e he => c1 e (hperm.mem_iff.mp he), fun h => c2.2 (hflat.mem_iff.mp h), (hflat.pairwise_iff ph_symm).mpr c3.2.1, c3.2.2, ?_⟩
            rw [a4]
            simp only [List.append_nil]
    | err e =>
      simp only [ha]
      refine ⟨fun h => by simp at h, ?_⟩
      rintro ⟨_, _, segs, qm, hp, hok, hst, rfl⟩
      rcases ruleParts_iff.mp hp with ⟨h, _, _⟩ | ⟨p', q', h, h2, h'⟩
      · rw [hc] at h; simp at h
      · rw [hc] at h
        simp only [Option.some.injEq, Prod.mk.injEq] at h
        obtain ⟨rfl, rfl⟩ := h
        subst h2
        obtain ⟨c1, c2, c3⟩ := hok
        simp only [ruleTexts, List.mem_append, not_or, List.pairwise_append] at c2 c3
        have := (addPaths_iff (r := { r with splitPaths := [] })).mpr ⟨c2.1, c3.1,
          fun s hs hp => ⟨by intro p hp; simp at hp, hst s hs hp⟩, rfl⟩
        rw [ha] at this
        simp at this
    | panic => exact absurd ha (addPaths_no_panic _ _)

theorem compile_no_panic (pq : QueryParser) (ord : SMap (List Str) → SMap (List Str)) (r : Rule) : r.compile pq ord ≠ .panic := by
  unfold Rule.compile
  split
  · simp
  split
  · simp
  simp only
  split
  · split
    · simp
    · split
      · simp
      · exact addQueries_no_panic _ _
  · simp
  · rename_i h
    exact absurd h (addPaths_no_panic _ _)

/-- The parts as the specification has them. -/
theorem partsOk_iff {segs : List Str} {qm : SMap (List Str)} : PartsOk segs qm ↔ (∀ k vs, (k, vs) ∈ qm → ∃ v, vs = [v]) ∧
    "{}".toList ∉ segs ++ qm.flatMap (·.2) ∧ (segs ++ qm.flatMap (·.2)).Pairwise fun a b => IsPh a → a ≠ b := by
  constructor
  · rintro ⟨h1, h2, h3⟩
    refine ⟨fun k vs h => h1 _ h, h2, h3.imp_of_mem ?_⟩
    intro a b ha _ h hp
    exact h ((ph_iff (by rintro rfl; exact h2 ha)).mpr hp)
  · rintro ⟨h1, h2, h3⟩
    refine ⟨fun e h => h1 _ _ h, h2, ?_⟩
    refine h3.imp_of_mem ?_
    intro a b ha _ h hp
    exact h ((ph_iff (by rintro rfl; exact h2 ha)).mp hp)

/-! ## Matching -/

/-- The placeholders of a path with what they stand for. -/
def phPairs : List Str → List Str → List (Str × Str)
  | t :: ts, s :: ss => if ph t then (t, s) :: phPairs ts ss else phPairs ts ss
  | _, _ => []

theorem phPairs_fst {ts : List Str} : ∀ {ss : List Str} {e : Str × Str}, e ∈ phPairs ts ss → e.1 ∈ ts ∧ ph e.1 = true := by
  induction ts with
  | nil => intro ss e h; simp [phPairs] at h
  | cons t ts ih =>
    intro ss e h
    cases ss with
    | nil => simp [phPairs] at h
    | cons s ss =>
      simp only [phPairs] at h
      split at h
      · rename_i hp
        rcases List.mem_cons.mp h with rfl | h
        · exact ⟨List.mem_cons_self .., hp⟩
        · exact ⟨List.mem_cons_of_mem _ (ih h).1, (ih h).2⟩
      · exact ⟨List.mem_cons_of_mem _ (ih h).1, (ih h).2⟩

theorem phPairs_mem {ts : List Str} : ∀ {ss : List Str} {n v : Str},
    (n, v) ∈ phPairs ts ss ↔ ph n = true ∧ ∃ i : Nat, ts[i]? = some n ∧ ss[i]? = some v := by
  induction ts with
  | nil => intro ss n v; simp [phPairs]
  | cons t ts ih =>
    intro ss n v
    cases ss with
    | nil => simp [phPairs]
    | cons s ss =>
      have shift : (∃ i : Nat, (t :: ts)[i]? = some n ∧ (s :: ss)[i]? = some v) ↔ (t = n ∧ s = v) ∨ ∃ i : Nat, ts[i]? = some n ∧ ss[i]? = some v := by
        constructor
        · rintro ⟨i, h1, h2⟩
          cases i with
          | zero => left; simp only [List.getElem?_cons_zero, Option.some.injEq] at h1 h2; exact ⟨h1, h2⟩
          | succ i => right; exact ⟨i, by simpa using h1, by simpa using h2⟩
        · rintro (⟨rfl, rfl⟩ | ⟨i, h1, h2⟩)
          · exact ⟨0, rfl, rfl⟩
          · exact ⟨i + 1, by simpa using h1, by simpa using h2⟩
      simp only [phPairs]
      split
      · rename_i hp
        rw [List.mem_cons, ih, shift, Prod.mk.injEq]
        constructor
        · rintro (⟨rfl, rfl⟩ | ⟨h1, h2⟩)
          · exact ⟨hp, .inl ⟨rfl, rfl⟩⟩
          · exact ⟨h1, .inr h2⟩
        · rintro ⟨h1, ⟨rfl, rfl⟩ | h2⟩
          · exact .inl ⟨rfl, rfl⟩
          · exact .inr ⟨h1, h2⟩
      · rename_i hp
        rw [ih, shift]
        constructor
        · rintro ⟨h1, h2⟩; exact ⟨h1, .inr h2⟩
        · rintro ⟨h1, ⟨rfl, rfl⟩ | h2⟩
          · exact absurd h1 hp
          · exact ⟨h1, h2⟩

theorem phPairs_nodup {ts : List Str} : ∀ {ss : List Str}, ts.Pairwise (fun a b => ph a = true → a ≠ b) → ((phPairs ts ss).map (·.1)).Nodup := by
  induction ts with
  | nil => intro ss _; simp [phPairs]
  | cons t ts ih =>
    intro ss h
    obtain ⟨h1, h2⟩ := List.pairwise_cons.mp h
    cases ss with
    | nil => simp [phPairs]
    | cons s ss =>
      simp only [phPairs]
      split
      · rename_i hp
        simp only [List.map_cons, List.nodup_cons]
        refine ⟨?_, ih h2⟩
        intro hm
        obtain ⟨e, he, het⟩ := List.mem_map.mp hm
        exact h1 _ (phPairs_fst he).1 hp het.symm
      · exact ih h2

theorem matchPaths_iff {ts : List Str} : ∀ {ss : List Str} {m0 m : SMap Str}, ts.length = ss.length →
    ts.Pairwise (fun a b => ph a = true → a ≠ b) → (∀ t ∈ ts, ph t = true → t ∉ m0.keys) →
    (matchPaths (ts.map toParam) ss m0 = some m ↔ Aligned (fun t s => ph t = true ∨ t = s) ts ss ∧ m = (phPairs ts ss).reverse ++ m0) := by
  induction ts with
  | nil =>
    intro ss m0 m hl _ _
    have : ss = [] := List.length_eq_zero_iff.mp hl.symm
    subst this
    simp [matchPaths, Aligned, phPairs, eq_comm]
  | cons t ts ih =>
    intro ss m0 m hl hp hk
    obtain ⟨h1, h2⟩ := List.pairwise_cons.mp hp
    cases ss with
    | nil => simp at hl
    | cons s ss =>
      simp only [List.length_cons, Nat.add_right_cancel_iff] at hl
      simp only [List.map_cons, matchPaths, toParam, Aligned, phPairs]
      cases hph : ph t with
      | true =>
        have hnk := hk t (List.mem_cons_self ..) hph
        simp only [if_true, true_or, true_and]
        rw [store_new hnk, ih hl h2]
        · simp
        · intro x hx hpx
          simp only [SMap.keys, List.map_cons, List.mem_cons, not_or]
          exact ⟨fun h => h1 x hx hph h.symm, hk x (List.mem_cons_of_mem _ hx) hpx⟩
      | false =>
        simp only [Bool.false_eq_true, if_false, false_or]
        by_cases hs : s = t
        · rw [if_pos hs, ih hl h2 fun x hx => hk x (List.mem_cons_of_mem _ hx)]
          simp [hs]
        · rw [if_neg hs]
          simp [Ne.symm hs]

/-- The placeholder of a query parameter with what it stands for. -/
def qPair (qm : SMap Param) (e : Str × List Str) : Option (Str × Str) :=
  match qm.load e.1 with
  | some p => if p.isPlaceholder then some (p.name, e.2.headD []) else none
  | none => none

/-- The rule has the query parameter, and it fits. -/
def QFits (qm : SMap Param) (e : Str × List Str) : Prop :=
  ∃ v p, e.2 = [v] ∧ qm.load e.1 = some p ∧ (p.isPlaceholder = true ∨ v = p.name)

theorem matchQueries_iff {qm : SMap Param} {q : SMap (List Str)} : ∀ {m0 m : SMap Str}, ((q.filterMap (qPair qm)).map (·.1)).Nodup →
    (∀ e ∈ q.filterMap (qPair qm), e.1 ∉ m0.keys) →
    (matchQueries qm q m0 = some m ↔ (∀ e ∈ q, QFits qm e) ∧ m = (q.filterMap (qPair qm)).reverse ++ m0) := by
  induction q with
  | nil => intro m0 m _ _; simp [matchQueries, eq_comm]
  | cons e q ih =>
    intro m0 m hn hk
    obtain ⟨k, vs⟩ := e
    by_cases hv : ∃ v, vs = [v]
    · obtain ⟨v, rfl⟩ := hv
      simp only [matchQueries]
      cases hl : qm.load k with
      | none =>
        refine ⟨fun h => by simp at h, ?_⟩
        rintro ⟨h, _⟩
        obtain ⟨_, p, _, h, _⟩ := h _ (List.mem_cons_self ..)
        simp only [hl] at h
        simp at h
      | some p =>
        cases hp : p.isPlaceholder with
        | true =>
          have hq : qPair qm (k, [v]) = some (p.name, v) := by simp [qPair, hl, hp]
          simp only [List.filterMap_cons, hq, List.map_cons, List.nodup_cons, List.mem_cons] at hn hk
          simp only [hp, if_true]
          rw [store_new (hk _ (.inl rfl)), ih hn.2]
          · simp only [List.filterMap_cons, hq, List.reverse_cons, List.append_assoc, List.mem_cons, forall_eq_or_imp]
            constructor
            · rintro ⟨h1, h2⟩; exact ⟨⟨⟨v, p, rfl, hl, .inl hp⟩, h1⟩, h2⟩
            · rintro ⟨⟨_, h1⟩, h2⟩; exact ⟨h1, h2⟩
          · intro e he
            simp only [SMap.keys, List.map_cons, List.mem_cons, not_or]
            refine ⟨?_, hk e (.inr he)⟩
            intro h
            exact hn.1 (List.mem_map.mpr ⟨e, he, h⟩)
        | false =>
          have hq : qPair qm (k, [v]) = none := by simp [qPair, hl, hp]
          simp only [List.filterMap_cons, hq] at hn hk
          simp only [hp, Bool.false_eq_true, if_false]
          by_cases hvn : v = p.name
          · rw [if_pos hvn, ih hn hk]
            simp only [List.filterMap_cons, hq, List.mem_cons, forall_eq_or_imp]
            constructor
            · rintro ⟨h1, h2⟩; exact ⟨⟨⟨v, p, rfl, hl, .inr hvn⟩, h1⟩, h2⟩
            · rintro ⟨⟨_, h1⟩, h2⟩; exact ⟨h1, h2⟩
          · rw [if_neg hvn]
            refine ⟨fun h => by simp at h, ?_⟩
            rintro ⟨h, _⟩
            obtain ⟨v', p', h1, h2, h3⟩ := h _ (List.mem_cons_self ..)
            simp only [List.cons.injEq, and_true] at h1
            subst h1
            simp only [hl, Option.some.injEq] at h2
            subst h2
            rcases h3 with h3 | h3
            · rw [hp] at h3; simp at h3
            · exact absurd h3 hvn
    · constructor
      · intro h
        unfold matchQueries at h
        split at h
        · exact absurd ⟨_, rfl⟩ hv
        · simp at h
      · rintro ⟨h, _⟩
        obtain ⟨v, _, h1, _⟩ := h _ (List.mem_cons_self ..)
        exact absurd ⟨v, h1⟩ hv

/-! ## One rule -/

theorem flat_key {qm : SMap (List Str)} (hp : (qm.flatMap (·.2)).Pairwise fun a b => ph a = true → a ≠ b) {k k' v : Str} (h : (k, [v]) ∈ qm)
    (h' : (k', [v]) ∈ qm) (hv : ph v = true) : k = k' := by
  induction qm with
  | nil => simp at h
  | cons e qm ih =>
    rw [List.flatMap_cons, List.pairwise_append] at hp
    obtain ⟨_, h2, h3⟩ := hp
    rcases List.mem_cons.mp h with h | h <;> rcases List.mem_cons.mp h' with h' | h'
    · rw [← h] at h'; simp only [Prod.mk.injEq, and_true] at h'; exact h'.symm
    · exact absurd rfl (h3 v (by rw [← h]; simp) v (List.mem_flatMap.mpr ⟨_, h', by simp⟩) hv)
    · exact absurd rfl (h3 v (by rw [← h']; simp) v (List.mem_flatMap.mpr ⟨_, h, by simp⟩) hv)
    · exact ih h2 h h'

/-- The compiled query parameters. -/
theorem load_qvm {qm qm' : SMap (List Str)} (hperm : qm'.Perm qm) (hk : qm.keys.Nodup) (hs : ∀ e ∈ qm, ∃ v, e.2 = [v]) {k : Str} {p : Param} :
    SMap.load (qm'.map qEntry).reverse k = some p ↔ ∃ v, (k, [v]) ∈ qm ∧ p = toParam v := by
  have hkeys : SMap.keys (qm'.map qEntry).reverse = qm'.keys.reverse := by
    simp only [SMap.keys, List.map_reverse, List.map_map]
    rfl
  rw [load_iff_mem]
  · simp only [List.mem_reverse, List.mem_map, qEntry, Prod.mk.injEq]
    constructor
    · rintro ⟨e, he, rfl, rfl⟩
      have he := hperm.mem_iff.mp he
      obtain ⟨v, hv⟩ := hs e he
      refine ⟨v, ?_, by rw [hv]; rfl⟩
      rw [← hv]
      exact he
    · rintro ⟨v, h, rfl⟩
      exact ⟨_, hperm.mem_iff.mpr h, rfl, rfl⟩
  · rw [hkeys, nodup_rev]
    exact (keys_perm hperm).nodup_iff.mpr hk

theorem aligned_length {α β : Type} {R : α → β → Prop} : ∀ {l : List α} {l' : List β}, Aligned R l l' → l.length = l'.length := by
  intro l
  induction l with
  | nil => intro l' h; cases l' with | nil => rfl | cons _ _ => exact h.elim
  | cons a as ih => intro l' h; cases l' with | nil => exact h.elim | cons b bs => simp [ih h.2]

theorem aligned_imp {α β : Type} {R S : α → β → Prop} : ∀ {l : List α} {l' : List β}, (∀ a ∈ l, ∀ b, R a b → S a b) → Aligned R l l' →
    Aligned S l l' := by
  intro l
  induction l with
  | nil => intro l' _ h; cases l' with | nil => trivial | cons _ _ => exact h.elim
  | cons a as ih =>
    intro l' hi h
    cases l' with
    | nil => exact h.elim
    | cons b bs => exact ⟨hi a (List.mem_cons_self ..) b h.1, ih (fun a ha => hi a (List.mem_cons_of_mem _ ha)) h.2⟩

/-- A rule that was accepted, with its parts. -/
structure Compiled (pq : QueryParser) (r r' : Rule) (segs : List Str) (qm : SMap (List Str)) : Prop where
  parts : RuleParts pq r segs qm
  ok : PartsOk segs qm
  keys : qm.keys.Nodup
  paths : r'.splitPaths = segs.map toParam
  queries : ∃ qm' : SMap (List Str), qm'.Perm qm ∧ r'.queryValueMap = (qm'.map qEntry).reverse
  method : r'.method = r.method
  action : r'.action = r.action
  resource : r'.resource = r.resource

theorem compiled_of {pq : QueryParser} (hpq : pq.Ok) {ord : SMap (List Str) → SMap (List Str)} (ho : ∀ m, (ord m).Perm m) {r r' : Rule}
    (h : r.compile pq ord = .ok r') : ∃ segs qm, Compiled pq r r' segs qm := by
  obtain ⟨_, _, segs, qm, h1, h2, _, rfl⟩ := (compile_iff hpq ho).mp h
  exact ⟨segs, qm, h1, h2, ruleParts_keys hpq h1, rfl, ⟨_, ho qm, rfl⟩, rfl, rfl, rfl⟩

theorem Compiled.load {pq : QueryParser} {r r' : Rule} {segs : List Str} {qm : SMap (List Str)} (h : Compiled pq r r' segs qm) {k : Str} {p : Param} :
    r'.queryValueMap.load k = some p ↔ ∃ v, (k, [v]) ∈ qm ∧ p = toParam v := by
  obtain ⟨qm', h1, h2⟩ := h.queries
  rw [h2]
  exact load_qvm h1 h.keys h.ok.single

theorem Compiled.length {pq : QueryParser} {r r' : Rule} {segs : List Str} {qm : SMap (List Str)} (h : Compiled pq r r' segs qm) :
    r'.queryValueMap.length = qm.length := by
  obtain ⟨qm', h1, h2⟩ := h.queries
  rw [h2, List.length_reverse, List.length_map, h1.length_eq]

theorem Compiled.isPh {pq : QueryParser} {r r' : Rule} {segs : List Str} {qm : SMap (List Str)} (h : Compiled pq r r' segs qm) {s : Str}
    (hs : s ∈ segs ∨ ∃ k, (k, [s]) ∈ qm) : ph s = true ↔ IsPh s := by
  apply ph_iff
  rintro rfl
  apply h.ok.noEmpty
  rcases hs with hs | ⟨k, hs⟩
  · exact List.mem_append_left _ hs
  · exact List.mem_append_right _ (List.mem_flatMap.mpr ⟨_, hs, by simp [emptyPh]⟩)

/-- The conditions of lines 141-178. -/
theorem Compiled.matches_iff {pq : QueryParser} {U : CaseFns} {r r' : Rule} {segs : List Str} {qm : SMap (List Str)} (h : Compiled pq r r' segs qm)
    {method path : Str} {rq : SMap (List Str)} (hrq : rq.keys.Nodup) :
    Matches pq U r method path rq ↔ U.toLower r'.method = U.toLower method ∧ segs.length = (Str.split '/' path).length ∧ rq.length = qm.length ∧
      Aligned (fun t s => ph t = true ∨ t = s) segs (Str.split '/' path) ∧ ∀ e ∈ rq, QFits r'.queryValueMap e := by
  have mkey : ∀ {V : Type} {m : SMap V} {k : Str}, k ∈ m.keys ↔ ∃ v, (k, v) ∈ m := by
    intro V m k
    simp only [SMap.keys, List.mem_map]
    exact ⟨fun ⟨e, he, hk⟩ => ⟨e.2, by rw [← hk]; exact he⟩, fun ⟨v, hv⟩ => ⟨_, hv, rfl⟩⟩
  have klen : ∀ {V : Type} (m : SMap V), m.keys.length = m.length := fun m => by simp [SMap.keys]
  constructor
  · rintro ⟨h1, segs', qm', reqSegs, h2, h3, h4, h5, h6⟩
    obtain ⟨rfl, rfl⟩ := ruleParts_unique h.parts h2
    have h3 := splitInto_iff.mp h3
    subst h3
    refine ⟨?_, aligned_length h4, ?_, ?_, ?_⟩
    · rw [h.method]; exact h1
    · have s1 : rq.keys ⊆ qm.keys := fun k hk => mkey.mpr ((h5 k).mpr (mkey.mp hk))
      have s2 : qm.keys ⊆ rq.keys := fun k hk => mkey.mpr ((h5 k).mp (mkey.mp hk))
      have l1 := hrq.length_le_of_subset s1
      have l2 := h.keys.length_le_of_subset s2
      rw [klen, klen] at l1 l2
      omega
    · refine aligned_imp ?_ h4
      intro a ha b hab
      exact hab.imp (h.isPh (.inl ha)).mpr id
    · intro e he
      obtain ⟨vs, hvs⟩ := (h5 e.1).mpr ⟨e.2, he⟩
      obtain ⟨v, w, rfl, hw, hf⟩ := h6 e.1 vs e.2 hvs he
      refine ⟨w, toParam v, hw, h.load.mpr ⟨v, hvs, rfl⟩, ?_⟩
      exact hf.imp (h.isPh (.inr ⟨_, hvs⟩)).mpr Eq.symm
  · rintro ⟨h1, h2, h3, h4, h5⟩
    have hsub : rq.keys ⊆ qm.keys := by
      intro k hk
      obtain ⟨vs, hvs⟩ := mkey.mp hk
      obtain ⟨v, p, _, hl, _⟩ := h5 _ hvs
      obtain ⟨w, hw, _⟩ := h.load.mp hl
      exact mkey.mpr ⟨_, hw⟩
    have hsub' := subset_of_length hrq hsub (by rw [klen, klen]; omega)
    refine ⟨?_, segs, qm, _, h.parts, splitInto_iff.mpr rfl, aligned_imp ?_ h4, fun k => ⟨fun hk => mkey.mp (hsub' (mkey.mpr hk)), fun hk => mkey.mp (hsub (mkey.mpr hk))⟩, ?_⟩
    · rw [h.method] at h1; exact h1
    · intro a ha b hab
      exact hab.imp (h.isPh (.inl ha)).mp id
    · intro k vs ws hvs hws
      obtain ⟨w, p, hw, hl, hf⟩ := h5 _ hws
      obtain ⟨v, hv, rfl⟩ := h.load.mp hl
      obtain ⟨v', hv'⟩ := h.ok.single _ hvs
      simp only at hv' hw hv
      subst hv'
      have : v' = v := by
        have e1 := (load_iff_mem h.keys).mpr hvs
        have e2 := (load_iff_mem h.keys).mpr hv
        rw [e1] at e2
        simpa using e2
      subst this
      exact ⟨_, w, rfl, hw, hf.imp (h.isPh (.inr ⟨_, hv⟩)).mp Eq.symm⟩

/-- The placeholders found. -/
theorem Compiled.pairs {pq : QueryParser} {r r' : Rule} {segs : List Str} {qm : SMap (List Str)} (h : Compiled pq r r' segs qm) {path : Str}
    {rq rq' : SMap (List Str)} (hrq : rq.keys.Nodup) (hp : rq'.Perm rq) :
    ((rq'.filterMap (qPair r'.queryValueMap)).map (·.1)).Nodup ∧
    (∀ e ∈ rq'.filterMap (qPair r'.queryValueMap), e.1 ∉ (phPairs segs (Str.split '/' path)).map (·.1)) ∧
    ((∀ e ∈ rq, QFits r'.queryValueMap e) → ∀ n v, (n, v) ∈ (rq'.filterMap (qPair r'.queryValueMap)).reverse ++ (phPairs segs (Str.split '/' path)).reverse ↔
      Binds pq r path rq n v) := by
  have hq : ∀ {e : Str × List Str} {x : Str × Str}, qPair r'.queryValueMap e = some x ↔ ph x.1 = true ∧ (e.1, [x.1]) ∈ qm ∧ x.2 = e.2.headD [] := by
    intro e x
    unfold qPair
    cases hl : r'.queryValueMap.load e.1 with
    | none =>
      refine ⟨fun h => by simp at h, ?_⟩
      rintro ⟨_, hm, _⟩
      rw [h.load.mpr ⟨_, hm, rfl⟩] at hl
      simp at hl
    | some p =>
      obtain ⟨v, hv, rfl⟩ := h.load.mp hl
      have uniq : ∀ w, (e.1, [w]) ∈ qm → w = v := by
        intro w hw
        have e1 := (load_iff_mem h.keys).mpr hw
        rw [(load_iff_mem h.keys).mpr hv] at e1
        simpa using e1.symm
      cases hpv : ph v with
      | true =>
        simp only [toParam, hpv, if_true, Option.some.injEq]
        constructor
        · rintro rfl; exact ⟨hpv, hv, rfl⟩
        · rintro ⟨_, h2, h3⟩; rw [← uniq _ h2, ← h3]
      | false =>
        simp only [toParam, hpv, Bool.false_eq_true, if_false]
        refine ⟨fun h => by simp at h, ?_⟩
        rintro ⟨h1, h2, _⟩
        rw [uniq _ h2, hpv] at h1
        simp at h1
  have hpw := h.ok.nodup
  rw [ruleTexts, List.pairwise_append] at hpw
  obtain ⟨_, hpq2, hcross⟩ := hpw
  refine ⟨?_, ?_, ?_⟩
  · rw [List.nodup_iff_pairwise_ne, List.pairwise_map, List.pairwise_filterMap]
    have hk : rq'.Pairwise fun e e' => e.1 ≠ e'.1 := by
      have := (keys_perm hp).nodup_iff.mpr hrq
      rw [SMap.keys, List.nodup_iff_pairwise_ne, List.pairwise_map] at this
      exact this
    refine hk.imp ?_
    intro e e' hne x hx y hy heq
    obtain ⟨a1, a2, _⟩ := hq.mp hx
    obtain ⟨b1, b2, _⟩ := hq.mp hy
    rw [← heq] at b2
    exact hne (flat_key hpq2 a2 b2 a1)
  · intro x hx hm
    obtain ⟨e, he, hex⟩ := List.mem_filterMap.mp hx
    obtain ⟨a1, a2, _⟩ := hq.mp hex
    obtain ⟨y, hy, hyx⟩ := List.mem_map.mp hm
    exact hcross y.1 (phPairs_fst hy).1 x.1 (List.mem_flatMap.mpr ⟨_, a2, by simp⟩) (phPairs_fst hy).2 hyx
  · intro hfit n v
    rw [List.mem_append, List.mem_reverse, List.mem_reverse, phPairs_mem, List.mem_filterMap]
    constructor
    · rintro (⟨e, he, hex⟩ | ⟨h1, i, h2, h3⟩)
      · obtain ⟨a1, a2, a3⟩ := hq.mp hex
        have he := hp.mem_iff.mp he
        obtain ⟨w, _, hw, _⟩ := hfit e he
        refine ⟨(h.isPh (.inr ⟨_, a2⟩)).mp a1, segs, qm, _, h.parts, splitInto_iff.mpr rfl, .inr ⟨e.1, a2, ?_⟩⟩
        have : e.2 = [v] := by rw [hw] at a3 ⊢; simp only [List.headD_cons] at a3; rw [a3]
        rw [← this]
        exact he
      · exact ⟨(h.isPh (.inl (List.mem_of_getElem? h2))).mp h1, segs, qm, _, h.parts, splitInto_iff.mpr rfl, .inl ⟨i, h2, h3⟩⟩
    · rintro ⟨h1, segs', qm', reqSegs, h2, h3, h4⟩
      obtain ⟨rfl, rfl⟩ := ruleParts_unique h.parts h2
      have h3 := splitInto_iff.mp h3
      subst h3
      rcases h4 with ⟨i, h4, h5⟩ | ⟨k, h4, h5⟩
      · exact .inr ⟨(h.isPh (.inl (List.mem_of_getElem? h4))).mpr h1, i, h4, h5⟩
      · exact .inl ⟨_, hp.mem_iff.mpr h5, hq.mpr ⟨(h.isPh (.inr ⟨_, h4⟩)).mpr h1, h4, rfl⟩⟩

/-- What one rule makes of a request with a query. -/
theorem Compiled.apply {pq : QueryParser} (hpq : pq.Ok) {U : CaseFns} {o : MapOrder} {i : Nat} {r r' : Rule} {segs : List Str} {qm : SMap (List Str)}
    (h : Compiled pq r r' segs qm) {method path query : Str} {rq : SMap (List Str)} (hq : pq query = some rq) :
    (Matches pq U r method path rq ∧ ∃ l : SMap Str, l.keys.Nodup ∧ (∀ n v, (n, v) ∈ l ↔ Binds pq r path rq n v) ∧
        r'.apply pq U o i method path query = some (.ok (r.action, substitute r.resource l))) ∨
      (¬ Matches pq U r method path rq ∧ r'.apply pq U o i method path query = none) := by
  have hrq := hpq _ _ hq
  have hperm := o.perm [0, i] rq
  rw [h.matches_iff hrq]
  unfold Rule.apply
  by_cases c1 : U.toLower r'.method = U.toLower method
  case neg => rw [if_neg c1]; exact .inr ⟨fun hm => c1 hm.1, rfl⟩
  rw [if_pos c1]
  by_cases c2 : (Str.split '/' path).length ≠ r'.splitPaths.length
  case pos =>
    rw [if_pos c2]
    refine .inr ⟨fun hm => c2 ?_, rfl⟩
    rw [h.paths, List.length_map]
    exact hm.2.1.symm
  rw [if_neg c2, hq]
  have c2' : segs.length = (Str.split '/' path).length := by
    rw [h.paths, List.length_map] at c2
    omega
  simp only
  by_cases c3 : rq.length ≠ r'.queryValueMap.length
  case pos =>
    rw [if_pos c3]
    refine .inr ⟨fun hm => c3 ?_, rfl⟩
    rw [h.length]
    exact hm.2.2.1
  rw [if_neg c3]
  have c3' : rq.length = qm.length := by rw [← h.length]; omega
  have hnd := h.ok.nodup
  rw [ruleTexts, List.pairwise_append] at hnd
  rw [h.paths]
  have hmp := fun m => matchPaths_iff (m := m) (m0 := []) c2' hnd.1 (by simp [SMap.keys])
  cases hm : matchPaths (segs.map toParam) (Str.split '/' path) [] with
  | none =>
    refine .inr ⟨?_, rfl⟩
    rintro ⟨_, _, _, h4, _⟩
    have := (hmp _).mpr ⟨h4, rfl⟩
    rw [hm] at this
    simp at this
  | some m =>
    obtain ⟨a1, a2⟩ := (hmp m).mp hm
    simp only [List.append_nil] at a2
    subst a2
    simp only
    obtain ⟨p1, p2, p3⟩ := h.pairs (path := path) hrq hperm
    have hmq := fun m => matchQueries_iff (qm := r'.queryValueMap) (q := o.at' [0, i] rq) (m0 := (phPairs segs (Str.split '/' path)).reverse) (m := m) p1
      (by intro e he hk; refine p2 e he ?_; simp only [SMap.keys, List.map_reverse, List.mem_reverse] at hk; exact hk)
    cases hm2 : matchQueries r'.queryValueMap (o.at' [0, i] rq) (phPairs segs (Str.split '/' path)).reverse with
    | none =>
      refine .inr ⟨?_, rfl⟩
      rintro ⟨_, _, _, _, h5⟩
      have := (hmq _).mpr ⟨fun e he => h5 e (hperm.mem_iff.mp he), rfl⟩
      rw [hm2] at this
      simp at this
    | some m2 =>
      obtain ⟨b1, rfl⟩ := (hmq m2).mp hm2
      have b1' : ∀ e ∈ rq, QFits r'.queryValueMap e := fun e he => b1 e (hperm.mem_iff.mpr he)
      refine .inl ⟨⟨c1, c2', c3', a1, b1'⟩, o.at' [1, i] ((List.filterMap (qPair r'.queryValueMap) (o.at' [0, i] rq)).reverse ++ (phPairs segs (Str.split '/' path)).reverse), ?_, ?_, ?_⟩
      · refine (keys_perm (o.perm [1, i] _)).nodup_iff.mpr ?_
        simp only [SMap.keys, List.map_append, List.map_reverse]
        rw [List.nodup_append]
        refine ⟨nodup_rev.mpr p1, nodup_rev.mpr (phPairs_nodup hnd.1), ?_⟩
        rintro a ha b hb rfl
        rw [List.mem_reverse] at ha hb
        obtain ⟨e, he, rfl⟩ := List.mem_map.mp ha
        exact p2 e he hb
      · intro n v
        rw [(o.perm [1, i] _).mem_iff]
        exact p3 b1' n v
      · simp only
        rw [h.action, h.resource]

/-- What one rule makes of a request with a query that cannot be parsed. -/
theorem Compiled.apply_bad {pq : QueryParser} {U : CaseFns} {o : MapOrder} {i : Nat} {r r' : Rule} {segs : List Str} {qm : SMap (List Str)}
    (h : Compiled pq r r' segs qm) {method path query : Str} (hq : pq query = none) :
    (SameShape pq U r method path ∧ r'.apply pq U o i method path query = some (.err (.other "url.ParseQuery"))) ∨
      (¬ SameShape pq U r method path ∧ r'.apply pq U o i method path query = none) := by
  unfold Rule.apply
  by_cases c1 : U.toLower r'.method = U.toLower method
  case neg =>
    rw [if_neg c1]
    refine .inr ⟨fun hm => c1 ?_, rfl⟩
    rw [h.method]
    exact hm.1
  rw [if_pos c1]
  by_cases c2 : (Str.split '/' path).length ≠ r'.splitPaths.length
  case pos =>
    rw [if_pos c2]
    refine .inr ⟨?_, rfl⟩
    rintro ⟨_, segs', qm', reqSegs, h2, h3, h4⟩
    obtain ⟨rfl, rfl⟩ := ruleParts_unique h.parts h2
    have h3 := splitInto_iff.mp h3
    subst h3
    apply c2
    rw [h.paths, List.length_map]
    exact h4.symm
  rw [if_neg c2, hq]
  refine .inl ⟨⟨?_, segs, qm, _, h.parts, splitInto_iff.mpr rfl, ?_⟩, rfl⟩
  · rw [h.method] at c1; exact c1
  · rw [h.paths, List.length_map] at c2
    omega

/-! ## All rules -/

/-- The compiled rules, one by one. -/
theorem compileRules_iff {pq : QueryParser} {o : MapOrder} {d : Nat} {rs : List Rule} : ∀ {i : Nat} {rs' : List Rule}, compileRules pq o d i rs = .ok rs' →
    Aligned (fun r r' => ∃ j, r.compile pq (o.at' [d, j]) = .ok r') rs rs' := by
  induction rs with
  | nil => intro i rs' h; simp only [compileRules, Res.ok.injEq] at h; subst h; trivial
  | cons r rs ih =>
    intro i rs' h
    simp only [compileRules] at h
    split at h
    · rename_i r' hr
      split at h
      · rename_i rs'' hrs
        simp only [Res.ok.injEq] at h
        subst h
        exact ⟨⟨i, hr⟩, ih hrs⟩
      all_goals simp at h
    all_goals simp at h

theorem compileRules_ok {pq : QueryParser} {o : MapOrder} {d : Nat} {rs : List Rule} (h : ∀ r ∈ rs, ∀ j, ∃ r', r.compile pq (o.at' [d, j]) = .ok r') :
    ∀ i, ∃ rs', compileRules pq o d i rs = .ok rs' := by
  induction rs with
  | nil => intro i; exact ⟨[], rfl⟩
  | cons r rs ih =>
    intro i
    obtain ⟨r', hr⟩ := h r (List.mem_cons_self ..) i
    obtain ⟨rs', hrs⟩ := ih (fun r hr => h r (List.mem_cons_of_mem _ hr)) (i + 1)
    exact ⟨r' :: rs', by simp only [compileRules, hr, hrs]⟩

theorem compileRules_no_panic (pq : QueryParser) (o : MapOrder) (d : Nat) (rs : List Rule) : ∀ i, compileRules pq o d i rs ≠ .panic := by
  induction rs with
  | nil => intro i; simp [compileRules]
  | cons r rs ih =>
    intro i
    simp only [compileRules]
    split
    · split
      · simp
      · simp
      · rename_i h; exact absurd h (ih _)
    · simp
    · rename_i h; exact absurd h (compile_no_panic _ _ _)

/-- The domain has a name and rules, which compile. -/
def DomOk (pq : QueryParser) (o : MapOrder) (e e' : Str × Option (List Rule)) : Prop :=
  e.1 ≠ [] ∧ e'.1 = e.1 ∧ ∃ rs rs', e.2 = some rs ∧ e'.2 = some rs' ∧ ∃ d, Aligned (fun r r' => ∃ j, r.compile pq (o.at' [d, j]) = .ok r') rs rs'

theorem compileDomains_iff {pq : QueryParser} {o : MapOrder} {m : RuleSet} : ∀ {d : Nat} {m' : RuleSet}, compileDomains pq o d m = .ok m' →
    Aligned (DomOk pq o) m m' := by
  induction m with
  | nil => intro d m' h; simp only [compileDomains, Res.ok.injEq] at h; subst h; trivial
  | cons e m ih =>
    intro d m' h
    obtain ⟨k, v⟩ := e
    simp only [compileDomains] at h
    split at h
    · simp at h
    · rename_i hk
      split at h
      · simp at h
      · rename_i rs
        split at h
        · rename_i rs' hrs
          split at h
          · rename_i m'' hm
            simp only [Res.ok.injEq] at h
            subst h
            exact ⟨⟨hk, rfl, rs, rs', rfl, rfl, d, compileRules_iff hrs⟩, ih hm⟩
          all_goals simp at h
        all_goals simp at h

theorem compileDomains_ok {pq : QueryParser} {o : MapOrder} {m : RuleSet}
    (h : ∀ k v, (k, v) ∈ m → k ≠ [] ∧ ∃ rs, v = some rs ∧ ∀ r ∈ rs, ∀ i, ∃ r', r.compile pq (o.at' i) = .ok r') :
    ∀ d, ∃ m', compileDomains pq o d m = .ok m' := by
  induction m with
  | nil => intro d; exact ⟨[], rfl⟩
  | cons e m ih =>
    intro d
    obtain ⟨k, v⟩ := e
    obtain ⟨hk, rs, rfl, hrs⟩ := h k v (List.mem_cons_self ..)
    obtain ⟨rs', h1⟩ := compileRules_ok (pq := pq) (o := o) (d := d) (fun r hr j => hrs r hr [d, j]) 0
    obtain ⟨m', h2⟩ := ih (fun k v hkv => h k v (List.mem_cons_of_mem _ hkv)) (d + 1)
    exact ⟨(k, some rs') :: m', by simp only [compileDomains, if_neg hk, h1, h2]⟩

theorem compileDomains_no_panic (pq : QueryParser) (o : MapOrder) (m : RuleSet) : ∀ d, compileDomains pq o d m ≠ .panic := by
  induction m with
  | nil => intro d; simp [compileDomains]
  | cons e m ih =>
    intro d
    obtain ⟨k, v⟩ := e
    simp only [compileDomains]
    split
    · simp
    · split
      · simp
      · split
        · split
          · simp
          · simp
          · rename_i h; exact absurd h (ih _)
        · simp
        · rename_i h; exact absurd h (compileRules_no_panic _ _ _ _ _)

theorem aligned_left {α β : Type} {R : α → β → Prop} : ∀ {l : List α} {l' : List β}, Aligned R l l' → ∀ a ∈ l, ∃ b ∈ l', R a b := by
  intro l
  induction l with
  | nil => intro l' _ a ha; simp at ha
  | cons x xs ih =>
    intro l' h a ha
    cases l' with
    | nil => exact h.elim
    | cons y ys =>
      rcases List.mem_cons.mp ha with rfl | ha
      · exact ⟨y, List.mem_cons_self .., h.1⟩
      · obtain ⟨b, hb, hr⟩ := ih h.2 a ha
        exact ⟨b, List.mem_cons_of_mem _ hb, hr⟩

theorem aligned_right {α β : Type} {R : α → β → Prop} : ∀ {l : List α} {l' : List β}, Aligned R l l' → ∀ b ∈ l', ∃ a ∈ l, R a b := by
  intro l
  induction l with
  | nil => intro l' h b hb; cases l' with | nil => simp at hb | cons _ _ => exact h.elim
  | cons x xs ih =>
    intro l' h b hb
    cases l' with
    | nil => exact h.elim
    | cons y ys =>
      rcases List.mem_cons.mp hb with rfl | hb
      · exact ⟨x, List.mem_cons_self .., h.1⟩
      · obtain ⟨a, ha, hr⟩ := ih h.2 b hb
        exact ⟨a, List.mem_cons_of_mem _ ha, hr⟩

/-- The rules of a domain after validation. -/
theorem domain_rules {pq : QueryParser} {o : MapOrder} : ∀ {m m' : RuleSet}, Aligned (DomOk pq o) m m' → ∀ {k : Str} {rs : List Rule}, m.load k = some (some rs) →
    ∃ rs' d, m'.load k = some (some rs') ∧ Aligned (fun r r' => ∃ j, r.compile pq (o.at' [d, j]) = .ok r') rs rs' := by
  intro m
  induction m with
  | nil => intro m' _ k rs h; simp [SMap.load] at h
  | cons e m ih =>
    intro m' ha k rs h
    cases m' with
    | nil => exact ha.elim
    | cons e' m' =>
      obtain ⟨⟨_, h2, rs1, rs1', h3, h4, d, h5⟩, hrest⟩ := ha
      rw [SMap.load_cons] at h ⊢
      rw [h2]
      by_cases hk : e.1 = k
      · rw [if_pos hk] at h ⊢
        rw [h3] at h
        simp only [Option.some.injEq] at h
        subst h
        exact ⟨rs1', d, by rw [h4], h5⟩
      · rw [if_neg hk] at h ⊢
        exact ih hrest h

theorem domain_none {pq : QueryParser} {o : MapOrder} : ∀ {m m' : RuleSet}, Aligned (DomOk pq o) m m' → ∀ {k : Str}, m.load k = none → m'.load k = none := by
  intro m
  induction m with
  | nil => intro m' ha k h; cases m' with | nil => exact h | cons _ _ => exact ha.elim
  | cons e m ih =>
    intro m' ha k h
    cases m' with
    | nil => exact ha.elim
    | cons e' m' =>
      obtain ⟨⟨_, h2, _⟩, hrest⟩ := ha
      rw [SMap.load_cons] at h ⊢
      rw [h2]
      by_cases hk : e.1 = k
      · rw [if_pos hk] at h; simp at h
      · rw [if_neg hk] at h ⊢
        exact ih hrest h

theorem load_perm {V : Type} {m m' : SMap V} (hp : m.Perm m') (hn : m.keys.Nodup) (k : Str) : m.load k = m'.load k := by
  have hn' := (keys_perm hp).nodup_iff.mp hn
  cases h : m'.load k with
  | some v => exact (load_iff_mem hn).mpr (hp.mem_iff.mpr ((load_iff_mem hn').mp h))
  | none =>
    cases h' : m.load k with
    | none => rfl
    | some v => rw [(load_iff_mem hn').mpr (hp.mem_iff.mp ((load_iff_mem hn).mp h'))] at h; simp at h

end Athenz
