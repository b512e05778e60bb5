import Verif.Spec.RuleFault
import Verif.Props.Translator

/-! # C48: the error of NewMappingRules -/

namespace Athenz

open Spec

theorem isPlaceholder_err {r : Rule} {s : Str} {e : Err} (h : r.isPlaceholder s = .err e) :
    (e = .other "placeholder is empty" ∧ s = emptyPh) ∨
    (e = .other "placeholder is duplicated" ∧ s ≠ emptyPh ∧ ph s = true ∧ ((⟨s, true⟩ : Param) ∈ r.splitPaths ∨ ∃ k, (k, (⟨s, true⟩ : Param)) ∈ r.queryValueMap)) := by
  unfold Rule.isPlaceholder at h
  split at h
  · rename_i h0
    exact .inl ⟨by simpa using h.symm, h0⟩
  · rename_i h0
    split at h
    · rename_i hp
      split at h
      · rename_i h1
        obtain ⟨⟨n, b⟩, h2, h3⟩ := List.any_eq_true.mp h1
        simp only [Bool.and_eq_true, beq_iff_eq] at h3
        obtain ⟨rfl, rfl⟩ := h3
        exact .inr ⟨by simpa using h.symm, h0, hp, .inl h2⟩
      · split at h
        · rename_i h1
          obtain ⟨⟨k, n, b⟩, h2, h3⟩ := List.any_eq_true.mp h1
          simp only [Bool.and_eq_true, beq_iff_eq] at h3
          obtain ⟨rfl, rfl⟩ := h3
          exact .inr ⟨by simpa using h.symm, h0, hp, .inr ⟨k, h2⟩⟩
        · simp at h
    · simp at h

theorem isPlaceholder_ok {r : Rule} {s : Str} {b : Bool} (h : r.isPlaceholder s = .ok b) : (⟨s, b⟩ : Param) = toParam s := by
  rw [(isPlaceholder_iff.mp h).2.1]
  rfl

theorem addPaths_err {ss : List Str} : ∀ {r : Rule} {e : Err}, r.addPaths ss = .err e →
    (e = .other "placeholder is empty" ∧ emptyPh ∈ ss) ∨
    (e = .other "placeholder is duplicated" ∧ ∃ pre a post, ss = pre ++ a :: post ∧ IsPh a ∧
      (a ∈ pre ∨ (⟨a, true⟩ : Param) ∈ r.splitPaths ∨ ∃ k, (k, (⟨a, true⟩ : Param)) ∈ r.queryValueMap)) := by
  induction ss with
  | nil => intro r e h; simp [Rule.addPaths] at h
  | cons s ss ih =>
    intro r e h
    simp only [Rule.addPaths] at h
    split at h
    · rename_i b hb
      rw [isPlaceholder_ok hb] at h
      rcases ih h with ⟨h1, h2⟩ | ⟨h1, pre, a, post, rfl, h3, h4⟩
      · exact .inl ⟨h1, List.mem_cons_of_mem _ h2⟩
      · refine .inr ⟨h1, s :: pre, a, post, rfl, h3, ?_⟩
        rcases h4 with h4 | h4 | h4
        · exact .inl (List.mem_cons_of_mem _ h4)
        · rcases List.mem_append.mp h4 with h4 | h4
          · exact .inr (.inl h4)
          · simp only [List.mem_singleton, toParam, Param.mk.injEq] at h4
            exact .inl (by rw [h4.1]; exact List.mem_cons_self)
        · exact .inr (.inr h4)
    · rename_i e' he
      simp only [Res.err.injEq] at h
      subst h
      rcases isPlaceholder_err he with ⟨h1, h2⟩ | ⟨h1, h2, h3, h4⟩
      · exact .inl ⟨h1, by rw [h2]; exact List.mem_cons_self⟩
      · exact .inr ⟨h1, [], s, ss, rfl, (ph_iff h2).mp h3, .inr h4⟩
    · simp at h

theorem addQueries_err {m : SMap (List Str)} : ∀ {r : Rule} {e : Err}, r.addQueries m = .err e →
    (e = .other "query multiple values is not allowed" ∧ ∃ k vs, (k, vs) ∈ m ∧ ∀ v, vs ≠ [v]) ∨
    (e = .other "placeholder is empty" ∧ emptyPh ∈ m.flatMap (·.2)) ∨
    (e = .other "placeholder is duplicated" ∧ ∃ pre a post, m.flatMap (·.2) = pre ++ a :: post ∧ IsPh a ∧
      (a ∈ pre ∨ (⟨a, true⟩ : Param) ∈ r.splitPaths ∨ ∃ k, (k, (⟨a, true⟩ : Param)) ∈ r.queryValueMap)) := by
  induction m with
  | nil => intro r e h; simp [Rule.addQueries] at h
  | cons x m ih =>
    intro r e h
    obtain ⟨k, vs⟩ := x
    unfold Rule.addQueries at h
    split at h
    · rename_i v
      split at h
      · rename_i b hb
        rw [isPlaceholder_ok hb] at h
        rcases ih h with ⟨h1, k', vs', h2, h3⟩ | ⟨h1, h2⟩ | ⟨h1, pre, a, post, h2, h3, h4⟩
        · exact .inl ⟨h1, k', vs', List.mem_cons_of_mem _ h2, h3⟩
        · exact .inr (.inl ⟨h1, by rw [List.flatMap_cons]; exact List.mem_append_right _ h2⟩)
        · refine .inr (.inr ⟨h1, v :: pre, a, post, by rw [List.flatMap_cons, h2]; rfl, h3, ?_⟩)
          rcases h4 with h4 | h4 | ⟨k', h4⟩
          · exact .inl (List.mem_cons_of_mem _ h4)
          · exact .inr (.inl h4)
          · rcases List.mem_cons.mp h4 with h4 | h4
            · simp only [toParam, Prod.mk.injEq, Param.mk.injEq] at h4
              exact .inl (by rw [h4.2.1]; exact List.mem_cons_self)
            · exact .inr (.inr ⟨k', (List.mem_filter.mp h4).1⟩)
      · rename_i e' he
        simp only [Res.err.injEq] at h
        subst h
        rcases isPlaceholder_err he with ⟨h1, h2⟩ | ⟨h1, h2, h3, h4⟩
        · exact .inr (.inl ⟨h1, by rw [List.flatMap_cons, ← h2]; simp⟩)
        · exact .inr (.inr ⟨h1, [], v, m.flatMap (·.2), rfl, (ph_iff h2).mp h3, .inr h4⟩)
      · simp at h
    · rename_i hv
      simp only [Res.err.injEq] at h
      exact .inl ⟨h.symm, k, vs, List.mem_cons_self, fun v hv' => hv v (by rw [hv'])⟩

theorem two_le_count {a : Str} {pre post : List Str} (h : a ∈ pre) : 2 ≤ (pre ++ a :: post).count a := by
  rw [List.count_append, List.count_cons_self]
  have := List.count_pos_iff.mpr h
  omega

/-- The segments of a rule as the loop sees them. -/
theorem ruleSegs_of {r : Rule} : RuleSegs r (Str.split '/' (match Str.cut "?".toList r.path with | some p => p.1 | none => r.path)) := by
  have e : "?".toList = ['?'] := rfl
  cases hc : Str.cut "?".toList r.path with
  | none => exact .inl ⟨Str.cut_singleton_none.mp hc, splitInto_iff.mpr rfl⟩
  | some p =>
    obtain ⟨h1, h2⟩ := Str.cut_singleton_iff.mp (e ▸ hc)
    exact .inr ⟨p.1, p.2, h1, h2, splitInto_iff.mpr rfl⟩

theorem compile_err {pq : QueryParser} {ord : SMap (List Str) → SMap (List Str)} (ho : ∀ m, (ord m).Perm m) {r : Rule} {e : Err}
    (h : r.compile pq ord = .err e) : RuleFault pq r e := by
  unfold Rule.compile at h
  split at h
  · rename_i h0
    simp only [Res.err.injEq] at h
    exact h ▸ .blank h0
  · split at h
    · rename_i h0
      simp only [Res.err.injEq] at h
      refine h ▸ .slash h0.1 ?_
      intro t ht
      have := h0.2
      rw [ht] at this
      revert this
      simp [Str.hasPrefix]
    · have hsegs := ruleSegs_of (r := r)
      simp only at h
      generalize hpath : Str.split '/' (match Str.cut "?".toList r.path with | some p => p.1 | none => r.path) = segs at h hsegs
      split at h
      · rename_i r1 h1
        obtain ⟨_, _, _, rfl⟩ := addPaths_iff.mp h1
        split at h
        · simp at h
        · rename_i p hc
          have hc' := Str.cut_singleton_iff.mp hc
          split at h
          · rename_i hq
            simp only [Res.err.injEq] at h
            exact h ▸ .query p.1 p.2 hc'.1 hc'.2 hq
          · rename_i m hq
            have hparts : RuleParts pq r segs m := ruleParts_iff.mpr (.inr ⟨p.1, p.2, hc, by rw [← hpath, hc], hq⟩)
            have hperm : ((ord m).flatMap (·.2)).Perm (m.flatMap (·.2)) := (ho m).flatMap_right _
            rcases addQueries_err h with ⟨rfl, k, vs, h2, h3⟩ | ⟨rfl, h2⟩ | ⟨rfl, pre, a, post, h2, h3, h4⟩
            · exact .values segs m k vs hparts ((ho m).mem_iff.mp h2) h3
            · exact .emptyQuery segs m hparts (hperm.mem_iff.mp h2)
            · refine .twice segs m a hparts h3 ?_
              rw [List.count_append, ← hperm.count_eq, h2]
              rcases h4 with h4 | h4 | ⟨k, h4⟩
              · have := two_le_count (post := post) h4
                omega
              · simp only [List.nil_append, List.mem_map, toParam, Param.mk.injEq] at h4
                obtain ⟨s, h5, rfl, _⟩ := h4
                have := List.count_pos_iff.mpr h5
                rw [List.count_append, List.count_cons_self]
                omega
              · simp at h4
      · rename_i e' he
        simp only [Res.err.injEq] at h
        subst h
        rcases addPaths_err he with ⟨rfl, h2⟩ | ⟨rfl, pre, a, post, rfl, h3, h4⟩
        · exact .emptyPath segs hsegs h2
        · rcases h4 with h4 | h4 | ⟨k, h4⟩
          · exact .twicePath _ a hsegs h3 (two_le_count h4)
          · simp at h4
          · exact .before _ k a hsegs h3 (by simp) h4
      · simp at h

theorem compileRules_err {pq : QueryParser} {o : MapOrder} {d : Nat} {rs : List Rule} : ∀ {i : Nat} {e : Err}, compileRules pq o d i rs = .err e →
    ∃ r ∈ rs, RuleFault pq r e := by
  induction rs with
  | nil => intro i e h; simp [compileRules] at h
  | cons r rs ih =>
    intro i e h
    simp only [compileRules] at h
    split at h
    · split at h
      · simp at h
      · rename_i e' he
        simp only [Res.err.injEq] at h
        subst h
        obtain ⟨r', h1, h2⟩ := ih he
        exact ⟨r', List.mem_cons_of_mem _ h1, h2⟩
      · simp at h
    · rename_i e' he
      simp only [Res.err.injEq] at h
      subst h
      exact ⟨r, List.mem_cons_self, compile_err (o.perm [d, i]) he⟩
    · simp at h

theorem compileDomains_err {pq : QueryParser} {o : MapOrder} {m : RuleSet} : ∀ {d : Nat} {e : Err}, compileDomains pq o d m = .err e →
    RuleSetFault pq (some m) e := by
  induction m with
  | nil => intro d e h; simp [compileDomains] at h
  | cons x m ih =>
    intro d e h
    obtain ⟨k, v⟩ := x
    simp only [compileDomains] at h
    split at h
    · rename_i hk
      simp only [Res.err.injEq] at h
      subst hk
      exact h ▸ .noDomain _ v List.mem_cons_self
    · split at h
      · simp only [Res.err.injEq] at h
        exact h ▸ .noList _ k List.mem_cons_self
      · rename_i rs
        split at h
        · split at h
          · simp at h
          · rename_i e' he
            simp only [Res.err.injEq] at h
            subst h
            cases ih he with
            | noDomain _ v hm => exact .noDomain _ v (List.mem_cons_of_mem _ hm)
            | noList _ k hm => exact .noList _ k (List.mem_cons_of_mem _ hm)
            | rule _ k rs r _ hm hr hf => exact .rule _ k rs r _ (List.mem_cons_of_mem _ hm) hr hf
          · simp at h
        · rename_i e' he
          simp only [Res.err.injEq] at h
          subst h
          obtain ⟨r, h1, h2⟩ := compileRules_err he
          exact .rule _ k rs r _ List.mem_cons_self h1 h2
        · simp at h

/-- **C48**.  The error says what is wrong with the rules. -/
theorem C48_error (pq : QueryParser) (o : MapOrder) (rules : Option RuleSet) (e : Err) (h : newMappingRules pq o rules = .err e) : RuleSetFault pq rules e := by
  cases rules with
  | none =>
    simp only [newMappingRules, Res.err.injEq] at h
    exact h ▸ .noRules
  | some m =>
    have hp := o.perm [] m
    cases compileDomains_err h with
    | noDomain _ v hm => exact .noDomain _ v (hp.mem_iff.mp hm)
    | noList _ k hm => exact .noList _ k (hp.mem_iff.mp hm)
    | rule _ k rs r _ hm hr hf => exact .rule _ k rs r _ (hp.mem_iff.mp hm) hr hf

namespace Ex

/-- A rule with this path. -/
def pathRule (p : String) : RuleSet := [("dom".toList, some [{ method := "get".toList, path := p.toList, action := "read".toList, resource := "x".toList }])]

end Ex

/-- A rule with a placeholder twice, a rule whose query gives two values, and no rules. -/
example : newMappingRules Ex.parseQ Ex.ordId (some (Ex.pathRule "/{a}?v={a}")) = .err (.other "placeholder is duplicated") ∧
    newMappingRules Ex.parseQ Ex.ordId (some (Ex.pathRule "/{a}?v=1&v=2")) = .err (.other "query multiple values is not allowed") ∧
    newMappingRules Ex.parseQ Ex.ordId none = .err (.other "rules is nil") := by
  refine ⟨?_, ?_, ?_⟩ <;> decide +kernel

end Athenz
