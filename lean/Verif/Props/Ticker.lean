import Verif.Props.Serve

/-! # C60: what New accepts can be started -/

namespace Athenz
open Spec

/-- The durations of the configuration that become the period of a ticker when the daemons run: given as text, with the default for the empty
one. -/
def Spec.periods (a : Settings) : List (Str × Int) :=
  (if a.disablePubkeyd then [] else [(a.pubkeyETagPurgePeriod, 84 * hour), (a.pubkeyRefreshPeriod, 24 * hour)]) ++
  (if a.disablePolicyd then [] else [(a.policyRefreshPeriod, 30 * minute), (a.policyPurgePeriod, hour)]) ++
  (if a.disableJwkd then [] else [(a.jwkRefreshPeriod, 24 * hour)])

/-- A period that works: empty or a positive duration. -/
def Spec.Positive (F : NewFns) (t : Str) : Prop := t = [] ∨ ∃ d, parseDuration F.frac t = some d ∧ 0 < d

/-- The full statement of C60: none of the tickers that `Start`, the daemons and the policy updates make panics. -/
def C60_statement : Prop :=
  ∀ (F : NewFns) (opts : List Opt) (b : Built), newAuthority F opts = .ok b → ∀ d ∈ b.startTickers ++ b.updateTickers, tickerPanics d = false

theorem durOf_positive (F : NewFns) (t : Str) (dflt : Int) (hd : 0 < dflt) (hok : DurOk F t) : 0 < durOf F t dflt ↔ Positive F t := by
  unfold durOf Positive
  rcases hok with rfl | ⟨d, h⟩
  · simp [hd]
  · by_cases ht : t = []
    · simp [ht, hd]
    · simp only [ht, if_false, h, false_or, Option.some.injEq, exists_eq_left']
      rfl

/-- **C60**, exactly when.  None of the tickers panics if and only if the cache lifetime is at least two nanoseconds and every period of an
enabled daemon that is given is positive.  The full statement is false because `New` also accepts the others. -/
theorem C60_exactly_partial (F : NewFns) (opts : List Opt) (b : Built) (h : newAuthority F opts = .ok b) :
    (∀ d ∈ b.startTickers ++ b.updateTickers, tickerPanics d = false) ↔ 2 ≤ b.set.cacheExp ∧ ∀ p ∈ periods b.set, Positive F p.1 := by
  obtain ⟨_, hacc, rfl⟩ := (C57_new F opts b).mp h
  generalize settingsOf opts = a at hacc
  have hset : (builtOf F a).set = a := rfl
  rw [hset]
  have hn : ∀ d, tickerPanics d = false ↔ 0 < d := by intro d; simp only [tickerPanics, decide_eq_false_iff_not]; omega
  simp only [hn]
  have hc : 0 < a.cacheExp.tdiv 2 ↔ 2 ≤ a.cacheExp := by
    generalize a.cacheExp = n
    rcases Int.le_total 0 n with hn | hn
    · rw [Int.tdiv_eq_ediv_of_nonneg hn]; omega
    · obtain ⟨m, rfl⟩ : ∃ m, n = -m := ⟨-n, by omega⟩
      rw [Int.neg_tdiv, Int.tdiv_eq_ediv_of_nonneg (by omega)]; omega
  have t1 : 0 < 84 * hour := by decide
  have t2 : 0 < 24 * hour := by decide
  have t3 : 0 < 30 * minute := by decide
  have t4 : 0 < hour := by decide
  have hpk : (∀ d ∈ (match (builtOf F a).pubkeyd with | some p => [p.eTagPurgePeriod, p.refreshPeriod] | none => []), 0 < d) ↔
      ∀ p ∈ (if a.disablePubkeyd then [] else [(a.pubkeyETagPurgePeriod, 84 * hour), (a.pubkeyRefreshPeriod, 24 * hour)]), Positive F p.1 := by
    unfold builtOf
    cases hd : a.disablePubkeyd with
    | true => simp only [if_true]; constructor <;> (intro _ p hp; cases hp)
    | false =>
      obtain ⟨h1, _, _, h2⟩ := hacc.pubkeyd hd
      simp only [Bool.false_eq_true, if_false, List.forall_mem_cons, durOf_positive F _ _ t1 h2, durOf_positive F _ _ t2 h1]
      simp only [List.not_mem_nil, false_implies, implies_true]
  have hpd : ((∀ d ∈ (match (builtOf F a).policyd with | some p => [p.refreshPeriod] | none => []), 0 < d) ∧
      (∀ d ∈ (match (builtOf F a).policyd with | some p => [p.purgePeriod] | none => []), 0 < d)) ↔
      ∀ p ∈ (if a.disablePolicyd then [] else [(a.policyRefreshPeriod, 30 * minute), (a.policyPurgePeriod, hour)]), Positive F p.1 := by
    unfold builtOf
    cases hd : a.disablePolicyd with
    | true => simp only [if_true]; exact ⟨fun _ p hp => (by cases hp), fun _ => ⟨fun p hp => (by cases hp), fun p hp => (by cases hp)⟩⟩
    | false =>
      obtain ⟨_, h1, h2, _⟩ := hacc.policyd hd
      simp only [Bool.false_eq_true, if_false, List.forall_mem_cons, durOf_positive F _ _ t3 h1, durOf_positive F _ _ t4 h2]
      simp only [List.not_mem_nil, false_implies, implies_true, and_true]
  have hjw : (∀ d ∈ (match (builtOf F a).jwkd with | some p => [p.refreshPeriod] | none => []), 0 < d) ↔
      ∀ p ∈ (if a.disableJwkd then [] else [(a.jwkRefreshPeriod, 24 * hour)]), Positive F p.1 := by
    unfold builtOf
    cases hd : a.disableJwkd with
    | true => simp only [if_true]; constructor <;> (intro _ p hp; cases hp)
    | false =>
      obtain ⟨_, h1, _⟩ := hacc.jwkd hd
      simp only [Bool.false_eq_true, if_false, List.forall_mem_cons, durOf_positive F _ _ t2 h1]
      simp only [List.not_mem_nil, false_implies, implies_true]
  unfold Built.startTickers Built.updateTickers periods
  rw [hset]
  simp only [List.forall_mem_append, ← hpk, ← hpd, ← hjw, ← hc, List.forall_mem_cons, List.not_mem_nil, false_implies, implies_true, and_true]
  constructor
  · rintro ⟨⟨⟨⟨h1, h2⟩, h3⟩, h4⟩, h5⟩; exact ⟨h1, ⟨h2, h3, h5⟩, h4⟩
  · rintro ⟨h1, ⟨h2, h3, h5⟩, h4⟩; exact ⟨⟨⟨⟨h1, h2⟩, h3⟩, h4⟩, h5⟩

/-- The full statement of **C60** is false: a cache lifetime of zero and the refresh period "0s" are accepted by `New`. -/
theorem C60_refuted : ¬ C60_statement ∧ ∃ b, newAuthority Ex.newFns [.policyRefreshPeriod "0s".toList] = .ok b ∧
    ∃ d ∈ b.startTickers, tickerPanics d = true := by
  have hd : DurOk Ex.newFns "1h".toList := (durOf_whole Ex.newFns "1".toList "h".toList 1 3600000000000 0 (by decide) (by decide) (by decide) (by decide)).1
  have h0 := durOf_whole Ex.newFns "0".toList "s".toList 0 1000000000 (30 * minute) (by decide) (by decide) (by decide) (by decide)
  have he : DurOk Ex.newFns [] := .inl rfl
  constructor
  · intro h
    have hb : newAuthority Ex.newFns [.cacheExp 0] = .ok (builtOf Ex.newFns (settingsOf [.cacheExp 0])) :=
      (C57_new _ _ _).mpr ⟨fun url hm => by simp at hm, ⟨fun _ => ⟨he, he, he, he⟩, fun _ => ⟨he, he, he, he⟩,
        fun _ => ⟨by decide +kernel, he, he, fun u hu => by cases hu⟩, fun _ => ⟨hd, hd⟩, .inl rfl⟩, rfl⟩
    have := ((C60_exactly_partial _ _ _ hb).mp (h _ _ _ hb)).1
    exact absurd this (by decide)
  · refine ⟨_, (C57_new _ _ _).mpr ⟨fun url hm => by simp at hm, ⟨fun _ => ⟨he, he, he, he⟩, fun _ => ⟨he, h0.1, he, he⟩,
        fun _ => ⟨by decide +kernel, he, he, fun u hu => by cases hu⟩, fun _ => ⟨hd, hd⟩, .inl rfl⟩, rfl⟩, 0, ?_, by decide⟩
    have : (durOf Ex.newFns "0s".toList (30 * minute)) = 0 := h0.2
    unfold Built.startTickers
    simp only [List.mem_append]
    exact .inl (.inr (List.mem_singleton.mpr this.symm))

/-- The defaults start, also with a refresh period of fifteen minutes. -/
example : ∃ b, newAuthority Ex.newFns [.policyRefreshPeriod "15m".toList] = .ok b ∧ ∀ d ∈ b.startTickers ++ b.updateTickers, tickerPanics d = false := by
  have hd : DurOk Ex.newFns "1h".toList := (durOf_whole Ex.newFns "1".toList "h".toList 1 3600000000000 0 (by decide) (by decide) (by decide) (by decide)).1
  have hp : parseDuration Ex.newFns.frac "15m".toList = some 900000000000 := parseDuration_whole Ex.newFns.frac (ds := "15".toList) (u := "m".toList) (n := 15) (unit := 60000000000) (by decide) (by decide) (by decide) (by decide)
  have he : DurOk Ex.newFns [] := .inl rfl
  have hb : newAuthority Ex.newFns [.policyRefreshPeriod "15m".toList] = .ok (builtOf Ex.newFns (settingsOf [.policyRefreshPeriod "15m".toList])) :=
    (C57_new _ _ _).mpr ⟨fun url hm => by simp at hm, ⟨fun _ => ⟨he, he, he, he⟩, fun _ => ⟨he, .inr ⟨_, hp⟩, he, he⟩,
        fun _ => ⟨by decide +kernel, he, he, fun u hu => by cases hu⟩, fun _ => ⟨hd, hd⟩, .inl rfl⟩, rfl⟩
  refine ⟨_, hb, (C60_exactly_partial _ _ _ hb).mpr ⟨by decide, ?_⟩⟩
  intro p hm
  have : p = ([], 84 * hour) ∨ p = ([], 24 * hour) ∨ p = ("15m".toList, 30 * minute) ∨ p = ([], hour) ∨ p = ([], 24 * hour) := by
    have : p ∈ [([], 84 * hour), ([], 24 * hour), ("15m".toList, 30 * minute), ([], hour), (([] : Str), 24 * hour)] := hm
    rw [List.mem_cons, List.mem_cons, List.mem_cons, List.mem_cons, List.mem_singleton] at this
    exact this
  rcases this with rfl | rfl | rfl | rfl | rfl
  · exact .inl rfl
  · exact .inl rfl
  · exact .inr ⟨_, hp, by decide⟩
  · exact .inl rfl
  · exact .inl rfl

end Athenz
