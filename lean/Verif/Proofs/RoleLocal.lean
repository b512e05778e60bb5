import Verif.Proofs.Fill

/-! What an update leaves for one role, if only one document speaks about it; the other roles and documents are arbitrary. -/

namespace Athenz

/-- The cache holds exactly `filled` for role `k`, valid up to `L`. -/
def ContAt (U : CaseFns) (L : Int) (rp : Gache (List Assertion)) (k : Str) (filled : List RawAssertion) : Prop :=
  (rp k = none ∧ content U filled k = none) ∨
    ∃ l e, rp k = some ⟨l, e⟩ ∧ content U filled k = some l ∧ ∀ t, t ≤ L → Gache.valid t (⟨l, e⟩ : GEntry (List Assertion)) = true

theorem ContAt.get {U : CaseFns} {L : Int} {rp : Gache (List Assertion)} {k : Str} {filled : List RawAssertion}
    (h : ContAt U L rp k filled) {t : Int} (ht : t ≤ L) : viewOf rp t k = content U filled k := by
  rcases h with ⟨h1, h2⟩ | ⟨l, e, h1, h2, h3⟩
  · simp [viewOf, Gache.get, h1, h2]
  · simp [viewOf, Gache.get, h1, h2, h3 t ht]

/-- The job never writes role `k`. -/
def JobAvoids (U : CaseFns) (k : Str) (f : Option PolicyDoc) : Job → Prop
  | .start f' => f' = f
  | .fetching f' => f' = f
  | .merge d m => f = some d ∧ ∃ cons, MergeInv U d m cons
  | .fill _ todo _ => ∀ a ∈ todo, a.role ≠ k
  | .done _ => True

/-- The job of the only document that speaks about role `k`. -/
def JobOwns (U : CaseFns) (k : Str) (d : PolicyDoc) (T0 L now : Int) (rp : Gache (List Assertion)) : Job → Prop
  | .start f => f = some d ∧ rp k = none
  | .fetching f => f = some d ∧ rp k = none
  | .merge d' m => d' = d ∧ (∃ cons, MergeInv U d m cons) ∧ rp k = none
  | .fill ttl todo pc => ∃ filled n0, Merged U d (filled ++ todo) ∧ (∀ a ∈ filled, ∃ x, a.conv U = some x) ∧
      T0 ≤ n0 ∧ n0 ≤ now ∧ ttl = satSub d.expires n0 ∧ ContAt U L rp k filled ∧
      ∀ old, pc = some old → ∃ a rest, todo = a :: rest ∧ (a.role = k → old = content U filled k)
  | .done none => ∃ filled, Merged U d filled ∧ (∀ a ∈ filled, ∃ x, a.conv U = some x) ∧ ContAt U L rp k filled
  | .done (some _) => True

theorem JobOwns.frame {U : CaseFns} {k : Str} {d : PolicyDoc} {T0 L now now' : Int} {rp rp' : Gache (List Assertion)} {j : Job}
    (h : JobOwns U k d T0 L now rp j) (hn : now ≤ now') (hrp : rp' k = rp k) : JobOwns U k d T0 L now' rp' j := by
  have hc : ∀ filled, ContAt U L rp k filled → ContAt U L rp' k filled := by
    intro filled h; unfold ContAt; rw [hrp]; exact h
  cases j with
  | start f => exact ⟨h.1, by rw [hrp]; exact h.2⟩
  | fetching f => exact ⟨h.1, by rw [hrp]; exact h.2⟩
  | merge d' m => exact ⟨h.1, h.2.1, by rw [hrp]; exact h.2.2⟩
  | fill ttl todo pc =>
    obtain ⟨filled, n0, h1, h2, h3, h4, h5, h6, h7⟩ := h
    exact ⟨filled, n0, h1, h2, h3, by omega, h5, hc _ h6, h7⟩
  | done e =>
    cases e with
    | none =>
      obtain ⟨filled, h1, h2, h3⟩ := h
      exact ⟨filled, h1, h2, hc _ h3⟩
    | some e => trivial

/-- Only document `i0` speaks about role `k`. -/
def OwnedBy (docs : List (Option PolicyDoc)) (k : Str) (i0 : Nat) : Prop :=
  ∀ (j : Nat) (d : PolicyDoc), j ≠ i0 → docs[j]? = some (some d) → ∀ a ∈ d.policies.flatten, a.role ≠ k

structure LocInv (U : CaseFns) (docs : List (Option PolicyDoc)) (k : Str) (i0 : Nat) (d : PolicyDoc) (T0 L : Int) (s : UpdState) :
    Prop where
  lo : T0 ≤ s.now
  len : s.jobs.length = docs.length
  others : ∀ (i : Nat) (j : Job) (f : Option PolicyDoc), i ≠ i0 → s.jobs[i]? = some j → docs[i]? = some f → JobAvoids U k f j
  own : ∀ j, s.jobs[i0]? = some j → JobOwns U k d T0 L s.now s.rp j

theorem updInit_loc (U : CaseFns) (docs : List (Option PolicyDoc)) (k : Str) (i0 : Nat) (d : PolicyDoc) (T0 L : Int)
    (hd : docs[i0]? = some (some d)) : LocInv U docs k i0 d T0 L (updInit T0 docs) := by
  refine ⟨by simp [updInit], by simp [updInit], ?_, ?_⟩
  · intro i j f _ hj hf
    simp only [updInit, List.getElem?_map, hf, Option.map_some, Option.some.injEq] at hj
    subst hj; rfl
  · intro j hj
    simp only [updInit, List.getElem?_map, hd, Option.map_some, Option.some.injEq] at hj
    subst hj; exact ⟨rfl, rfl⟩

theorem LocInv.setJob {U : CaseFns} {docs : List (Option PolicyDoc)} {k : Str} {i0 : Nat} {d : PolicyDoc} {T0 L : Int} {s : UpdState}
    (h : LocInv U docs k i0 d T0 L s) {i : Nat} {j0 j : Job} (h0 : s.jobs[i]? = some j0)
    (ho : ∀ f, i ≠ i0 → docs[i]? = some f → JobAvoids U k f j0 → JobAvoids U k f j)
    (hw : i = i0 → JobOwns U k d T0 L s.now s.rp j0 → JobOwns U k d T0 L s.now s.rp j) :
    LocInv U docs k i0 d T0 L { s with jobs := s.jobs.set i j } := by
  refine ⟨h.lo, by simpa using h.len, ?_, ?_⟩
  · intro i' j' f hi' hj' hf
    rcases getElem?_set_cases h0 hj' with ⟨rfl, rfl⟩ | ⟨hne, hj'⟩
    · exact ho f hi' hf (h.others _ _ f hi' h0 hf)
    · exact h.others i' j' f hi' hj' hf
  · intro j' hj'
    rcases getElem?_set_cases h0 hj' with ⟨rfl, rfl⟩ | ⟨hne, hj'⟩
    · exact hw rfl (h.own _ h0)
    · exact h.own j' hj'

theorem LocInv.step {U : CaseFns} {docs : List (Option PolicyDoc)} {k : Str} {i0 : Nat} {d : PolicyDoc} {T0 T L : Int} {s s' : UpdState}
    (h : LocInv U docs k i0 d T0 L s) (hown : OwnedBy docs k i0) (hk : KeepsUntil d T0 T L) (hL : T ≤ L) {a : UpdAct}
    (hs : updStep U s a = some s') (hT : s'.now ≤ T) : LocInv U docs k i0 d T0 L s' := by
  cases a with
  | tick n =>
    simp only [updStep, Option.some.injEq] at hs; subst hs
    refine ⟨by have := h.lo; simp only; omega, h.len, h.others, ?_⟩
    intro j hj
    exact (h.own j hj).frame (by simp only; omega) rfl
  | cancel =>
    simp only [updStep, Option.some.injEq] at hs; subst hs
    exact ⟨h.lo, h.len, h.others, h.own⟩
  | merge i n =>
    simp only [updStep] at hs
    split at hs
    · rename_i d' m hj
      split at hs
      · rename_i m' hm'
        simp only [Option.some.injEq] at hs; subst hs
        refine h.setJob hj ?_ ?_
        · rintro f _ _ ⟨h1, cons, hm⟩
          exact ⟨h1, hm.step hm'⟩
        · rintro _ ⟨rfl, ⟨cons, hm⟩, h2⟩
          exact ⟨rfl, hm.step hm', h2⟩
      · simp at hs
    · simp at hs
  | job i order =>
    simp only [updStep] at hs
    split at hs
    · rename_i f hj
      split at hs
      · simp only [Option.some.injEq] at hs; subst hs
        exact h.setJob hj (fun _ _ _ _ => trivial) (fun _ _ => trivial)
      · simp only [Option.some.injEq] at hs; subst hs
        exact h.setJob hj (fun _ _ _ h => h) (fun _ h => h)
    · rename_i hj
      simp only [Option.some.injEq] at hs; subst hs
      exact h.setJob hj (fun _ _ _ _ => trivial) (fun _ _ => trivial)
    · rename_i d' hj
      simp only [Option.some.injEq] at hs; subst hs
      refine h.setJob hj ?_ ?_
      · rintro f _ _ rfl
        exact ⟨rfl, _, mergeInit_inv U d'⟩
      · rintro _ ⟨h1, h2⟩
        simp only [Option.some.injEq] at h1
        subst h1
        exact ⟨rfl, ⟨_, mergeInit_inv U d'⟩, h2⟩
    · rename_i d' m hj
      split at hs
      · rename_i hfin
        split at hs
        · simp only [Option.some.injEq] at hs; subst hs
          exact h.setJob hj (fun _ _ _ _ => trivial) (fun _ _ => trivial)
        · rename_i hnf
          split at hs
          · rename_i hperm
            simp only [Option.some.injEq] at hs; subst hs
            refine h.setJob hj ?_ ?_
            · rintro f hi hf ⟨rfl, cons, hm⟩ a ha
              exact hown i d' hi hf a ((hm.merged hfin (by simpa using hnf)).sub a (hperm.mem_iff.mp ha))
            · rintro _ ⟨rfl, ⟨cons, hm⟩, h2⟩
              exact ⟨[], s.now, by simpa using (hm.merged hfin (by simpa using hnf)).perm hperm, by simp, h.lo, Int.le_refl _, rfl,
                .inl ⟨h2, rfl⟩, by simp⟩
          · simp at hs
      · simp at hs
    · rename_i ttl pc hj
      simp only [Option.some.injEq] at hs; subst hs
      refine h.setJob hj (fun _ _ _ _ => trivial) ?_
      rintro _ ⟨filled, n0, h1, h2, h3, h4, h5, h6, h7⟩
      exact ⟨filled, by simpa using h1, h2, h6⟩
    · rename_i ttl a rest hj
      split at hs
      · rename_i x hx
        simp only [Option.some.injEq] at hs; subst hs
        have hT' : s.now ≤ T := hT
        refine h.setJob hj (fun _ _ _ h => h) ?_
        rintro _ ⟨filled, n0, h1, h2, h3, h4, h5, h6, h7⟩
        refine ⟨filled, n0, h1, h2, h3, h4, h5, h6, ?_⟩
        intro old ho
        simp only [Option.some.injEq] at ho
        refine ⟨a, rest, rfl, fun hr => ?_⟩
        rw [← ho, hr]
        exact h6.get (t := s.now) (by omega)
      · simp only [Option.some.injEq] at hs; subst hs
        exact h.setJob hj (fun _ _ _ _ => trivial) (fun _ _ => trivial)
      · simp at hs
    · rename_i ttl a rest old hj
      split at hs
      · rename_i x hx
        have hx := newAssertion_conv hx
        simp only [Option.some.injEq] at hs; subst hs
        have hT' : s.now ≤ T := hT
        refine ⟨h.lo, by simpa using h.len, ?_, ?_⟩
        · intro i' j' f hi' hj' hf
          rcases getElem?_set_cases hj hj' with ⟨rfl, rfl⟩ | ⟨hne, hj'⟩
          · have := h.others _ _ f hi' hj hf
            exact fun b hb => this b (by simp [hb])
          · exact h.others i' j' f hi' hj' hf
        · intro j' hj'
          rcases getElem?_set_cases hj hj' with ⟨rfl, rfl⟩ | ⟨hne, hj'⟩
          · obtain ⟨filled, n0, h1, h2, h3, h4, h5, h6, h7⟩ := h.own _ hj
            obtain ⟨a', rest', he, hold⟩ := h7 old rfl
            simp only [List.cons.injEq] at he
            obtain ⟨rfl, rfl⟩ := he
            refine ⟨filled ++ [a], n0, by simpa using h1, ?_, h3, h4, h5, ?_, by simp⟩
            · intro b hb
              rcases List.mem_append.mp hb with hb | hb
              · exact h2 b hb
              · simp at hb; subst hb; exact ⟨x, hx⟩
            · by_cases hka : a.role = k
              · right
                refine ⟨insertAss x old, _, by simp only [Gache.set, hka, if_true]; rfl, ?_, ?_⟩
                · rw [← hka, content_snoc_same U filled a hx, hka, ← hold hka]
                · intro t ht
                  rw [h5]
                  exact hk n0 s.now h3 h4 hT' _ t ht
              · unfold ContAt
                rw [content_snoc_other U filled a hka]
                have : (s.rp.set s.now a.role (insertAss x old) ttl) k = s.rp k := by simp [Gache.set, Ne.symm hka]
                simp only [this]
                exact h6
          · -- another job writes
            obtain ⟨f, hf⟩ : ∃ f, docs[i]? = some f :=
              ⟨_, List.getElem?_eq_getElem (by rw [← h.len]; exact (List.getElem?_eq_some_iff.mp hj).1)⟩
            have hne' : i ≠ i0 := fun he => hne he.symm
            have ha : a.role ≠ k := h.others i _ f hne' hj hf a (by simp)
            exact (h.own j' hj').frame (Int.le_refl _) (by simp [Gache.set, Ne.symm ha])
      · simp at hs
    · simp at hs

theorem LocInv.run {U : CaseFns} {docs : List (Option PolicyDoc)} {k : Str} {i0 : Nat} {d : PolicyDoc} {T0 T L : Int} {s s' : UpdState}
    (h : LocInv U docs k i0 d T0 L s) (hown : OwnedBy docs k i0) (hk : KeepsUntil d T0 T L) (hL : T ≤ L) {as : List UpdAct}
    (hs : updRun U s as = some s') (hT : s'.now ≤ T) : LocInv U docs k i0 d T0 L s' := by
  induction as generalizing s with
  | nil => simp only [updRun, Option.some.injEq] at hs; subst hs; exact h
  | cons a as ih =>
    simp only [updRun] at hs
    split at hs
    · simp at hs
    · rename_i s1 hs1
      exact ih (h.step hown hk hL hs1 (Int.le_trans (updRun_now hs) hT)) hs

/-- A finished update has stored for role `k` what the merge of its only document left. -/
theorem role_content {U : CaseFns} {docs : List (Option PolicyDoc)} {k : Str} {i0 : Nat} {d : PolicyDoc} {T0 L : Int} {s : UpdState}
    (hd : docs[i0]? = some (some d)) (hown : OwnedBy docs k i0) {as : List UpdAct} (hs : updRun U (updInit T0 docs) as = some s)
    (hok : s.succeeded) (hk : KeepsUntil d T0 s.now L) (hL : s.now ≤ L) :
    ∃ filled, Merged U d filled ∧ (∀ a ∈ filled, ∃ x, a.conv U = some x) ∧ ∀ t, t ≤ L → viewOf s.rp t k = content U filled k := by
  have hinv := (updInit_loc U docs k i0 d T0 L hd).run hown hk hL hs (Int.le_refl _)
  have hlt : i0 < s.jobs.length := by rw [hinv.len]; exact (List.getElem?_eq_some_iff.mp hd).1
  have hj := List.getElem?_eq_getElem hlt
  have hdone := hok _ (List.getElem_mem hlt)
  rw [hdone] at hj
  obtain ⟨filled, h1, h2, h3⟩ := hinv.own _ hj
  exact ⟨filled, h1, h2, fun t ht => h3.get ht⟩

end Athenz
