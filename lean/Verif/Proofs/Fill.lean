import Verif.Proofs.Update

/-! # Filling the cache from one merged map, whatever the document -/

namespace Athenz

/-- An update that is past the merge of its only document. -/
def fillFrom (d : PolicyDoc) (m : MergeState) (now : Int) : UpdState :=
  { now := now, cancelled := false, rp := Gache.empty, jobs := [.merge d m] }

theorem mergeStep_finished {U : CaseFns} {c : Bool} {m : MergeState} (h : m.finished = true) (k : Nat) :
    mergeStep U c m k = none := by
  unfold mergeStep
  split
  · rfl
  · rename_i t ht
    simp only [MergeState.finished, List.all_eq_true] at h
    have := h t (List.mem_of_getElem? ht)
    rw [List.isEmpty_iff] at this
    rw [this]

/-- The cache holds exactly `filled`, valid up to `L`. -/
def FillCont (U : CaseFns) (L : Int) (rp : Gache (List Assertion)) (filled : List RawAssertion) : Prop :=
  ∀ k, (rp k = none ∧ content U filled k = none) ∨
    ∃ l e, rp k = some ⟨l, e⟩ ∧ content U filled k = some l ∧ ∀ t, t ≤ L → Gache.valid t (⟨l, e⟩ : GEntry (List Assertion)) = true

theorem FillCont.get {U : CaseFns} {L : Int} {rp : Gache (List Assertion)} {filled : List RawAssertion} (h : FillCont U L rp filled)
    {t : Int} (ht : t ≤ L) (k : Str) : viewOf rp t k = content U filled k := by
  rcases h k with ⟨h1, h2⟩ | ⟨l, e, h1, h2, h3⟩
  · simp [viewOf, Gache.get, h1, h2]
  · simp [viewOf, Gache.get, h1, h2, h3 t ht]

def FillOk (U : CaseFns) (d : PolicyDoc) (m : MergeState) (T0 L : Int) (now : Int) (rp : Gache (List Assertion)) : Job → Prop
  | .merge d' m' => d' = d ∧ m' = m ∧ rp = Gache.empty
  | .fill ttl todo pc => ∃ filled n0, (filled ++ todo).Perm (m.map.map (·.2)) ∧ (∀ a ∈ filled, ∃ x, a.conv U = some x) ∧
      T0 ≤ n0 ∧ n0 ≤ now ∧ ttl = satSub d.expires n0 ∧ FillCont U L rp filled ∧
      ∀ old, pc = some old → ∃ a rest, todo = a :: rest ∧ old = content U filled a.role
  | .done none => ∃ filled, filled.Perm (m.map.map (·.2)) ∧ (∀ a ∈ filled, ∃ x, a.conv U = some x) ∧ FillCont U L rp filled
  | .done (some _) => True
  | _ => False

theorem FillOk.mono {U : CaseFns} {d : PolicyDoc} {m : MergeState} {T0 L now now' : Int} {rp : Gache (List Assertion)} {j : Job}
    (h : FillOk U d m T0 L now rp j) (hn : now ≤ now') : FillOk U d m T0 L now' rp j := by
  cases j with
  | fill ttl todo pc =>
    obtain ⟨filled, n0, h1, h2, h3, h4, h5⟩ := h
    exact ⟨filled, n0, h1, h2, h3, by omega, h5⟩
  | done e => cases e <;> exact h
  | _ => exact h

structure FillInv (U : CaseFns) (d : PolicyDoc) (m : MergeState) (T0 L : Int) (s : UpdState) : Prop where
  lo : T0 ≤ s.now
  job : ∃ j, s.jobs = [j] ∧ FillOk U d m T0 L s.now s.rp j

/-- What an entry written at `n` with the lifetime computed at `n0` has to satisfy. -/
def KeepsUntil (d : PolicyDoc) (T0 T L : Int) : Prop :=
  ∀ n0 n, T0 ≤ n0 → n0 ≤ n → n ≤ T → ∀ (l : List Assertion) t, t ≤ L →
    Gache.valid t (⟨l, if satSub d.expires n0 > 0 then wrap64 (n + satSub d.expires n0) else satSub d.expires n0⟩ :
      GEntry (List Assertion)) = true

/-- A document that stays valid during the fill phase. -/
theorem keepsUntil_valid {d : PolicyDoc} {T0 T : Int} (h0 : 0 ≤ T0) (hT : T < d.expires) (ho : d.expires + T < 2 ^ 63) :
    KeepsUntil d T0 T d.expires := by
  intro n0 n h1 h2 h3 l t ht
  have hs : satSub d.expires n0 = d.expires - n0 := by unfold satSub; omega
  have hw : wrap64 (n + (d.expires - n0)) = n + (d.expires - n0) := by unfold wrap64; omega
  have hp : d.expires - n0 > 0 := by omega
  simp only [Gache.valid, hs, hw, hp, if_true, Bool.or_eq_true, decide_eq_true_eq]
  omega

/-- A document that had expired before: what is written never expires. -/
theorem keepsUntil_expired {d : PolicyDoc} {T0 T : Int} (h : d.expires ≤ T0) (L : Int) : KeepsUntil d T0 T L := by
  intro n0 n h1 _ _ l t _
  have hs : ¬ satSub d.expires n0 > 0 := by unfold satSub; omega
  simp only [Gache.valid, hs, if_false, Bool.or_eq_true, decide_eq_true_eq]
  omega

theorem FillCont.empty (U : CaseFns) (L : Int) : FillCont U L Gache.empty [] := fun _ => .inl ⟨rfl, rfl⟩

theorem FillInv.step {U : CaseFns} {d : PolicyDoc} {m : MergeState} {T0 T L : Int} {s s' : UpdState} {a : UpdAct}
    (h : FillInv U d m T0 L s) (hm : m.finished = true) (hk : KeepsUntil d T0 T L) (hL : T ≤ L)
    (hs : updStep U s a = some s') (hT : s'.now ≤ T) : FillInv U d m T0 L s' := by
  obtain ⟨hlo, j, hj, hok⟩ := h
  have hidx : ∀ i, s.jobs[i]? = if i = 0 then some j else none := by
    intro i; rw [hj]; cases i <;> simp
  cases a with
  | tick n =>
    simp only [updStep, Option.some.injEq] at hs; subst hs
    exact ⟨by simp only; omega, j, hj, hok.mono (by simp only; omega)⟩
  | cancel =>
    simp only [updStep, Option.some.injEq] at hs; subst hs
    exact ⟨hlo, j, hj, hok⟩
  | merge i k =>
    simp only [updStep, hidx] at hs
    by_cases hi : i = 0
    · subst hi
      simp only [if_true] at hs
      cases j with
      | merge d' m' =>
        obtain ⟨_, rfl, _⟩ := hok
        simp [mergeStep_finished hm] at hs
      | _ => simp at hs
    · simp [hi] at hs
  | job i order =>
    simp only [updStep, hidx] at hs
    have hi : i = 0 := by
      by_cases hi : i = 0
      · exact hi
      · simp [hi] at hs
    subst hi
    simp only [if_true] at hs
    have hset : ∀ j', s.jobs.set 0 j' = [j'] := by intro j'; rw [hj]; rfl
    cases j with
    | start f => exact hok.elim
    | fetching f => exact hok.elim
    | merge d' m' =>
      obtain ⟨rfl, rfl, hrp⟩ := hok
      simp only [hm, if_true] at hs
      split at hs
      · simp only [Option.some.injEq] at hs; subst hs
        exact ⟨hlo, _, hset _, trivial⟩
      · split at hs
        · rename_i hperm
          simp only [Option.some.injEq] at hs; subst hs
          refine ⟨hlo, _, hset _, [], s.now, by simpa using hperm, by simp, hlo, Int.le_refl _, rfl, ?_, by simp⟩
          simp only [hrp]
          exact FillCont.empty U L
        · simp at hs
    | done e => cases e <;> simp at hs
    | fill ttl todo pc =>
      obtain ⟨filled, n0, h1, h2, h3, h4, h5, h6, h7⟩ := hok
      cases todo with
      | nil =>
        simp only [Option.some.injEq] at hs; subst hs
        exact ⟨hlo, _, hset _, filled, by simpa using h1, h2, h6⟩
      | cons a rest =>
        cases pc with
        | none =>
          simp only at hs
          cases hn : newAssertion U a.action a.resource a.effect with
          | ok x =>
            simp only [hn, Option.some.injEq] at hs; subst hs
            refine ⟨hlo, _, hset _, filled, n0, h1, h2, h3, h4, h5, h6, ?_⟩
            intro old ho
            simp only [Option.some.injEq] at ho
            have hT' : s.now ≤ T := hT
            exact ⟨a, rest, rfl, by rw [← ho]; exact h6.get (t := s.now) (by omega) a.role⟩
          | err e =>
            simp only [hn, Option.some.injEq] at hs; subst hs
            exact ⟨hlo, _, hset _, trivial⟩
          | panic => simp [hn] at hs
        | some old =>
          simp only at hs
          cases hn : newAssertion U a.action a.resource a.effect with
          | ok x =>
            simp only [hn, Option.some.injEq] at hs; subst hs
            obtain ⟨a', rest', he, hold⟩ := h7 old rfl
            simp only [List.cons.injEq] at he
            obtain ⟨rfl, rfl⟩ := he
            have hx := newAssertion_conv hn
            have hT' : s.now ≤ T := hT
            refine ⟨hlo, _, hset _, filled ++ [a], n0, by simpa using h1, ?_, h3, h4, h5, ?_, by simp⟩
            · intro b hb
              rcases List.mem_append.mp hb with hb | hb
              · exact h2 b hb
              · simp at hb; subst hb; exact ⟨x, hx⟩
            · intro k
              by_cases hka : k = a.role
              · subst hka
                right
                refine ⟨insertAss x old, _, by simp only [Gache.set, if_true]; rfl, ?_, ?_⟩
                · rw [content_snoc_same U filled a hx, ← hold]
                · intro t ht
                  rw [h5]
                  exact hk n0 s.now h3 h4 hT' _ t ht
              · rw [content_snoc_other U filled a (Ne.symm hka)]
                simp only [Gache.set, hka, if_false]
                exact h6 k
          | err e => simp [hn] at hs
          | panic => simp [hn] at hs

theorem FillInv.run {U : CaseFns} {d : PolicyDoc} {m : MergeState} {T0 T L : Int} {s s' : UpdState} {as : List UpdAct}
    (h : FillInv U d m T0 L s) (hm : m.finished = true) (hk : KeepsUntil d T0 T L) (hL : T ≤ L)
    (hs : updRun U s as = some s') (hT : s'.now ≤ T) : FillInv U d m T0 L s' := by
  induction as generalizing s with
  | nil => simp only [updRun, Option.some.injEq] at hs; subst hs; exact h
  | cons a as ih =>
    simp only [updRun] at hs
    split at hs
    · simp at hs
    · rename_i s1 hs1
      exact ih (h.step hm hk hL hs1 (Int.le_trans (updRun_now hs) hT)) hs

/-- After the fill phase the cache holds exactly the entries of the merged map. -/
theorem fill_content {U : CaseFns} {d : PolicyDoc} {m : MergeState} {T0 L : Int} {s : UpdState} {as : List UpdAct}
    (hm : m.finished = true) (hs : updRun U (fillFrom d m T0) as = some s) (hok : s.succeeded) (hk : KeepsUntil d T0 s.now L)
    (hL : s.now ≤ L) :
    ∃ filled, filled.Perm (m.map.map (·.2)) ∧ (∀ a ∈ filled, ∃ x, a.conv U = some x) ∧ FillCont U L s.rp filled := by
  have h0 : FillInv U d m T0 L (fillFrom d m T0) := ⟨Int.le_refl _, _, rfl, rfl, rfl, rfl⟩
  obtain ⟨_, j, hj, h⟩ := h0.run hm hk hL hs (Int.le_refl _)
  have hd := hok j (by rw [hj]; simp)
  subst hd
  exact h

/-- What the cache holds depends on the entries only up to their order. -/
theorem content_of_perm {U : CaseFns} {f f' : List RawAssertion} (hp : f.Perm f') (hc : ∀ a ∈ f, ∃ x, a.conv U = some x)
    (k : Str) : ((content U f k).isSome ↔ (content U f' k).isSome) ∧ ((content U f k).getD []).Perm ((content U f' k).getD []) := by
  have hperm := ((content_perm U f k).trans ((hp.filter _).filterMap _)).trans (content_perm U f' k).symm
  have hc' : ∀ a ∈ f', ∃ x, a.conv U = some x := fun a ha => hc a (hp.mem_iff.mpr ha)
  refine ⟨?_, hperm⟩
  have hnone : ∀ {g : List RawAssertion}, (content U g k).getD [] ≠ [] → (content U g k).isSome := by
    intro g hg; cases h : content U g k with
    | none => rw [h] at hg; exact absurd rfl hg
    | some l => rfl
  have hne : ∀ {g : List RawAssertion}, (∀ a ∈ g, ∃ x, a.conv U = some x) → (content U g k).isSome → (content U g k).getD [] ≠ [] := by
    intro g hg hs he
    have hp := content_perm U g k
    rw [he] at hp
    have h0 := hp.symm.eq_nil
    have hfil : g.filter (fun a => a.role == k) = [] := by
      cases hfe : g.filter (fun a => a.role == k) with
      | nil => rfl
      | cons b bs =>
        have hb : b ∈ g := (List.mem_filter.mp (by rw [hfe]; simp : b ∈ g.filter (fun a => a.role == k))).1
        obtain ⟨x, hx⟩ := hg b hb
        rw [hfe, List.filterMap_cons, hx] at h0
        simp at h0
    simp [content, hfil, fillList] at hs
  constructor
  · intro h
    refine hnone (fun he => hne hc h ?_)
    rw [he] at hperm; exact hperm.eq_nil
  · intro h
    refine hnone (fun he => hne hc' h ?_)
    rw [he] at hperm; exact hperm.symm.eq_nil

theorem content_rep {U : CaseFns} {f A : List RawAssertion} (hp : f.Perm A) (hc : ∀ a ∈ f, ∃ x, a.conv U = some x) (k : Str) :
    RepKey U A k (content U f k) := by
  refine ⟨content_denyFirst U f k, ?_, ?_⟩
  · intro l hl x hx
    obtain ⟨a, ha, hr, hx⟩ := (mem_content hl).mp hx
    exact ⟨a, hp.mem_iff.mp ha, hr, hx⟩
  · intro a ha hr
    have ha := hp.mem_iff.mpr ha
    cases hl : content U f k with
    | none => exact absurd hr (content_eq_none hc hl a ha)
    | some l =>
      obtain ⟨x, hx⟩ := hc a ha
      exact ⟨l, rfl, a, x, (mem_content hl).mpr ⟨a, ha, hr, hx⟩, hx, rfl, rfl, rfl, id⟩

/-- Two views that represent the same assertions for a role give the same verdict. -/
theorem verdict_rep_eq {U : CaseFns} {q : CheckReq} {A : List RawAssertion} {v v' : PolicyView} {r : Str}
    (h : RepKey U A (roleKey q.domain r) (v (roleKey q.domain r))) (h' : RepKey U A (roleKey q.domain r) (v' (roleKey q.domain r))) :
    roleVerdict U q v r = roleVerdict U q v' r := by
  have v1 := verdict_rep (q := q) h
  have v2 := verdict_rep (q := q) h'
  by_cases hd : Spec.Denied U A q.domain r q.action q.resource
  · rw [v1.1.mpr hd, v2.1.mpr hd]
  · by_cases ha : Spec.Allowed U A q.domain r q.action q.resource
    · rw [v1.2.1.mpr ⟨ha, hd⟩, v2.2.1.mpr ⟨ha, hd⟩]
    · rw [v1.2.2.mpr ⟨ha, hd⟩, v2.2.2.mpr ⟨ha, hd⟩]

end Athenz
