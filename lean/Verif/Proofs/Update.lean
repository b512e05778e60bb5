import Verif.Proofs.Decision
import Verif.Proofs.Num

/-! The fill phase and `Update` as a whole. -/

namespace Athenz

/-- All assertions of the documents an update works on. -/
def allAssertions (docs : List (Option PolicyDoc)) : List RawAssertion :=
  docs.flatMap fun f => match f with | none => [] | some d => d.policies.flatten

theorem mem_allAssertions {docs : List (Option PolicyDoc)} {a : RawAssertion} :
    a ∈ allAssertions docs ↔ ∃ d, some d ∈ docs ∧ a ∈ d.policies.flatten := by
  simp only [allAssertions, List.mem_flatMap]
  constructor
  · rintro ⟨f, hf, ha⟩
    cases f with
    | none => simp at ha
    | some d => exact ⟨d, hf, ha⟩
  · rintro ⟨d, hd, ha⟩
    exact ⟨some d, hd, ha⟩

/-! ### What holds for every execution -/

/-- A raw cache entry list is sound for a role: denies first, everything from the documents. -/
def SoundRp (U : CaseFns) (A : List RawAssertion) (rp : Gache (List Assertion)) : Prop :=
  ∀ k e, rp k = some e → SoundKey U A k (some e.val)

/-- Unconditional invariant of a job. -/
def JobSound (U : CaseFns) (A : List RawAssertion) : Job → Prop
  | .start f => ∀ d, f = some d → ∀ a ∈ d.policies.flatten, a ∈ A
  | .fetching f => ∀ d, f = some d → ∀ a ∈ d.policies.flatten, a ∈ A
  | .merge d m => (∀ a ∈ d.policies.flatten, a ∈ A) ∧ ∃ cons, MergeInv U d m cons
  | .fill _ todo pc => (∀ a ∈ todo, a ∈ A) ∧ ∀ old, pc = some old → ∀ a rest, todo = a :: rest → SoundKey U A a.role old
  | .done _ => True

structure UpdSound (U : CaseFns) (A : List RawAssertion) (s : UpdState) : Prop where
  rp : SoundRp U A s.rp
  jobs : ∀ j ∈ s.jobs, JobSound U A j

theorem SoundRp.get {U : CaseFns} {A : List RawAssertion} {rp : Gache (List Assertion)} (h : SoundRp U A rp) (now : Int) (k : Str) :
    SoundKey U A k (rp.get now k) := by
  unfold Gache.get
  cases hk : rp k with
  | none => exact ⟨by simp, by simp⟩
  | some e =>
    simp only
    split
    · exact h k e hk
    · exact ⟨by simp, by simp⟩

theorem updInit_sound (U : CaseFns) (now : Int) (docs : List (Option PolicyDoc)) :
    UpdSound U (allAssertions docs) (updInit now docs) := by
  refine ⟨by intro k e h; simp [updInit, Gache.empty] at h, ?_⟩
  intro j hj
  simp only [updInit, List.mem_map] at hj
  obtain ⟨f, hf, rfl⟩ := hj
  intro d hd a ha
  subst hd
  exact mem_allAssertions.mpr ⟨d, hf, ha⟩

theorem mem_set_cases {α : Type} {l : List α} {i : Nat} {w x : α} (h : x ∈ l.set i w) : x ∈ l ∨ x = w := by
  rcases List.mem_or_eq_of_mem_set h with h | h
  · exact .inl h
  · exact .inr h

theorem conv_effect_cases {U : CaseFns} {a : RawAssertion} {x : Assertion} (h : a.conv U = some x) :
    x.effect = none ∨ x.effect = some .denyByPolicy := by
  rw [conv_effect h]; cases a.isDeny U <;> simp

theorem insertAss_soundKey {U : CaseFns} {A : List RawAssertion} {a : RawAssertion} {x : Assertion}
    {old : Option (List Assertion)} (hc : a.conv U = some x) (ha : a ∈ A) (h : SoundKey U A a.role old) :
    SoundKey U A a.role (some (insertAss x old)) := by
  refine ⟨?_, ?_⟩
  · intro l hl
    simp only [Option.some.injEq] at hl; subst hl
    exact insertAss_denyFirst (conv_effect_cases hc) h.denyFirst
  · intro l hl y hy
    simp only [Option.some.injEq] at hl; subst hl
    rcases mem_insertAss.mp hy with rfl | ⟨l, hl, hy⟩
    · exact ⟨a, ha, rfl, hc⟩
    · exact h.sound l hl y hy

theorem UpdSound.setJob {U : CaseFns} {A : List RawAssertion} {s : UpdState} (h : UpdSound U A s) {i : Nat} {j : Job}
    (hj : JobSound U A j) : UpdSound U A { s with jobs := s.jobs.set i j } := by
  refine ⟨h.rp, ?_⟩
  intro x hx
  rcases mem_set_cases hx with hx | rfl
  · exact h.jobs x hx
  · exact hj

theorem newAssertion_conv {U : CaseFns} {a : RawAssertion} {x : Assertion}
    (h : newAssertion U a.action a.resource a.effect = .ok x) : a.conv U = some x := by
  simp [RawAssertion.conv, h]

theorem UpdSound.step {U : CaseFns} {A : List RawAssertion} {s s' : UpdState} (h : UpdSound U A s) {a : UpdAct}
    (hs : updStep U s a = some s') : UpdSound U A s' := by
  cases a with
  | job i order =>
    simp only [updStep] at hs
    split at hs
    · rename_i f hj
      have hjs := h.jobs _ (List.mem_of_getElem? hj)
      split at hs
      · simp only [Option.some.injEq] at hs; subst hs; exact h.setJob trivial
      · simp only [Option.some.injEq] at hs; subst hs; exact h.setJob hjs
    · simp only [Option.some.injEq] at hs; subst hs; exact h.setJob trivial
    · rename_i d hj
      have hjs := h.jobs _ (List.mem_of_getElem? hj)
      simp only [Option.some.injEq] at hs; subst hs
      exact h.setJob ⟨hjs d rfl, _, mergeInit_inv U d⟩
    · rename_i d m hj
      obtain ⟨hsub, cons, hm⟩ := h.jobs _ (List.mem_of_getElem? hj)
      split at hs
      · rename_i hfin
        split at hs
        · simp only [Option.some.injEq] at hs; subst hs; exact h.setJob trivial
        · rename_i hnf
          split at hs
          · rename_i hperm
            simp only [Option.some.injEq] at hs; subst hs
            refine h.setJob ⟨?_, by simp⟩
            intro a ha
            exact hsub a ((hm.merged hfin (by simpa using hnf)).sub a (hperm.mem_iff.mp ha))
          · simp at hs
      · simp at hs
    · simp only [Option.some.injEq] at hs; subst hs; exact h.setJob trivial
    · rename_i ttl a rest hj
      have hjs := h.jobs _ (List.mem_of_getElem? hj)
      split at hs
      · simp only [Option.some.injEq] at hs; subst hs
        refine h.setJob ⟨hjs.1, ?_⟩
        intro old ho a' rest' hr
        simp only [Option.some.injEq] at ho
        simp only [List.cons.injEq] at hr
        obtain ⟨rfl, rfl⟩ := hr
        rw [← ho]
        exact h.rp.get _ _
      · simp only [Option.some.injEq] at hs; subst hs; exact h.setJob trivial
      · simp at hs
    · rename_i ttl a rest old hj
      have hjs := h.jobs _ (List.mem_of_getElem? hj)
      split at hs
      · rename_i x hx
        simp only [Option.some.injEq] at hs; subst hs
        refine ⟨?_, ?_⟩
        · intro k e he
          simp only [Gache.set] at he
          split at he
          · rename_i hk
            simp only [Option.some.injEq] at he
            subst he
            rw [hk]
            exact insertAss_soundKey (newAssertion_conv hx) (hjs.1 a (by simp)) (hjs.2 old rfl a rest rfl)
          · exact h.rp k e he
        · intro j hjm
          rcases mem_set_cases hjm with hjm | rfl
          · exact h.jobs j hjm
          · exact ⟨fun b hb => hjs.1 b (by simp [hb]), by simp⟩
      · simp at hs
    · simp at hs
  | merge i k =>
    simp only [updStep] at hs
    split at hs
    · rename_i d m hj
      obtain ⟨hsub, cons, hm⟩ := h.jobs _ (List.mem_of_getElem? hj)
      split at hs
      · rename_i m' hm'
        simp only [Option.some.injEq] at hs; subst hs
        exact h.setJob ⟨hsub, hm.step hm'⟩
      · simp at hs
    · simp at hs
  | tick d => simp only [updStep, Option.some.injEq] at hs; subst hs; exact ⟨h.rp, h.jobs⟩
  | cancel => simp only [updStep, Option.some.injEq] at hs; subst hs; exact ⟨h.rp, h.jobs⟩

theorem UpdSound.run {U : CaseFns} {A : List RawAssertion} {s s' : UpdState} (h : UpdSound U A s) {as : List UpdAct}
    (hs : updRun U s as = some s') : UpdSound U A s' := by
  induction as generalizing s with
  | nil => simp only [updRun, Option.some.injEq] at hs; subst hs; exact h
  | cons a as ih =>
    simp only [updRun] at hs
    split at hs
    · simp at hs
    · rename_i s1 hs1; exact ih (h.step hs1) hs

/-! ### What holds if documents do not share roles and do not expire meanwhile -/

/-- The list that inserting assertions one after the other builds. -/
def fillList (U : CaseFns) (as : List RawAssertion) : Option (List Assertion) :=
  as.foldl (fun o a => match a.conv U with | some x => some (insertAss x o) | none => o) none

/-- What the cache holds for a role after the entries `filled` were inserted. -/
def content (U : CaseFns) (filled : List RawAssertion) (k : Str) : Option (List Assertion) :=
  fillList U (filled.filter fun a => a.role == k)

theorem fillList_snoc (U : CaseFns) (as : List RawAssertion) (a : RawAssertion) {x : Assertion} (h : a.conv U = some x) :
    fillList U (as ++ [a]) = some (insertAss x (fillList U as)) := by
  simp [fillList, List.foldl_append, h]

theorem content_snoc_same (U : CaseFns) (filled : List RawAssertion) (a : RawAssertion) {x : Assertion} (h : a.conv U = some x) :
    content U (filled ++ [a]) a.role = some (insertAss x (content U filled a.role)) := by
  simp only [content, List.filter_append]
  have : [a].filter (fun b => b.role == a.role) = [a] := by simp
  rw [this]
  exact fillList_snoc U _ a h

theorem content_snoc_other (U : CaseFns) (filled : List RawAssertion) (a : RawAssertion) {k : Str} (h : a.role ≠ k) :
    content U (filled ++ [a]) k = content U filled k := by
  simp only [content, List.filter_append]
  have : [a].filter (fun b => b.role == k) = [] := by simp [h]
  rw [this, List.append_nil]

/-- Time frame: the documents are valid during `[T0, T]`, and no sum overflows. -/
structure Frame (docs : List (Option PolicyDoc)) (T0 T : Int) : Prop where
  pos : 0 ≤ T0
  le : T0 ≤ T
  valid : ∀ d, some d ∈ docs → T < d.expires ∧ d.expires + T < 2 ^ 63

/-- Documents of different domains do not share role names. -/
def RolesDisjoint (docs : List (Option PolicyDoc)) : Prop :=
  ∀ (i j : Nat) (d d' : PolicyDoc), i ≠ j → docs[i]? = some (some d) → docs[j]? = some (some d') →
    ∀ a ∈ d.policies.flatten, ∀ b ∈ d'.policies.flatten, a.role ≠ b.role

/-- The cache holds exactly `filled` for the roles of document `d`. -/
def RoleContent (U : CaseFns) (T0 T : Int) (rp : Gache (List Assertion)) (d : PolicyDoc) (filled : List RawAssertion) : Prop :=
  ∀ b ∈ d.policies.flatten,
    (rp b.role = none ∧ content U filled b.role = none) ∨
    ∃ l e, rp b.role = some ⟨l, e⟩ ∧ content U filled b.role = some l ∧ d.expires ≤ e ∧ e ≤ d.expires + (T - T0)

def JobOk (U : CaseFns) (T0 T now : Int) (rp : Gache (List Assertion)) (f : Option PolicyDoc) : Job → Prop
  | .start f' => f' = f ∧ ∀ d, f = some d → ∀ a ∈ d.policies.flatten, rp a.role = none
  | .fetching f' => f' = f ∧ ∀ d, f = some d → ∀ a ∈ d.policies.flatten, rp a.role = none
  | .merge d m => f = some d ∧ (∃ cons, MergeInv U d m cons) ∧ ∀ a ∈ d.policies.flatten, rp a.role = none
  | .fill ttl todo pc => ∃ d filled n0, f = some d ∧ Merged U d (filled ++ todo) ∧ (∀ a ∈ filled, ∃ x, a.conv U = some x) ∧
      T0 ≤ n0 ∧ n0 ≤ now ∧ ttl = d.expires - n0 ∧ RoleContent U T0 T rp d filled ∧
      ∀ old, pc = some old → ∃ a rest, todo = a :: rest ∧ old = content U filled a.role
  | .done none => ∃ d filled, f = some d ∧ Merged U d filled ∧ (∀ a ∈ filled, ∃ x, a.conv U = some x) ∧
      RoleContent U T0 T rp d filled
  | .done (some _) => True

theorem JobOk.frame {U : CaseFns} {T0 T now now' : Int} {rp rp' : Gache (List Assertion)} {f : Option PolicyDoc} {j : Job}
    (h : JobOk U T0 T now rp f j) (hn : now ≤ now')
    (hrp : ∀ d, f = some d → ∀ a ∈ d.policies.flatten, rp' a.role = rp a.role) : JobOk U T0 T now' rp' f j := by
  have hrc : ∀ d filled, f = some d → RoleContent U T0 T rp d filled → RoleContent U T0 T rp' d filled := by
    intro d filled hd hc b hb
    rw [hrp d hd b hb]; exact hc b hb
  cases j with
  | start f' =>
    refine ⟨h.1, fun d hd a ha => ?_⟩
    rw [hrp d hd a ha]; exact h.2 d hd a ha
  | fetching f' =>
    refine ⟨h.1, fun d hd a ha => ?_⟩
    rw [hrp d hd a ha]; exact h.2 d hd a ha
  | merge d m =>
    refine ⟨h.1, h.2.1, fun a ha => ?_⟩
    rw [hrp d h.1 a ha]; exact h.2.2 a ha
  | fill ttl todo pc =>
    obtain ⟨d, filled, n0, h1, h2, h3, h4, h5, h6, h7, h8⟩ := h
    exact ⟨d, filled, n0, h1, h2, h3, h4, by omega, h6, hrc d filled h1 h7, h8⟩
  | done e =>
    cases e with
    | some e => trivial
    | none =>
      obtain ⟨d, filled, h1, h2, h3, h4⟩ := h
      exact ⟨d, filled, h1, h2, h3, hrc d filled h1 h4⟩

structure UpdInv (U : CaseFns) (docs : List (Option PolicyDoc)) (T0 T : Int) (s : UpdState) : Prop where
  lo : T0 ≤ s.now
  len : s.jobs.length = docs.length
  jobs : ∀ (i : Nat) (j : Job) (f : Option PolicyDoc), s.jobs[i]? = some j → docs[i]? = some f → JobOk U T0 T s.now s.rp f j
  outside : ∀ k, (∀ a ∈ allAssertions docs, a.role ≠ k) → s.rp k = none

theorem updInit_inv (U : CaseFns) (docs : List (Option PolicyDoc)) (T0 T : Int) :
    UpdInv U docs T0 T (updInit T0 docs) := by
  refine ⟨by simp [updInit], by simp [updInit], ?_, by intro k _; rfl⟩
  intro i j f hj hf
  simp only [updInit, List.getElem?_map, hf, Option.map_some, Option.some.injEq] at hj
  subst hj
  exact ⟨rfl, fun d _ a _ => rfl⟩

theorem UpdInv.setJob {U : CaseFns} {docs : List (Option PolicyDoc)} {T0 T : Int} {s : UpdState} (h : UpdInv U docs T0 T s)
    {i : Nat} {j0 j : Job} (h0 : s.jobs[i]? = some j0)
    (hj : ∀ f, docs[i]? = some f → JobOk U T0 T s.now s.rp f j) : UpdInv U docs T0 T { s with jobs := s.jobs.set i j } := by
  refine ⟨h.lo, by simpa using h.len, ?_, h.outside⟩
  intro i' j' f hj' hf
  rcases getElem?_set_cases h0 hj' with ⟨rfl, rfl⟩ | ⟨hne, hj'⟩
  · exact hj f hf
  · exact h.jobs i' j' f hj' hf

theorem UpdInv.step {U : CaseFns} {docs : List (Option PolicyDoc)} {T0 T : Int} {s s' : UpdState}
    (h : UpdInv U docs T0 T s) (hF : Frame docs T0 T) (hD : RolesDisjoint docs) {a : UpdAct}
    (hs : updStep U s a = some s') (hT : s'.now ≤ T) : UpdInv U docs T0 T s' := by
  cases a with
  | job i order =>
    simp only [updStep] at hs
    split at hs
    · rename_i f hj
      split at hs
      · simp only [Option.some.injEq] at hs; subst hs; exact h.setJob hj (fun _ _ => trivial)
      · simp only [Option.some.injEq] at hs; subst hs
        refine h.setJob hj (fun f hf => ?_)
        have := h.jobs i _ f hj hf
        exact this
    · rename_i hj
      simp only [Option.some.injEq] at hs; subst hs; exact h.setJob hj (fun _ _ => trivial)
    · rename_i d hj
      simp only [Option.some.injEq] at hs; subst hs
      refine h.setJob hj (fun f hf => ?_)
      obtain ⟨h1, h2⟩ := h.jobs i _ f hj hf
      subst h1
      exact ⟨rfl, ⟨_, mergeInit_inv U d⟩, h2 d rfl⟩
    · rename_i d m hj
      split at hs
      · rename_i hfin
        split at hs
        · simp only [Option.some.injEq] at hs; subst hs; exact h.setJob hj (fun _ _ => trivial)
        · rename_i hnf
          split at hs
          · rename_i hperm
            simp only [Option.some.injEq] at hs; subst hs
            simp only at hT
            refine h.setJob hj (fun f hf => ?_)
            obtain ⟨h1, ⟨cons, hm⟩, h2⟩ := h.jobs i _ f hj hf
            subst h1
            have hv := hF.valid d (List.mem_of_getElem? hf)
            have hp := hF.pos
            have hlo := h.lo
            refine ⟨d, [], s.now, rfl, by simpa using (hm.merged hfin (by simpa using hnf)).perm hperm, by simp, h.lo, by omega,
              ?_, ?_, by simp⟩
            · unfold satSub; omega
            · intro b hb; exact .inl ⟨h2 b hb, rfl⟩
          · simp at hs
      · simp at hs
    · rename_i ttl pc hj
      simp only [Option.some.injEq] at hs; subst hs
      refine h.setJob hj (fun f hf => ?_)
      obtain ⟨d, filled, n0, h1, h2, h3, h4, h5, h6, h7, h8⟩ := h.jobs i _ f hj hf
      exact ⟨d, filled, h1, by simpa using h2, h3, h7⟩
    · rename_i ttl a rest hj
      split at hs
      · rename_i x hx
        simp only [Option.some.injEq] at hs; subst hs
        simp only at hT
        refine h.setJob hj (fun f hf => ?_)
        obtain ⟨d, filled, n0, h1, h2, h3, h4, h5, h6, h7, h8⟩ := h.jobs i _ f hj hf
        refine ⟨d, filled, n0, h1, h2, h3, h4, h5, h6, h7, ?_⟩
        intro old ho
        simp only [Option.some.injEq] at ho
        refine ⟨a, rest, rfl, ?_⟩
        rw [← ho]
        have had : a ∈ d.policies.flatten := h2.sub a (by simp)
        have hv := hF.valid d (by rw [← h1]; exact List.mem_of_getElem? hf)
        rcases h7 a had with ⟨hr, hc⟩ | ⟨l, e, hr, hc, he, _⟩
        · simp [Gache.get, hr, hc]
        · have hval : Gache.valid s.now (⟨l, e⟩ : GEntry (List Assertion)) = true := by
            simp only [Gache.valid, Bool.or_eq_true, decide_eq_true_eq]; omega
          simp [Gache.get, hr, hc, hval]
      · simp only [Option.some.injEq] at hs; subst hs; exact h.setJob hj (fun _ _ => trivial)
      · simp at hs
    · rename_i ttl a rest old hj
      split at hs
      · rename_i x hx
        have hx := newAssertion_conv hx
        simp only [Option.some.injEq] at hs; subst hs
        simp only at hT
        obtain ⟨f, hf⟩ : ∃ f, docs[i]? = some f := by
          have hlt : i < s.jobs.length := by
            by_cases hlt : i < s.jobs.length
            · exact hlt
            · rw [List.getElem?_eq_none (by omega)] at hj; simp at hj
          exact ⟨_, List.getElem?_eq_getElem (by rw [← h.len]; exact hlt)⟩
        obtain ⟨d, filled, n0, h1, h2, h3, h4, h5, h6, h7, h8⟩ := h.jobs i _ f hj hf
        subst h1
        obtain ⟨a', rest', hr, ho⟩ := h8 old rfl
        simp only [List.cons.injEq] at hr
        obtain ⟨rfl, rfl⟩ := hr
        have had : a ∈ d.policies.flatten := h2.sub a (by simp)
        have hv := hF.valid d (List.mem_of_getElem? hf)
        have hp := hF.pos
        have hlo := h.lo
        have httl : ttl > 0 := by omega
        have hw : wrap64 (s.now + ttl) = s.now + ttl := wrap64_id (by unfold IsInt64; omega)
        refine ⟨h.lo, by simpa using h.len, ?_, ?_⟩
        · intro i' j' f' hj' hf'
          rcases getElem?_set_cases hj hj' with ⟨rfl, rfl⟩ | ⟨hne, hj'⟩
          · rw [hf] at hf'
            simp only [Option.some.injEq] at hf'
            subst hf'
            refine ⟨d, filled ++ [a], n0, rfl, by simpa using h2, ?_, h4, h5, h6, ?_, by simp⟩
            · intro b hb
              rcases List.mem_append.mp hb with hb | hb
              · exact h3 b hb
              · simp at hb; subst hb; exact ⟨x, hx⟩
            · intro b hb
              by_cases hbr : b.role = a.role
              · right
                refine ⟨insertAss x old, s.now + ttl, ?_, ?_, by omega, by omega⟩
                · simp [Gache.set, hbr, httl, hw]
                · rw [hbr, content_snoc_same U filled a hx, ho]
              · rw [content_snoc_other U filled a (Ne.symm hbr)]
                have : (s.rp.set s.now a.role (insertAss x old) ttl) b.role = s.rp b.role := by simp [Gache.set, hbr]
                simp only [this]
                exact h7 b hb
          · refine (h.jobs i' j' f' hj' hf').frame (Int.le_refl _) ?_
            intro d' hd' b hb
            subst hd'
            have := hD i' i d' d hne hf' hf b hb a had
            simp [Gache.set, this]
        · intro k hk
          have : k ≠ a.role := by
            have := hk a (mem_allAssertions.mpr ⟨d, List.mem_of_getElem? hf, had⟩)
            exact Ne.symm this
          simp only [Gache.set, this, if_false]
          exact h.outside k hk
      · simp at hs
    · simp at hs
  | merge i k =>
    simp only [updStep] at hs
    split at hs
    · rename_i d m hj
      split at hs
      · rename_i m' hm'
        simp only [Option.some.injEq] at hs; subst hs
        refine h.setJob hj (fun f hf => ?_)
        obtain ⟨h1, ⟨cons, hm⟩, h2⟩ := h.jobs i _ f hj hf
        exact ⟨h1, hm.step hm', h2⟩
      · simp at hs
    · simp at hs
  | tick n =>
    simp only [updStep, Option.some.injEq] at hs; subst hs
    have hlo := h.lo
    refine ⟨by simp only; omega, h.len, ?_, h.outside⟩
    intro i j f hj hf
    exact (h.jobs i j f hj hf).frame (by simp only; omega) (fun _ _ _ _ => rfl)
  | cancel => simp only [updStep, Option.some.injEq] at hs; subst hs; exact ⟨h.lo, h.len, h.jobs, h.outside⟩

theorem updStep_now {U : CaseFns} {s s' : UpdState} {a : UpdAct} (hs : updStep U s a = some s') : s.now ≤ s'.now := by
  cases a with
  | job i order =>
    simp only [updStep] at hs
    repeat' split at hs
    all_goals first
      | (simp only [Option.some.injEq] at hs; subst hs; exact Int.le_refl _)
      | simp at hs
  | merge i k =>
    simp only [updStep] at hs
    repeat' split at hs
    all_goals first
      | (simp only [Option.some.injEq] at hs; subst hs; exact Int.le_refl _)
      | simp at hs
  | tick n => simp only [updStep, Option.some.injEq] at hs; subst hs; simp only; omega
  | cancel => simp only [updStep, Option.some.injEq] at hs; subst hs; exact Int.le_refl _

theorem updRun_now {U : CaseFns} {s s' : UpdState} {as : List UpdAct} (hs : updRun U s as = some s') : s.now ≤ s'.now := by
  induction as generalizing s with
  | nil => simp only [updRun, Option.some.injEq] at hs; subst hs; exact Int.le_refl _
  | cons a as ih =>
    simp only [updRun] at hs
    split at hs
    · simp at hs
    · rename_i s1 hs1
      exact Int.le_trans (updStep_now hs1) (ih hs)

theorem UpdInv.run {U : CaseFns} {docs : List (Option PolicyDoc)} {T0 T : Int} {s s' : UpdState}
    (h : UpdInv U docs T0 T s) (hF : Frame docs T0 T) (hD : RolesDisjoint docs) {as : List UpdAct}
    (hs : updRun U s as = some s') (hT : s'.now ≤ T) : UpdInv U docs T0 T s' := by
  induction as generalizing s with
  | nil => simp only [updRun, Option.some.injEq] at hs; subst hs; exact h
  | cons a as ih =>
    simp only [updRun] at hs
    split at hs
    · simp at hs
    · rename_i s1 hs1
      exact ih (h.step hF hD hs1 (Int.le_trans (updRun_now hs) hT)) hs

/-! ### The finished cache represents the documents -/

theorem content_denyFirst (U : CaseFns) (filled : List RawAssertion) (k : Str) :
    ∀ l, content U filled k = some l → DenyFirst l := by
  unfold content
  generalize filled.filter (fun a => a.role == k) = as
  suffices h : ∀ (as : List RawAssertion) (o : Option (List Assertion)), (∀ l, o = some l → DenyFirst l) →
      ∀ l, as.foldl (fun o a => match a.conv U with | some x => some (insertAss x o) | none => o) o = some l → DenyFirst l from
    h as none (by simp)
  intro as
  induction as with
  | nil => intro o ho l hl; exact ho l hl
  | cons a as ih =>
    intro o ho l hl
    simp only [List.foldl_cons] at hl
    refine ih _ ?_ l hl
    intro l' hl'
    cases hc : a.conv U with
    | none => rw [hc] at hl'; exact ho l' hl'
    | some x =>
      rw [hc] at hl'
      simp only [Option.some.injEq] at hl'
      subst hl'
      exact insertAss_denyFirst (conv_effect_cases hc) ho

theorem content_perm (U : CaseFns) (filled : List RawAssertion) (k : Str) :
    ((content U filled k).getD []).Perm ((filled.filter fun a => a.role == k).filterMap (RawAssertion.conv U)) := by
  unfold content fillList
  generalize filled.filter (fun a => a.role == k) = as
  suffices h : ∀ (as : List RawAssertion) (o : Option (List Assertion)),
      ((as.foldl (fun o a => match a.conv U with | some x => some (insertAss x o) | none => o) o).getD []).Perm
        (o.getD [] ++ as.filterMap (RawAssertion.conv U)) by
    simpa using h as none
  intro as
  induction as with
  | nil => intro o; simp
  | cons a as ih =>
    intro o
    simp only [List.foldl_cons]
    refine (ih _).trans ?_
    cases hc : a.conv U with
    | none => simp [hc]
    | some x =>
      rw [List.filterMap_cons, hc]
      simp only [Option.getD_some]
      have h1 := (insertAss_perm x o).append_right (as.filterMap (RawAssertion.conv U))
      refine h1.trans ?_
      simp only [List.cons_append]
      exact List.perm_middle.symm

theorem content_eq_none {U : CaseFns} {filled : List RawAssertion} {k : Str} (hconv : ∀ a ∈ filled, ∃ x, a.conv U = some x)
    (h : content U filled k = none) : ∀ a ∈ filled, a.role ≠ k := by
  intro a ha hr
  have hmem : a ∈ filled.filter fun a => a.role == k := List.mem_filter.mpr ⟨ha, by simpa using hr⟩
  have hp := content_perm U filled k
  rw [h] at hp
  obtain ⟨x, hx⟩ := hconv a ha
  have := hp.mem_iff.mpr (List.mem_filterMap.mpr ⟨a, hmem, hx⟩)
  simp at this

theorem mem_content {U : CaseFns} {filled : List RawAssertion} {k : Str} {l : List Assertion}
    (h : content U filled k = some l) {x : Assertion} : x ∈ l ↔ ∃ a ∈ filled, a.role = k ∧ a.conv U = some x := by
  have hp := content_perm U filled k
  rw [h] at hp
  simp only [Option.getD_some] at hp
  rw [hp.mem_iff, List.mem_filterMap]
  constructor
  · rintro ⟨a, ha, hx⟩
    obtain ⟨ha, hr⟩ := List.mem_filter.mp ha
    exact ⟨a, ha, by simpa using hr, hx⟩
  · rintro ⟨a, ha, hr, hx⟩
    exact ⟨a, List.mem_filter.mpr ⟨ha, by simpa using hr⟩, hx⟩

/-- No commas in roles and actions, so that `km` identifies the triple. -/
def CommaFree (A : List RawAssertion) : Prop := ∀ a ∈ A, ',' ∉ a.role ∧ ',' ∉ a.action

theorem append_sep_inj {c : Char} {a b a' b' : Str} (h : a ++ c :: b = a' ++ c :: b') (ha : c ∉ a) (ha' : c ∉ a') :
    a = a' ∧ b = b' := by
  have h1 := (Str.cut_singleton_iff (s := a ++ c :: b)).mpr ⟨rfl, ha⟩
  have h2 := (Str.cut_singleton_iff (s := a ++ c :: b)).mpr ⟨h, ha'⟩
  rw [h1] at h2
  simpa using h2

theorem key_inj {a b : RawAssertion} (h : a.key = b.key) (ha : ',' ∉ a.role ∧ ',' ∉ a.action)
    (hb : ',' ∉ b.role ∧ ',' ∉ b.action) : a.role = b.role ∧ a.action = b.action ∧ a.resource = b.resource := by
  obtain ⟨h1, h2⟩ := append_sep_inj h ha.1 hb.1
  obtain ⟨h3, h4⟩ := append_sep_inj h2 ha.2 hb.2
  exact ⟨h1, h3, h4⟩

/-- Every policy that mentions a triple denied somewhere in the document denies it, too. -/
def DenySafe (U : CaseFns) (d : PolicyDoc) : Prop := ∀ a ∈ d.policies.flatten, Spec.IsDeny U a → Spec.DeniedByAll U d.policies a

theorem Spec.SameTriple.key {a b : RawAssertion} (h : Spec.SameTriple a b) : b.key = a.key := by
  obtain ⟨h1, h2, h3⟩ := h
  simp only [RawAssertion.key, h1, h2, h3]

theorem joined_eq (a : RawAssertion) : Spec.joined a = a.key := by
  simp [Spec.joined, RawAssertion.key]

theorem keySafe_of {U : CaseFns} {d : PolicyDoc} {a : RawAssertion} (hun : ∀ b ∈ d.policies.flatten, b.key = a.key → Spec.SameTriple a b)
    (h : Spec.DeniedByAll U d.policies a) : KeySafe U d a.key := by
  rintro p hp ⟨b, hb, hk⟩
  obtain ⟨c, hc, hct, hcd⟩ := h p hp ⟨b, hb, hun b (List.mem_flatten.mpr ⟨p, hp, hb⟩) hk⟩
  exact ⟨c, hc, hct.key, (isDeny_iff U c).mpr hcd⟩

theorem DenySafe.key {U : CaseFns} {d : PolicyDoc} (h : DenySafe U d) (hC : CommaFree d.policies.flatten) {a : RawAssertion}
    (ha : a ∈ d.policies.flatten) (hd : a.isDeny U = true) : KeySafe U d a.key :=
  keySafe_of (fun b hb hk => key_inj hk (hC b hb) (hC a ha)) (h a ha ((isDeny_iff U a).mp hd))

/-- After a successful update the cache represents the documents at every time up to their expiry. -/
theorem UpdInv.rep {U : CaseFns} {docs : List (Option PolicyDoc)} {T0 T : Int} {s : UpdState} (h : UpdInv U docs T0 T s)
    (hD : RolesDisjoint docs) (hok : s.succeeded)
    (hR : ∀ d, some d ∈ docs → DenySafe U d) (hC : CommaFree (allAssertions docs)) (t : Int)
    (ht : ∀ d, some d ∈ docs → t ≤ d.expires) (k : Str) : RepKey U (allAssertions docs) k (viewOf s.rp t k) := by
  by_cases hk : ∀ a ∈ allAssertions docs, a.role ≠ k
  · have := h.outside k hk
    have hv : viewOf s.rp t k = none := by simp [viewOf, Gache.get, this]
    rw [hv]
    exact ⟨by simp, by simp, fun a ha hr => absurd hr (hk a ha)⟩
  · simp only [Classical.not_forall, Classical.not_not, ne_eq] at hk
    obtain ⟨a0, ha0, rfl⟩ := hk
    obtain ⟨d, hd, had⟩ := mem_allAssertions.mp ha0
    obtain ⟨i, hi⟩ := List.mem_iff_getElem?.mp hd
    have hlt : i < s.jobs.length := by
      rw [h.len]
      by_cases hlt : i < docs.length
      · exact hlt
      · rw [List.getElem?_eq_none (by omega)] at hi; simp at hi
    have hj := List.getElem?_eq_getElem hlt
    have hdone := hok _ (List.getElem_mem hlt)
    rw [hdone] at hj
    obtain ⟨d', filled, h1, h2, h3, h4⟩ := h.jobs i _ _ hj hi
    simp only [Option.some.injEq] at h1
    subst h1
    -- every assertion about this role is in document `d`
    have hsame : ∀ a ∈ allAssertions docs, a.role = a0.role → a ∈ d.policies.flatten := by
      intro a ha hr
      obtain ⟨d', hd', had'⟩ := mem_allAssertions.mp ha
      obtain ⟨j, hj⟩ := List.mem_iff_getElem?.mp hd'
      by_cases hij : i = j
      · subst hij; rw [hi] at hj; simp only [Option.some.injEq] at hj; subst hj; exact had'
      · exact absurd hr.symm (hD i j d d' hij hi hj a0 had a had')
    have hcomp : ∀ a ∈ d.policies.flatten, ∃ b ∈ filled, b.role = a.role ∧ b.action = a.action ∧ b.resource = a.resource ∧
        (a.isDeny U = true → b.isDeny U = true) := by
      intro a ha
      have hca := hC a (mem_allAssertions.mpr ⟨d, hd, ha⟩)
      cases hden : a.isDeny U with
      | true =>
        obtain ⟨b, hb, hbk, hbd⟩ := h2.deny a ha ((hR d hd).key (fun b hb => hC b (mem_allAssertions.mpr ⟨d, hd, hb⟩)) ha hden)
        have hcb := hC b (mem_allAssertions.mpr ⟨d, hd, h2.sub b hb⟩)
        obtain ⟨h5, h6, h7⟩ := key_inj hbk hcb hca
        exact ⟨b, hb, h5, h6, h7, fun _ => hbd⟩
      | false =>
        obtain ⟨b, hb, hbk⟩ := h2.cover a ha
        have hcb := hC b (mem_allAssertions.mpr ⟨d, hd, h2.sub b hb⟩)
        obtain ⟨h5, h6, h7⟩ := key_inj hbk hcb hca
        exact ⟨b, hb, h5, h6, h7, by simp⟩
    rcases h4 a0 had with ⟨hr, hc⟩ | ⟨l, e, hr, hc, he, _⟩
    · exfalso
      obtain ⟨b, hb, hbr, _⟩ := hcomp a0 had
      exact content_eq_none h3 hc b hb hbr
    · have hval : Gache.valid t (⟨l, e⟩ : GEntry (List Assertion)) = true := by
        have := ht d hd
        simp only [Gache.valid, Bool.or_eq_true, decide_eq_true_eq]; omega
      have hv : viewOf s.rp t a0.role = some l := by simp [viewOf, Gache.get, hr, hval]
      rw [hv]
      refine ⟨?_, ?_, ?_⟩
      · intro l' hl'; simp only [Option.some.injEq] at hl'; subst hl'
        exact content_denyFirst U filled _ l hc
      · intro l' hl' x hx; simp only [Option.some.injEq] at hl'; subst hl'
        obtain ⟨a, ha, hr', hx'⟩ := (mem_content hc).mp hx
        exact ⟨a, mem_allAssertions.mpr ⟨d, hd, h2.sub a ha⟩, hr', hx'⟩
      · intro a ha hr'
        refine ⟨l, rfl, ?_⟩
        obtain ⟨b, hb, h5, h6, h7, h8⟩ := hcomp a (hsame a ha hr')
        obtain ⟨x, hx⟩ := h3 b hb
        exact ⟨b, x, (mem_content hc).mpr ⟨b, hb, by rw [h5, hr'], hx⟩, hx, h5, h6, h7, h8⟩

end Athenz
