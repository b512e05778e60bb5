import Verif.Spec.RotateJwk
import Verif.Proofs.Jwkd
import Verif.Proofs.Fair
import Verif.Proofs.Rotate

/-! Updates of the JWK daemon end, and what they leave behind. -/

namespace Athenz
open Spec

/-- What a moment does: nothing, or a step. -/
theorem Spec.JwkExec.step {cfg : JwkCfg} (x : JwkExec cfg) (n : Nat) :
    (x.act n = none ∧ x.state (n + 1) = x.state n) ∨ ∃ a, x.act n = some a ∧ JwkEffect cfg (x.state n) a (x.state (n + 1)) := by
  have h := x.next n
  cases ha : x.act n with
  | none => rw [ha] at h; exact .inl ⟨rfl, h⟩
  | some a => rw [ha] at h; exact .inr ⟨a, rfl, jwkStep_effect h⟩

/-- What an update still has to do. -/
def JwkJob.left (b : JwkJob) : Nat := 2 * b.todo.length - (if b.got.isSome then 1 else 0)

/-- A step keeps every update where it is, except the one whose step it is, which comes nearer to its end. -/
theorem jwkJob_step {cfg : JwkCfg} {s s' : JwkState} {a : JwkAct} (he : JwkEffect cfg s a s') {j : Nat} {b : JwkJob} (hb : s.jobs[j]? = some b) :
    ∃ b', s'.jobs[j]? = some b' ∧ (OfJwkJob j a → b'.left < b.left) ∧ (¬ OfJwkJob j a → b' = b) := by
  have hl := lt_of_getElem? hb
  have hset : ∀ (i : Nat) (b0 b1 : JwkJob), s.jobs[i]? = some b0 → b1.left < b0.left → (OfJwkJob j a ↔ i = j) →
      ∃ b', (s.jobs.set i b1)[j]? = some b' ∧ (OfJwkJob j a → b'.left < b.left) ∧ (¬ OfJwkJob j a → b' = b) := by
    intro i b0 b1 h0 hlt hof
    by_cases hij : i = j
    · subst hij
      rw [hb] at h0
      simp only [Option.some.injEq] at h0
      subst h0
      exact ⟨b1, List.getElem?_set_self hl, fun _ => hlt, fun h => absurd (hof.mpr rfl) h⟩
    · exact ⟨b, by rw [List.getElem?_set_ne hij]; exact hb, fun h => absurd (hof.mp h) hij, fun _ => rfl⟩
  cases he with
  | update => exact ⟨b, by simp only; rw [List.getElem?_append_left hl]; exact hb, fun h => absurd h (by simp [OfJwkJob]), fun _ => rfl⟩
  | failed i url rest failed hi => exact hset i _ _ hi (by simp [JwkJob.left]) Iff.rfl
  | got i url rest failed set hi => exact hset i _ _ hi (by simp [JwkJob.left]; omega) Iff.rfl
  | stored i url rest failed set hi => exact hset i _ _ hi (by simp [JwkJob.left]; omega) Iff.rfl

/-- An update that is not at its end can go on. -/
theorem jwkJob_enabled {cfg : JwkCfg} {s : JwkState} {j : Nat} {b : JwkJob} (hb : s.jobs[j]? = some b) (hn : b.todo ≠ []) :
    ∃ a, OfJwkJob j a ∧ (jwkStep cfg s a).isSome := by
  obtain ⟨todo, got, failed⟩ := b
  cases todo with
  | nil => exact absurd rfl hn
  | cons url rest =>
    cases got with
    | none => exact ⟨.fetch j none, rfl, by simp [jwkStep, hb]⟩
    | some set => exact ⟨.store j, rfl, by simp [jwkStep, hb]⟩

theorem jwkJob_from {cfg : JwkCfg} (x : JwkExec cfg) {n j : Nat} {b : JwkJob} (hb : (x.state n).jobs[j]? = some b) :
    ∀ m, n ≤ m → ∃ b', (x.state m).jobs[j]? = some b' ∧ b'.left ≤ b.left := by
  refine from_ind ⟨b, hb, Nat.le_refl _⟩ ?_
  rintro m hm ⟨b', h1, h2⟩
  rcases x.step m with ⟨_, h⟩ | ⟨a, _, h⟩
  · rw [h]; exact ⟨b', h1, h2⟩
  · obtain ⟨b2, h3, h4, h5⟩ := jwkJob_step h h1
    refine ⟨b2, h3, ?_⟩
    by_cases ho : OfJwkJob j a
    · have := h4 ho; omega
    · rw [h5 ho]; exact h2

/-- Every update comes to its end. -/
theorem jwkJob_ends {cfg : JwkCfg} (x : JwkExec cfg) (hf : JwkFair x) (j n : Nat) (b : JwkJob) (hb : (x.state n).jobs[j]? = some b) :
    ∃ m b', n ≤ m ∧ (x.state m).jobs[j]? = some b' ∧ b'.todo = [] := by
  let left : JwkState → Nat := fun s => match s.jobs[j]? with | some b => b.left | none => 0
  obtain ⟨m, hm, b', h1, h2⟩ := fair_reaches Nat.lt_wfRel.wf x.state x.act (fun _ a => ∃ b, a = some b ∧ OfJwkJob j b)
    (fun s => ∃ a, OfJwkJob j a ∧ (jwkStep cfg s a).isSome) (fun s => ∃ b, s.jobs[j]? = some b)
    (fun s => ∃ b', s.jobs[j]? = some b' ∧ b'.todo = []) left
    (fun n h => by obtain ⟨m, a, h1, h2, h3⟩ := hf j n h; exact ⟨m, h1, a, h2, h3⟩)
    (by
      rintro m ⟨b', h1⟩ hng
      exact jwkJob_enabled h1 fun h => hng ⟨b', h1, h⟩)
    (by
      rintro m ⟨b', h1⟩ _
      rcases x.step m with ⟨ha, h⟩ | ⟨a, ha, h⟩
      · rw [h, ha]
        exact ⟨⟨b', h1⟩, by simp, fun _ => rfl⟩
      · obtain ⟨b2, h3, h4, h5⟩ := jwkJob_step h h1
        refine ⟨⟨b2, h3⟩, ?_, ?_⟩
        · rintro ⟨a', h6, h7⟩
          rw [ha] at h6
          simp only [Option.some.injEq] at h6
          subst h6
          show left _ < left _
          simp only [left, h1, h3]
          exact h4 h7
        · intro hno
          have : ¬ OfJwkJob j a := fun h => hno ⟨a, ha, h⟩
          simp only [left, h1, h3, h5 this])
    n ⟨b, hb⟩
  exact ⟨m, b', hm, h1, h2⟩

theorem jwk_nil_from {cfg : JwkCfg} (x : JwkExec cfg) {n m j : Nat} {b : JwkJob} (hb : (x.state n).jobs[j]? = some b) (hd : b.todo = []) (hm : n ≤ m) :
    (x.state m).jobs[j]? = some b := by
  refine from_ind (P := fun m => (x.state m).jobs[j]? = some b) hb ?_ m hm
  intro m hm ih
  rcases x.step m with ⟨_, h⟩ | ⟨a, _, h⟩
  · rw [h]; exact ih
  · obtain ⟨b2, h3, h4, h5⟩ := jwkJob_step h ih
    have : ¬ OfJwkJob j a := by
      intro ho
      have := h4 ho
      simp [JwkJob.left, hd] at this
    rw [h3, h5 this]

/-- The updates that have begun come to an end. -/
theorem jwk_over {cfg : JwkCfg} (x : JwkExec cfg) (hf : JwkFair x) (N : Nat) :
    ∃ M, N ≤ M ∧ ∀ (j : Nat), j < (x.state N).jobs.length → ∃ b : JwkJob, (x.state M).jobs[j]? = some b ∧ b.todo = [] := by
  have : ∀ l, l ≤ (x.state N).jobs.length → ∃ M, N ≤ M ∧ ∀ (j : Nat), j < l → ∃ b : JwkJob, (x.state M).jobs[j]? = some b ∧ b.todo = [] := by
    intro l
    induction l with
    | zero => exact fun _ => ⟨N, Nat.le_refl N, by simp⟩
    | succ l ih =>
      intro hl
      obtain ⟨M, hM, h⟩ := ih (by omega)
      obtain ⟨m, b', h1, h2, h4⟩ := jwkJob_ends x hf l N _ (List.getElem?_eq_getElem (by omega))
      refine ⟨M + m, by omega, fun j hj => ?_⟩
      by_cases hjl : j = l
      · subst hjl
        exact ⟨b', jwk_nil_from x h2 h4 (by omega), h4⟩
      · obtain ⟨b, hb, hd⟩ := h j (by omega)
        exact ⟨b, jwk_nil_from x hb hd (by omega), hd⟩
  exact this _ (Nat.le_refl _)

/-- Whoever has a set for the URL has the right one. -/
def AllGot (s : JwkState) (url : Str) (set : JwkSet) : Prop :=
  ∀ (j : Nat) (b : JwkJob) (rest : List Str) (set' : JwkSet), s.jobs[j]? = some b → b.todo = url :: rest → b.got = some set' → set' = set

/-- Once the updates that were running when the set changed are over, only the new set is stored. -/
theorem allGot {cfg : JwkCfg} (x : JwkExec cfg) {N M : Nat} {url : Str} {set : JwkSet} (hs : ServesSet x N url set) (hM : N ≤ M)
    (ho : ∀ (j : Nat), j < (x.state N).jobs.length → ∃ b : JwkJob, (x.state M).jobs[j]? = some b ∧ b.todo = []) :
    ∀ m, M ≤ m → AllGot (x.state m) url set := by
  -- the updates that began after `N` have the new set all the time
  have hnew : ∀ m, N ≤ m → ∀ (j : Nat) (b : JwkJob) (rest : List Str) (set' : JwkSet), (x.state N).jobs.length ≤ j → (x.state m).jobs[j]? = some b →
      b.todo = url :: rest → b.got = some set' → set' = set := by
    refine from_ind ?_ ?_
    · intro j b rest set' hj hb
      rw [List.getElem?_eq_none hj] at hb; simp at hb
    · intro m hm ih j b rest set' hj hb ht hg
      rcases x.step m with ⟨_, h⟩ | ⟨a, ha, h⟩
      · rw [h] at hb; exact ih j b rest set' hj hb ht hg
      · generalize x.state (m + 1) = s' at h hb
        cases h with
        | update =>
          rcases getElem?_append_cases hb with hb | ⟨_, rfl⟩
          · exact ih j b rest set' hj hb ht hg
          · simp at hg
        | failed i u r failed hi =>
          rcases getElem?_set_cases' hb with ⟨_, rfl⟩ | ⟨_, hb⟩
          · simp at hg
          · exact ih j b rest set' hj hb ht hg
        | got i u r failed st hi =>
          rcases getElem?_set_cases' hb with ⟨hij, rfl⟩ | ⟨_, hb⟩
          · simp only [List.cons.injEq, Option.some.injEq] at ht hg
            obtain ⟨rfl, _⟩ := ht
            subst hg
            exact hs m hm i st ha ⟨_, _, hi, rfl⟩
          · exact ih j b rest set' hj hb ht hg
        | stored i u r failed st hi =>
          rcases getElem?_set_cases' hb with ⟨_, rfl⟩ | ⟨_, hb⟩
          · simp at hg
          · exact ih j b rest set' hj hb ht hg
  intro m hm j b rest set' hb ht hg
  by_cases hj : j < (x.state N).jobs.length
  · obtain ⟨b0, h0, h1⟩ := ho j hj
    have := jwk_nil_from x h0 h1 hm
    rw [hb] at this
    simp only [Option.some.injEq] at this
    subst this
    rw [h1] at ht; simp at ht
  · exact hnew m (by omega) j b rest set' (by omega) hb ht hg

/-- From then on a set that is in place stays. -/
theorem jwk_stays {cfg : JwkCfg} (x : JwkExec cfg) {M : Nat} {url : Str} {set : JwkSet} (hg : ∀ m, M ≤ m → AllGot (x.state m) url set) {m : Nat}
    (hm : M ≤ m) (h : (x.state m).keys.load url = some set) : ∀ k, m ≤ k → (x.state k).keys.load url = some set := by
  refine from_ind h ?_
  intro k hk ih
  rcases x.step k with ⟨_, h⟩ | ⟨a, ha, h⟩
  · rw [h]; exact ih
  · generalize x.state (k + 1) = s' at h
    cases h with
    | stored i u r failed st hi =>
      simp only [SMap.load_store]
      split
      · rename_i hu
        subst hu
        rw [hg k (by omega) i _ _ st hi rfl rfl]
      · exact ih
    | _ => exact ih

/-- A set that has been fetched is stored. -/
theorem jwk_delivers {cfg : JwkCfg} (x : JwkExec cfg) (hf : JwkFair x) {M m j : Nat} {url : Str} {set set' : JwkSet}
    (hg : ∀ m, M ≤ m → AllGot (x.state m) url set) (hm : M ≤ m) (ha : x.act m = some (.fetch j (some set'))) (hw : WorksOn (x.state m) j url) :
    ∃ k, m ≤ k ∧ (x.state k).keys.load url = some set := by
  have hgot : ∃ rest failed, (x.state (m + 1)).jobs[j]? = some ⟨url :: rest, some set', failed⟩ := by
    obtain ⟨b, rest, hb, ht⟩ := hw
    rcases x.step m with ⟨h, _⟩ | ⟨a, h, he⟩
    · rw [ha] at h; simp at h
    · rw [ha] at h
      simp only [Option.some.injEq] at h
      subst h
      generalize x.state (m + 1) = s' at he
      cases he with
      | got i u r failed st hi =>
        rw [hb] at hi
        simp only [Option.some.injEq] at hi
        subst hi
        simp only [List.cons.injEq] at ht
        obtain ⟨rfl, rfl⟩ := ht
        exact ⟨_, _, List.getElem?_set_self (lt_of_getElem? hb)⟩
  obtain ⟨rest, failed, hgot⟩ := hgot
  obtain ⟨k, b', hk, hb', hd⟩ := jwkJob_ends x hf j (m + 1) _ hgot
  -- until the store the update stays where it is
  have : ∀ k, m + 1 ≤ k → (∃ i, m ≤ i ∧ (x.state i).keys.load url = some set) ∨ (x.state k).jobs[j]? = some ⟨url :: rest, some set', failed⟩ := by
    refine from_ind (.inr hgot) ?_
    intro k hk ih
    rcases ih with ih | ih
    · exact .inl ih
    rcases x.step k with ⟨_, h⟩ | ⟨a, _, h⟩
    · rw [h]; exact .inr ih
    · by_cases hst : OfJwkJob j a
      · left
        refine ⟨k + 1, by omega, ?_⟩
        generalize x.state (k + 1) = s' at h
        cases h with
        | update => simp [OfJwkJob] at hst
        | failed i u r f hi => simp only [OfJwkJob] at hst; subst hst; rw [ih] at hi; simp at hi
        | got i u r f st hi => simp only [OfJwkJob] at hst; subst hst; rw [ih] at hi; simp at hi
        | stored i u r f st hi =>
          simp only [OfJwkJob] at hst
          subst hst
          have hhi := hi
          rw [ih] at hi
          simp only [Option.some.injEq, JwkJob.mk.injEq, List.cons.injEq] at hi
          obtain ⟨⟨rfl, rfl⟩, rfl, rfl⟩ := hi
          simp only [SMap.load_store, if_true]
          rw [hg k (by omega) i _ _ set' hhi rfl rfl]
      · obtain ⟨b2, h3, _, h5⟩ := jwkJob_step h ih
        rw [h3, h5 hst]
        exact .inr rfl
  rcases this k hk with ⟨i, h1, h2⟩ | h
  · exact ⟨i, h1, h2⟩
  · rw [hb'] at h
    simp only [Option.some.injEq] at h
    subst h
    simp at hd

end Athenz
