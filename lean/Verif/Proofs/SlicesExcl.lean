import Verif.Proofs.Slices

/-! Without two goroutines filling the same role at the same time, slices are as good as lists. -/

namespace Athenz

/-- A goroutine may begin if no other one still has assertions about one of its roles. -/
def Excl (s : HState) : HAct → Prop
  | .begin _ todo => ∀ b ∈ todo, ∀ ttl td pc, HJob.fill ttl td pc ∈ s.jobs → ∀ c ∈ td, c.role ≠ b.role
  | _ => True

def ExclRun (U : CaseFns) (s : HState) : List HAct → Prop
  | [] => True
  | a :: as => Excl s a ∧ ∀ s', hStep U s a = some s' → ExclRun U s' as

/-- The slice ends where its array ends. -/
def Tight (heap : List Arr) (s : Slice) : Prop := ∃ A, heap[s.arr]? = some A ∧ s.len = A.cells.length

/-- Goroutine `i` has added an assertion about role `k` to the array but not stored the slice yet. -/
def Making (jobs : List HJob) (k : Str) : Prop :=
  ∃ (i : Nat) (ttl : Int) (a : RawAssertion) (rest : List RawAssertion) (old : Option Slice) (sl : Slice),
    jobs[i]? = some (.fill ttl (a :: rest) (.made old sl)) ∧ a.role = k

def JobTight (U : CaseFns) (heap : List Arr) : HJob → Prop
  | .fill _ (_ :: _) (.got (some sl)) => Tight heap sl
  | .fill _ (a :: _) (.made old sl) => Tight heap sl ∧
      ∃ x, newAssertion U a.action a.resource a.effect = .ok x ∧ sliceVal heap sl = insertAss x (old.map (sliceVal heap))
  | _ => True

structure HTight (U : CaseFns) (s : HState) : Prop where
  excl : ∀ (i j : Nat) (t t' : Int) (td td' : List RawAssertion) (pc pc' : HPc), i ≠ j → s.jobs[i]? = some (.fill t td pc) →
    s.jobs[j]? = some (.fill t' td' pc') → ∀ a ∈ td, ∀ b ∈ td', a.role ≠ b.role
  rp : ∀ k e, s.rp k = some e → Tight s.heap e.val ∨ Making s.jobs k
  jobs : ∀ j ∈ s.jobs, JobTight U s.heap j
  reads : ∀ r ∈ s.reads, sliceVal s.heap r.sl = r.loaded ∧ r.seen = r.loaded.take r.pos

/-- Arrays only get longer. -/
def Longer (heap heap' : List Arr) : Prop :=
  ∀ (n : Nat) (A : Arr), heap[n]? = some A → ∃ A', heap'[n]? = some A' ∧ A.cells <+: A'.cells

theorem sliceVal_longer {heap heap' : List Arr} (h : Longer heap heap') {sl : Slice} {A : Arr} (hA : heap[sl.arr]? = some A)
    (hle : sl.len ≤ A.cells.length) : sliceVal heap' sl = sliceVal heap sl := by
  obtain ⟨A', hA', l, hl⟩ := h _ A hA
  simp only [sliceVal, hA, hA', ← hl]
  exact List.take_append_of_le_length hle

theorem SlOk.longer {heap heap' : List Arr} {tags : List (Str × Nat)} {k : Str} {sl : Slice} (hs : SlOk heap tags k sl) (h : Longer heap heap') :
    sliceVal heap' sl = sliceVal heap sl := by
  obtain ⟨A, _, hA, _, _, hle⟩ := hs
  exact sliceVal_longer h hA hle

/-- What adding an assertion does if the old slice ends where its array ends. -/
theorem insertSlice_tight {heap : List Arr} {x : Assertion} {old : Option Slice} {spare : Nat} (ho : ∀ sl, old = some sl → Tight heap sl) :
    Longer heap (insertSlice heap x old spare).1 ∧ Tight (insertSlice heap x old spare).1 (insertSlice heap x old spare).2 ∧
    sliceVal (insertSlice heap x old spare).1 (insertSlice heap x old spare).2 = insertAss x (old.map (sliceVal heap)) ∧
    ∀ sl, Tight heap sl → (∀ o, old = some o → o.arr ≠ sl.arr) → Tight (insertSlice heap x old spare).1 sl := by
  have happ : ∀ A, Longer heap (heap ++ [A]) := fun A n B hB =>
    ⟨B, by rw [List.getElem?_append_left (List.getElem?_eq_some_iff.mp hB).1]; exact hB, List.prefix_rfl⟩
  have htapp : ∀ A sl, Tight heap sl → Tight (heap ++ [A]) sl := fun A sl ⟨B, hB, hl⟩ =>
    ⟨B, by rw [List.getElem?_append_left (List.getElem?_eq_some_iff.mp hB).1]; exact hB, hl⟩
  unfold insertSlice
  cases old with
  | none => exact ⟨happ _, ⟨⟨[x], 0⟩, by simp, by simp⟩, by simp [sliceVal, insertAss], fun sl h _ => htapp _ _ h⟩
  | some o =>
    obtain ⟨A, hA, hlen⟩ := ho o rfl
    have hb : o.arr < heap.length := (List.getElem?_eq_some_iff.mp hA).1
    have hval : sliceVal heap o = A.cells := by simp [sliceVal, hA, hlen]
    simp only
    split
    · rename_i hxe
      split
      · rename_i A' hput
        rw [hA, Option.bind_some, Arr.put, if_neg (by omega)] at hput
        split at hput
        · simp only [Option.some.injEq] at hput; subst hput
          refine ⟨?_, ⟨_, List.getElem?_set_self hb, by simp [hlen]⟩, ?_, ?_⟩
          · intro n B hB
            by_cases hn : o.arr = n
            · subst hn
              rw [hA] at hB
              obtain rfl := Option.some.inj hB
              exact ⟨_, List.getElem?_set_self hb, List.prefix_append _ _⟩
            · exact ⟨B, by rw [List.getElem?_set_ne hn]; exact hB, List.prefix_rfl⟩
          · simp only [sliceVal, List.getElem?_set_self hb, Option.map_some, insertAss, hxe, if_true, hlen, hA]
            rw [List.take_of_length_le (by simp), List.take_of_length_le (Nat.le_refl _)]
          · rintro sl ⟨B, hB, hl⟩ hne
            exact ⟨B, by rw [List.getElem?_set_ne (hne o rfl)]; exact hB, hl⟩
        · simp at hput
      · refine ⟨happ _, ⟨⟨sliceVal heap o ++ [x], spare⟩, by simp, by simp [hval, hlen]⟩, ?_, fun sl h _ => htapp _ _ h⟩
        simp only [Option.map_some, insertAss, hxe, if_true, hval]
        simp only [sliceVal, hlen, List.getElem?_append_right (Nat.le_refl _), Nat.sub_self, List.getElem?_cons_zero]
        exact List.take_of_length_le (by simp)
    · rename_i hxe
      refine ⟨happ _, ⟨⟨x :: sliceVal heap o, spare⟩, by simp, by simp [hval, hlen]⟩, ?_, fun sl h _ => htapp _ _ h⟩
      simp only [Option.map_some, insertAss, hxe, if_false, hval]
      simp [sliceVal, hlen]

theorem hInit_tight (U : CaseFns) (now : Int) : HTight U (hInit now) :=
  ⟨by simp [hInit], by simp [hInit, Gache.empty], by simp [hInit], by simp [hInit]⟩

theorem JobTight.longer {U : CaseFns} {heap heap' : List Arr} {tags : List (Str × Nat)} {B : List RawAssertion} {j : HJob} (h : JobTight U heap j)
    (ho : HJobOk heap tags B j) (hl : Longer heap heap') (ht : ∀ ttl a rest pc sl, j = .fill ttl (a :: rest) pc → SlOk heap tags a.role sl →
      Tight heap sl → Tight heap' sl) : JobTight U heap' j := by
  cases j with
  | done e => trivial
  | fill ttl todo pc =>
    cases todo with
    | nil => cases pc <;> trivial
    | cons a rest =>
      cases pc with
      | idle => trivial
      | got old =>
        cases old with
        | none => trivial
        | some sl => exact ht ttl a rest _ sl rfl (ho.2 a rest rfl sl rfl) h
      | made old sl =>
        obtain ⟨ho1, ho2⟩ := ho.2 a rest rfl
        obtain ⟨h1, x, hx, h2⟩ := h
        refine ⟨ht ttl a rest _ sl rfl ho2 h1, x, hx, ?_⟩
        rw [ho2.longer hl, h2]
        cases old with
        | none => rfl
        | some o => simp only [Option.map_some, (ho1 o rfl).longer hl]

theorem Making.set_other {jobs : List HJob} {k : Str} (h : Making jobs k) {i : Nat} {j0 j : HJob} (h0 : jobs[i]? = some j0)
    (hn : ∀ ttl a rest old sl, j0 = .fill ttl (a :: rest) (.made old sl) → a.role ≠ k) : Making (jobs.set i j) k := by
  obtain ⟨n, ttl, a, rest, old, sl, hj, hk⟩ := h
  refine ⟨n, ttl, a, rest, old, sl, ?_, hk⟩
  by_cases hin : i = n
  · subst hin
    rw [h0] at hj
    exact absurd hk (hn ttl a rest old sl (Option.some.inj hj))
  · rw [List.getElem?_set_ne hin]; exact hj

theorem excl_set {U : CaseFns} {s : HState} (h : HTight U s) {i : Nat} {t0 : Int} {td0 : List RawAssertion} {pc0 : HPc} {j : HJob}
    (h0 : s.jobs[i]? = some (.fill t0 td0 pc0)) (hsub : ∀ t td pc, j = .fill t td pc → ∀ a ∈ td, a ∈ td0) :
    ∀ (n m : Nat) (t t' : Int) (td td' : List RawAssertion) (pc pc' : HPc), n ≠ m → (s.jobs.set i j)[n]? = some (.fill t td pc) →
      (s.jobs.set i j)[m]? = some (.fill t' td' pc') → ∀ a ∈ td, ∀ b ∈ td', a.role ≠ b.role := by
  intro n m t t' td td' pc pc' hnm hn hm a ha b hb
  rcases getElem?_set_cases h0 hn with ⟨rfl, hn2⟩ | ⟨_, hn2⟩
  · rcases getElem?_set_cases h0 hm with ⟨rfl, _⟩ | ⟨_, hm2⟩
    · exact absurd rfl hnm
    · exact h.excl _ m t0 t' td0 td' pc0 pc' hnm h0 hm2 a (hsub _ _ _ hn2.symm a ha) b hb
  · rcases getElem?_set_cases h0 hm with ⟨rfl, hm2⟩ | ⟨_, hm2⟩
    · exact h.excl n _ t t0 td td0 pc pc0 hnm hn2 h0 a ha b (hsub _ _ _ hm2.symm b hb)
    · exact h.excl n m t t' td td' pc pc' hnm hn2 hm2 a ha b hb

theorem jobTight_set {U : CaseFns} {s : HState} (h : HTight U s) {i : Nat} {j : HJob} (hj : JobTight U s.heap j) :
    ∀ x ∈ s.jobs.set i j, JobTight U s.heap x := by
  intro x hx
  rcases List.mem_or_eq_of_mem_set hx with hx | rfl
  · exact h.jobs x hx
  · exact hj

theorem HTight.step {U : CaseFns} {s s' : HState} {tags : List (Str × Nat)} (hi : HInv U s tags) (h : HTight U s) {a : HAct} (he : Excl s a)
    (hs : hStep U s a = some s') : HTight U s' := by
  cases a with
  | tick d =>
    simp only [hStep, Option.some.injEq] at hs; subst hs
    exact ⟨h.excl, h.rp, h.jobs, h.reads⟩
  | begin ttl todo =>
    simp only [hStep, Option.some.injEq] at hs; subst hs
    refine ⟨?_, ?_, ?_, h.reads⟩
    · intro n m t t' td td' pc pc' hnm hn hm a ha b hb
      rcases getElem?_append_cases hn with hn2 | ⟨hn2, hn'⟩
      · rcases getElem?_append_cases hm with hm2 | ⟨hm2, hm'⟩
        · exact h.excl n m t t' td td' pc pc' hnm hn2 hm2 a ha b hb
        · simp only [HJob.fill.injEq] at hm'
          obtain ⟨_, rfl, _⟩ := hm'
          exact he b hb t td pc (List.mem_of_getElem? hn2) a ha
      · rcases getElem?_append_cases hm with hm2 | ⟨hm2, hm'⟩
        · simp only [HJob.fill.injEq] at hn'
          obtain ⟨_, rfl, _⟩ := hn'
          exact fun hr => he a ha t' td' pc' (List.mem_of_getElem? hm2) b hb hr.symm
        · omega
    · intro k e hk
      rcases h.rp k e hk with h1 | ⟨n, ttl', a, rest, old, sl, hj, hr⟩
      · exact .inl h1
      · exact .inr ⟨n, ttl', a, rest, old, sl, by
          rw [List.getElem?_append_left (List.getElem?_eq_some_iff.mp hj).1]; exact hj, hr⟩
    · intro j hj
      rcases List.mem_append.mp hj with hj | hj
      · exact h.jobs j hj
      · rw [List.mem_singleton.mp hj]; cases todo <;> trivial
  | fill i spare =>
    simp only [hStep] at hs
    split at hs
    · rename_i ttl pc hj
      simp only [Option.some.injEq] at hs; subst hs
      refine ⟨excl_set h hj (by simp), ?_, jobTight_set h trivial, h.reads⟩
      intro k e hk
      rcases h.rp k e hk with h1 | h1
      · exact .inl h1
      · exact .inr (h1.set_other hj (by simp))
    · rename_i ttl a rest hj
      split at hs
      · rename_i x hx
        simp only [Option.some.injEq] at hs; subst hs
        refine ⟨excl_set h hj (by rintro t td pc hf; simp only [HJob.fill.injEq] at hf; obtain ⟨_, rfl, _⟩ := hf; exact fun _ h => h), ?_,
          jobTight_set h ?_, h.reads⟩
        · intro k e hk
          rcases h.rp k e hk with h1 | h1
          · exact .inl h1
          · exact .inr (h1.set_other hj (by simp))
        · cases hg : s.rp.get s.now a.role with
          | none => trivial
          | some sl =>
            obtain ⟨e, hke, rfl⟩ := gache_get_some hg
            rcases h.rp _ e hke with h1 | ⟨n, ttl', b, rest', old, sl, hjb, hr⟩
            · exact h1
            · have hne : n ≠ i := by
                rintro rfl
                rw [hj] at hjb; simp at hjb
              exact absurd hr (h.excl n i _ _ _ _ _ _ hne hjb hj b (by simp) a (by simp))
      · simp only [Option.some.injEq] at hs; subst hs
        refine ⟨excl_set h hj (by simp), ?_, jobTight_set h trivial, h.reads⟩
        intro k e hk
        rcases h.rp k e hk with h1 | h1
        · exact .inl h1
        · exact .inr (h1.set_other hj (by simp))
      · simp at hs
    · rename_i ttl a rest old hj
      split at hs
      · rename_i x hx
        simp only [Option.some.injEq] at hs; subst hs
        have hjo := hi.jobs _ (List.mem_of_getElem? hj)
        have hjt := h.jobs _ (List.mem_of_getElem? hj)
        have hot : ∀ sl, old = some sl → Tight s.heap sl := by rintro sl rfl; exact hjt
        have hos : ∀ sl, old = some sl → SlOk s.heap tags a.role sl := hjo.2 a rest rfl
        obtain ⟨hl, htn, hval, hkeep⟩ := insertSlice_tight (x := x) (spare := spare) hot
        -- slices of other roles are in other arrays
        have hother : ∀ k sl, SlOk s.heap tags k sl → k ≠ a.role → Tight s.heap sl → Tight (insertSlice s.heap x old spare).1 sl := by
          intro k sl hsl hk ht
          refine hkeep sl ht ?_
          rintro o rfl harr
          obtain ⟨_, d, _, hm, _⟩ := hos o rfl
          obtain ⟨_, d', _, hm', _⟩ := hsl
          rw [harr, hm'] at hm
          simp only [Option.some.injEq, Prod.mk.injEq] at hm
          exact hk hm.1
        refine ⟨excl_set h hj (by rintro t td pc hf; simp only [HJob.fill.injEq] at hf; obtain ⟨_, rfl, _⟩ := hf; exact fun _ h => h), ?_, ?_, ?_⟩
        · intro k e hk
          by_cases hka : k = a.role
          · exact .inr ⟨i, ttl, a, rest, old, _, List.getElem?_set_self (List.getElem?_eq_some_iff.mp hj).1, hka.symm⟩
          · rcases h.rp k e hk with h1 | h1
            · exact .inl (hother k _ (hi.rp k e hk) hka h1)
            · exact .inr (h1.set_other hj (by simp))
        · intro j hjm
          obtain ⟨n, hn⟩ := List.mem_iff_getElem?.mp hjm
          rcases getElem?_set_cases hj hn with ⟨rfl, rfl⟩ | ⟨hne, hn⟩
          · refine ⟨htn, x, hx, ?_⟩
            rw [hval]
            cases old with
            | none => rfl
            | some o => simp only [Option.map_some, (hos o rfl).longer hl]
          · refine (h.jobs j (List.mem_of_getElem? hn)).longer (hi.jobs j (List.mem_of_getElem? hn)) hl ?_
            rintro ttl' b rest' pc sl rfl hsl ht
            exact hother b.role sl hsl (h.excl _ i _ _ _ _ _ _ hne hn hj b (by simp) a (by simp)) ht
        · intro r hr
          obtain ⟨A, d, hA, _, _, hle, _⟩ := (hi.reads r hr).arr
          exact ⟨by rw [sliceVal_longer hl hA hle]; exact (h.reads r hr).1, (h.reads r hr).2⟩
      · simp at hs
    · rename_i ttl a rest old sl hj
      simp only [Option.some.injEq] at hs; subst hs
      have hjt := h.jobs _ (List.mem_of_getElem? hj)
      refine ⟨excl_set h hj (by rintro t td pc hf; simp only [HJob.fill.injEq] at hf; obtain ⟨_, rfl, _⟩ := hf; exact fun b hb => List.mem_cons_of_mem _ hb), ?_, jobTight_set h (by cases rest <;> trivial), h.reads⟩
      intro k e hk
      simp only [Gache.set] at hk
      split at hk
      · simp only [Option.some.injEq] at hk; subst hk
        exact .inl hjt.1
      · rename_i hka
        rcases h.rp k e hk with h1 | h1
        · exact .inl h1
        · refine .inr (h1.set_other hj ?_)
          intro ttl' b rest' old' sl' hf
          simp only [HJob.fill.injEq, List.cons.injEq] at hf
          obtain ⟨_, ⟨rfl, _⟩, _⟩ := hf
          exact fun hr => hka hr.symm
    · simp at hs
  | expire k =>
    simp only [hStep] at hs
    split at hs
    · simp at hs
    · split at hs
      · simp at hs
      · simp only [Option.some.injEq] at hs; subst hs
        refine ⟨h.excl, ?_, h.jobs, h.reads⟩
        intro k' e hk
        simp only [Gache.delete] at hk
        split at hk
        · simp at hk
        · exact h.rp k' e hk
  | load k =>
    simp only [hStep] at hs
    split at hs
    · simp at hs
    · simp only [Option.some.injEq] at hs; subst hs
      refine ⟨h.excl, h.rp, h.jobs, ?_⟩
      intro r hr
      rcases List.mem_append.mp hr with hr | hr
      · exact h.reads r hr
      · rw [List.mem_singleton.mp hr]; exact ⟨rfl, rfl⟩
  | read r =>
    simp only [hStep] at hs
    split at hs
    · simp at hs
    · rename_i rd hrd
      split at hs
      · rename_i hlt
        split at hs
        · rename_i x hx
          simp only [Option.some.injEq] at hs; subst hs
          refine ⟨h.excl, h.rp, h.jobs, ?_⟩
          intro r' hr'
          rcases List.mem_or_eq_of_mem_set hr' with hr' | rfl
          · exact h.reads r' hr'
          · obtain ⟨h1, h2⟩ := h.reads rd (List.mem_of_getElem? hrd)
            refine ⟨h1, ?_⟩
            simp only
            have hg : rd.loaded[rd.pos]? = some x := by
              cases hA : s.heap[rd.sl.arr]? with
              | none => rw [hA] at hx; simp at hx
              | some A =>
                rw [hA, Option.bind_some] at hx
                rw [← h1]
                simp only [sliceVal, hA]
                rw [List.getElem?_take_of_lt hlt]; exact hx
            rw [List.take_add_one, hg, ← h2]; rfl
        · simp at hs
      · simp at hs

theorem HTight.run {U : CaseFns} {s s' : HState} {tags : List (Str × Nat)} (hi : HInv U s tags) (h : HTight U s) {as : List HAct}
    (he : ExclRun U s as) (hs : hRun U s as = some s') : HTight U s' ∧ ∃ tags', HInv U s' tags' := by
  induction as generalizing s tags with
  | nil => simp only [hRun, Option.some.injEq] at hs; subst hs; exact ⟨h, tags, hi⟩
  | cons a as ih =>
    simp only [hRun] at hs
    split at hs
    · simp at hs
    · rename_i s1 hs1
      obtain ⟨tags1, h1, _⟩ := hi.step hs1
      exact ih h1 (h.step hi he.1 hs1) (he.2 s1 hs1) hs

end Athenz
