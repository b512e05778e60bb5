import Verif.Proofs.SlicesExcl
import Verif.Props.Examples

/-! # C66: a check works on the list of assertions that it looked up -/

namespace Athenz

/-- The full statement of C66: whatever the goroutines that fill the cache do in the meantime, a worker reads the elements that the slice
had when it got it from the cache. -/
def C66_statement : Prop :=
  ∀ (U : CaseFns) (now : Int) (as : List HAct) (s : HState), hRun U (hInit now) as = some s →
    ∀ r ∈ s.reads, r.seen = r.loaded.take r.pos

/-- **C66**, always, for denies and for where assertions come from.  `m` = matches the request.
* What was read is from the documents, for the role that was looked up.
* The denies that were looked up are read as they were.  If one of them matches, the first match that a worker reads is a deny that was
  looked up, so no allow that was written into the array in the meantime takes its place.
* So if the first match is an allow, then nothing that was looked up denies the request.
* A worker never reads a deny that was not looked up. -/
theorem C66_denies (U : CaseFns) (now : Int) (as : List HAct) (s : HState) (h : hRun U (hInit now) as = some s) (r : HRead)
    (hr : r ∈ s.reads) :
    (∀ x ∈ r.seen, ∃ a ∈ s.begun, a.role = r.key ∧ a.conv U = some x) ∧
    (r.seen.filter (·.effect.isSome) = (r.loaded.take r.pos).filter (·.effect.isSome)) ∧
    (∀ m x, r.seen.find? m = some x → x.effect = none → ∀ y ∈ r.loaded, m y = true → y.effect = none) ∧
    ∀ m x, r.seen.find? m = some x → x.effect ≠ none → r.loaded.find? m = some x := by
  obtain ⟨tags, hi⟩ := (hInit_inv U now).run h
  have hro := hi.reads r hr
  obtain ⟨A, d, hA, hm, hd, hle, heq, hden, hall, htake, hseen⟩ := hro.arr
  have hsplit : r.seen = (r.loaded.take d).take r.pos ++ r.seen.drop d := by rw [← htake, List.take_append_drop]
  have hlsplit : r.loaded.take r.pos = (r.loaded.take d).take r.pos ++ (r.loaded.drop d).take (r.pos - d) := by
    have h1 : (r.loaded.take d ++ r.loaded.drop d).take r.pos = _ := List.take_append
    rw [List.take_append_drop, List.length_take, hro.len, Nat.min_eq_left hd] at h1
    exact h1
  refine ⟨hro.src, ?_, ?_, ?_⟩
  · rw [hlsplit, hsplit, List.filter_append, List.filter_append]
    congr 1
    rw [List.filter_eq_nil_iff.mpr, List.filter_eq_nil_iff.mpr]
    · intro x hx; simp [hall x (List.mem_of_mem_take hx)]
    · intro x hx
      simp [hseen x hx]
  · intro m x hf hx y hy hmy
    -- the first match is behind all denies, so the worker has passed them
    have hnd : ∀ z ∈ (r.loaded.take d).take r.pos, m z = false := by
      intro z hz
      rw [hsplit, List.find?_append] at hf
      cases hf' : ((r.loaded.take d).take r.pos).find? m with
      | some w =>
        rw [hf'] at hf
        simp only [Option.some_or, Option.some.injEq] at hf; subst hf
        exact absurd hx (hden _ (List.mem_of_mem_take (List.mem_of_find?_eq_some hf')))
      | none =>
        have := List.find?_eq_none.mp hf' z hz
        simpa using this
    have hne : r.seen.drop d ≠ [] := by
      intro h0
      rw [hsplit, h0, List.append_nil] at hf
      have hmem := List.mem_of_find?_eq_some hf
      exact hden x (List.mem_of_mem_take hmem) hx
    have hpos : d < r.pos := by
      rw [← hro.pos]
      refine Classical.byContradiction fun hc => hne (List.drop_eq_nil_of_le (by omega))
    rw [List.take_of_length_le (by rw [List.length_take]; omega)] at hnd
    rw [← List.take_append_drop d r.loaded] at hy
    rcases List.mem_append.mp hy with hy | hy
    · rw [hnd y hy] at hmy; simp at hmy
    · exact hall y hy
  · intro m x hf hx
    rw [hsplit, List.find?_append] at hf
    cases hf' : ((r.loaded.take d).take r.pos).find? m with
    | none =>
      rw [hf'] at hf
      simp only [Option.none_or] at hf
      exact absurd (hseen x (List.mem_of_find?_eq_some hf)) hx
    | some w =>
      rw [hf'] at hf
      simp only [Option.some_or, Option.some.injEq] at hf; subst hf
      rw [← List.take_append_drop d r.loaded, ← List.take_append_drop r.pos (r.loaded.take d), List.append_assoc, List.find?_append, hf']
      rfl

/-- **C66** if no two goroutines have assertions about the same role at the same time.  Missing: overlapping refreshes of a domain, for
which it is false. -/
theorem C66_fixed_partial (U : CaseFns) (now : Int) (as : List HAct) (s : HState) (he : ExclRun U (hInit now) as)
    (h : hRun U (hInit now) as = some s) : ∀ r ∈ s.reads, r.seen = r.loaded.take r.pos :=
  fun r hr => (((hInit_tight U now).run (hInit_inv U now) he h).1.reads r hr).2

/-! ### Lists instead of slices

The other models have lists where the program has slices.  Under the same assumption that is the same. -/

def HPc.abs (heap : List Arr) : HPc → Option (Option (List Assertion))
  | .idle => none
  | .got old => some (old.map (sliceVal heap))
  | .made old _ => some (old.map (sliceVal heap))

def HJob.abs (heap : List Arr) : HJob → Job
  | .fill ttl [] _ => .fill ttl [] none
  | .fill ttl (a :: rest) pc => .fill ttl (a :: rest) (pc.abs heap)
  | .done e => .done e

/-- The state with lists that a state with slices stands for. -/
def HState.abs (s : HState) : UpdState :=
  { now := s.now, cancelled := false, rp := fun k => (s.rp k).map fun e => ⟨sliceVal s.heap e.val, e.expire⟩, jobs := s.jobs.map (·.abs s.heap) }

theorem abs_get (s : HState) (k : Str) : s.abs.rp.get s.now k = (s.rp.get s.now k).map (sliceVal s.heap) := by
  simp only [Gache.get, HState.abs]
  cases s.rp k with
  | none => rfl
  | some e =>
    simp only [Option.map_some, Gache.valid]
    by_cases hc : (decide (e.expire ≤ 0) || decide (s.now ≤ e.expire)) = true
    · simp only [hc, if_true, Option.map_some]
    · simp only [hc]; rfl

theorem abs_set (s : HState) (k : Str) (sl : Slice) (ttl : Int) :
    (fun k' => ((s.rp.set s.now k sl ttl) k').map fun e => (⟨sliceVal s.heap e.val, e.expire⟩ : GEntry (List Assertion))) =
      s.abs.rp.set s.now k (sliceVal s.heap sl) ttl := by
  funext k'
  simp only [Gache.set, HState.abs]
  split <;> rfl

theorem abs_heap {U : CaseFns} {s : HState} {tags : List (Str × Nat)} (hi : HInv U s tags) {heap' : List Arr} (hl : Longer s.heap heap') :
    (∀ k e, s.rp k = some e → sliceVal heap' e.val = sliceVal s.heap e.val) ∧
    ∀ j ∈ s.jobs, ∀ ttl a rest pc, j = .fill ttl (a :: rest) pc → j.abs heap' = j.abs s.heap := by
  refine ⟨fun k e he => (hi.rp k e he).longer hl, ?_⟩
  rintro j hj ttl a rest pc rfl
  have hjo := (hi.jobs _ hj).2 a rest rfl
  cases pc with
  | idle => rfl
  | got old =>
    cases old with
    | none => rfl
    | some o => simp only [HJob.abs, HPc.abs, Option.map_some, (hjo o rfl).longer hl]
  | made old sl =>
    cases old with
    | none => rfl
    | some o => simp only [HJob.abs, HPc.abs, Option.map_some, (hjo.1 o rfl).longer hl]

/-- **C66**, for the other models: if no two goroutines fill the same role at the same time, each step of the program with slices is a step
of the program with lists or changes nothing there, and workers get the lists. -/
theorem C66_simulates_partial (U : CaseFns) (now : Int) (as : List HAct) (a : HAct) (s s' : HState) (he : ExclRun U (hInit now) as)
    (h : hRun U (hInit now) as = some s) (hs : hStep U s a = some s') :
    match a with
    | .tick d => updStep U s.abs (.tick d) = some s'.abs
    | .begin ttl todo => s'.abs = { s.abs with jobs := s.abs.jobs ++ [.fill ttl todo none] }
    | .fill i _ => s'.abs = s.abs ∨ updStep U s.abs (.job i []) = some s'.abs
    | .expire k => s'.abs = { s.abs with rp := s.abs.rp.delete k }
    | .load k => s'.abs = s.abs ∧ ∃ sl l, s.abs.rp.get s.abs.now k = some l ∧ s'.reads = s.reads ++ [⟨k, sl, 0, l, []⟩]
    | .read r => s'.abs = s.abs ∧ ∃ rd x, s.reads[r]? = some rd ∧ rd.loaded[rd.pos]? = some x ∧
        s'.reads = s.reads.set r { rd with pos := rd.pos + 1, seen := rd.seen ++ [x] } := by
  obtain ⟨ht, tags, hi⟩ := (hInit_tight U now).run (hInit_inv U now) he h
  cases a with
  | tick d => simp only [hStep, Option.some.injEq] at hs; subst hs; rfl
  | begin ttl todo =>
    simp only [hStep, Option.some.injEq] at hs; subst hs
    cases todo <;> simp [HState.abs, HJob.abs, HPc.abs]
  | fill i spare =>
    simp only [hStep] at hs
    have hjabs : ∀ j, s.jobs[i]? = some j → s.abs.jobs[i]? = some (j.abs s.heap) := by
      intro j hj; simp [HState.abs, hj]
    split at hs
    · rename_i ttl pc hj
      simp only [Option.some.injEq] at hs; subst hs
      right
      simp only [updStep, hjabs _ hj, HJob.abs]
      simp [HState.abs, List.map_set, HJob.abs]
    · rename_i ttl a rest hj
      split at hs
      · rename_i x hx
        simp only [Option.some.injEq] at hs; subst hs
        right
        simp only [updStep, hjabs _ hj, HJob.abs, HPc.abs, hx]
        have : s.abs.rp.get s.abs.now a.role = _ := abs_get s a.role
        rw [this]
        simp [HState.abs, List.map_set, HJob.abs, HPc.abs]
      · rename_i e hx
        simp only [Option.some.injEq] at hs; subst hs
        right
        simp only [updStep, hjabs _ hj, HJob.abs, HPc.abs, hx]
        simp [HState.abs, List.map_set, HJob.abs]
      · simp at hs
    · rename_i ttl a rest old hj
      split at hs
      · rename_i x hx
        simp only [Option.some.injEq] at hs; subst hs
        left
        have hjo := hi.jobs _ (List.mem_of_getElem? hj)
        have hjt := ht.jobs _ (List.mem_of_getElem? hj)
        have hot : ∀ sl, old = some sl → Tight s.heap sl := by rintro sl rfl; exact hjt
        have hos : ∀ sl, old = some sl → SlOk s.heap tags a.role sl := hjo.2 a rest rfl
        obtain ⟨hl, -, -, -⟩ := insertSlice_tight (x := x) (spare := spare) hot
        obtain ⟨h1, h2⟩ := abs_heap hi hl
        simp only [HState.abs, UpdState.mk.injEq, true_and]
        refine ⟨?_, ?_⟩
        · funext k
          cases hk : s.rp k with
          | none => rfl
          | some e => simp only [Option.map_some, h1 k e hk]
        · refine List.ext_getElem? fun n => ?_
          rw [List.getElem?_map, List.getElem?_map]
          by_cases hn : i = n
          · subst hn
            rw [List.getElem?_set_self (List.getElem?_eq_some_iff.mp hj).1, hj]
            simp only [Option.map_some, Option.some.injEq]
            have h3 := h2 _ (List.mem_of_getElem? hj) ttl a rest (.got old) rfl
            exact h3
          · rw [List.getElem?_set_ne hn]
            cases hjn : s.jobs[n]? with
            | none => rfl
            | some j =>
              simp only [Option.map_some, Option.some.injEq]
              cases j with
              | done e => rfl
              | fill ttl' todo' pc' =>
                cases todo' with
                | cons b rest' => exact h2 _ (List.mem_of_getElem? hjn) ttl' b rest' pc' rfl
                | nil => rfl
      · simp at hs
    · rename_i ttl a rest old sl hj
      simp only [Option.some.injEq] at hs; subst hs
      right
      obtain ⟨-, x, hx, hval⟩ := ht.jobs _ (List.mem_of_getElem? hj)
      simp only [updStep, hjabs _ hj, HJob.abs, HPc.abs, hx, Option.some.injEq]
      rw [← hval]
      show _ = HState.abs _
      simp only [HState.abs, UpdState.mk.injEq, true_and, List.map_set]
      exact ⟨(abs_set s a.role sl ttl).symm, by cases rest <;> rfl⟩
    · simp at hs
  | expire k =>
    simp only [hStep] at hs
    split at hs
    · simp at hs
    · split at hs
      · simp at hs
      · simp only [Option.some.injEq] at hs; subst hs
        simp only [HState.abs, UpdState.mk.injEq, true_and, and_true]
        funext k'
        simp only [Gache.delete]
        split <;> simp
  | load k =>
    simp only [hStep] at hs
    split at hs
    · simp at hs
    · rename_i sl hg
      simp only [Option.some.injEq] at hs; subst hs
      refine ⟨rfl, sl, sliceVal s.heap sl, ?_, rfl⟩
      have : s.abs.rp.get s.abs.now k = _ := abs_get s k
      rw [this, hg]; rfl
  | read r =>
    simp only [hStep] at hs
    split at hs
    · simp at hs
    · rename_i rd hrd
      split at hs
      · rename_i hlt
        split at hs
        · rename_i x hx
          simp only [Option.some.injEq] at hs; subst hs
          refine ⟨rfl, rd, x, hrd, ?_, rfl⟩
          obtain ⟨h1, _⟩ := ht.reads rd (List.mem_of_getElem? hrd)
          cases hA : s.heap[rd.sl.arr]? with
          | none => rw [hA] at hx; simp at hx
          | some A =>
            rw [hA, Option.bind_some] at hx
            rw [← h1]
            simp only [sliceVal, hA]
            rw [List.getElem?_take_of_lt hlt]; exact hx
        · simp at hs
      · simp at hs

namespace Ex

/-- A role may read, write, list, stop and start. -/
def slAct (act : String) : RawAssertion := ⟨"dom:role.op".toList, act.toList, "dom:/x".toList, "ALLOW".toList⟩

/-- The first goroutine adds three assertions.  Go doubles the room of the array: 1, 2, 4 cells.  Then the second one, which refreshes the
same domain and ranges over it in another order, gets the slice with three elements; the first one writes the fourth cell and stores it; a
worker gets the slice with four elements; and the second goroutine writes the fourth cell, too. -/
def slSched : List HAct :=
  [.begin 100 [slAct "read", slAct "write", slAct "list", slAct "stop", slAct "start"],
   .begin 100 [slAct "start", slAct "stop", slAct "list", slAct "write", slAct "read"],
   .fill 0 0, .fill 0 0, .fill 0 0, .fill 0 0, .fill 0 0, .fill 0 0, .fill 0 0, .fill 0 1, .fill 0 0,
   .fill 1 0, .fill 0 0, .fill 0 0, .fill 0 0, .load "dom:role.op".toList, .fill 1 0,
   .read 0, .read 0, .read 0, .read 0]

/-- What each worker looked up and what it read. -/
def slObs (U : CaseFns) (as : List HAct) : Option (List (List Assertion × Nat × List Assertion)) :=
  (hRun U (hInit 1) as).map fun s => s.reads.map fun r => (r.loaded, r.pos, r.seen)

/-- The assertions as stored. -/
def slVals (l : List RawAssertion) : List Assertion := l.filterMap (·.conv asciiCase)

theorem slObs_eq : slObs asciiCase slSched =
    some [(slVals [slAct "read", slAct "write", slAct "list", slAct "stop"], 4,
      slVals [slAct "read", slAct "write", slAct "list", slAct "start"])] := by decide +kernel

end Ex

/-- **C66** is false: two refreshes of a domain at the same time.  The worker looked up a list that allows `stop`, and what it read does not. -/
theorem C66_refuted : ¬ C66_statement := by
  intro h
  have ho := Ex.slObs_eq
  unfold Ex.slObs at ho
  cases hs : hRun asciiCase (hInit 1) Ex.slSched with
  | none => rw [hs] at ho; simp at ho
  | some s =>
    rw [hs] at ho
    simp only [Option.map_some, Option.some.injEq] at ho
    cases hr : s.reads with
    | nil => rw [hr] at ho; simp at ho
    | cons r rest =>
      rw [hr] at ho
      simp only [List.map_cons, List.cons.injEq, Prod.mk.injEq] at ho
      obtain ⟨⟨h1, h2, h3⟩, _⟩ := ho
      have h4 := h asciiCase 1 _ s hs r (by rw [hr]; exact List.mem_cons_self)
      rw [h1, h2, h3] at h4
      exact absurd h4 (by decide +kernel)

namespace Ex

/-- One goroutine fills a role with a deny and allows while a worker reads. -/
def slOne : List HAct :=
  [.begin 100 [slAct "read", ⟨"dom:role.op".toList, "*".toList, "dom:/x".toList, "DENY".toList⟩, slAct "list", slAct "stop"],
   .fill 0 0, .fill 0 0, .fill 0 0, .fill 0 0, .fill 0 0, .fill 0 0, .fill 0 0, .fill 0 1, .fill 0 0,
   .load "dom:role.op".toList, .read 0, .fill 0 0, .fill 0 0, .read 0, .fill 0 0, .load "dom:role.op".toList, .read 0, .read 1]

example : ExclRun asciiCase (hInit 1) slOne := by
  refine ⟨fun b _ ttl td pc h => by simp [hInit] at h, ?_⟩
  intro s _
  have : ∀ (as : List HAct) (s : HState), (∀ a ∈ as, ∀ ttl todo, a ≠ .begin ttl todo) → ExclRun asciiCase s as := by
    intro as
    induction as with
    | nil => intros; trivial
    | cons a as ih =>
      intro s h
      refine ⟨?_, fun s' _ => ih s' fun b hb => h b (List.mem_cons_of_mem _ hb)⟩
      cases a with
      | begin ttl todo => exact absurd rfl (h _ List.mem_cons_self ttl todo)
      | _ => trivial
  refine this _ s ?_
  intro a ha ttl todo he
  subst he
  simp at ha

/-- The hypotheses of `C66_denies` and `C66_fixed_partial` with a deny in front: the worker reads it first. -/
example : slObs asciiCase slOne =
    some [(slVals [⟨"dom:role.op".toList, "*".toList, "dom:/x".toList, "DENY".toList⟩, slAct "read", slAct "list"], 3,
        slVals [⟨"dom:role.op".toList, "*".toList, "dom:/x".toList, "DENY".toList⟩, slAct "read", slAct "list"]),
      (slVals [⟨"dom:role.op".toList, "*".toList, "dom:/x".toList, "DENY".toList⟩, slAct "read", slAct "list", slAct "stop"], 1,
        slVals [⟨"dom:role.op".toList, "*".toList, "dom:/x".toList, "DENY".toList⟩])] := by decide +kernel

end Ex

end Athenz
