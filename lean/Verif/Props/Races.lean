import Verif.Proofs.RacesOrder

/-! # C88 data races of the policy daemon -/

namespace Athenz

open Spec

/-- **C88**, the full statement.  The policy daemon is free of data races, whatever its users do. -/
def C88_statement : Prop := ∀ (domains : List Str) (as : List DAct) (s : DState), dRun domains (dInit domains) as = some s → ¬ Race s.trace

/-- **C88**, for Updates that are called one after the other, are not cancelled, and without the hooks of expired entries.  (Missing: the hooks,
which read `p.rolePolicies` plainly, policy/daemon.go:191; cancelled Updates, which return while their goroutines still run; and Updates at the same
time.  All these do race.) -/
theorem C88_oneByOne_partial (domains : List Str) (as : List DAct) (s : DState) (h : dRun domains (dInit domains) as = some s)
    (hh : ∀ g d, DAct.hook g d ∉ as) (hc : ∀ g, DAct.cancel g ∉ as) (ho : OneByOne s.trace) : ¬ Race s.trace := by
  refine (OInv.run (dInv_init domains) (oInv_init domains) (fun a ha => ?_) h ho).norace
  cases a with
  | hook g d => exact hh g d ha
  | cancel g => exact hc g ha
  | _ => trivial

/-- **C88**.  Checks take part in no race, whatever happens at the same time. -/
theorem C88_checks (domains : List Str) (as : List DAct) (s : DState) (h : dRun domains (dInit domains) as = some s) (i j g k : Nat) (e f : Ev)
    (hr : Racing s.trace i j g k e f) : g ∉ s.checks ∧ k ∉ s.checks := by
  have hd := (dInv_init domains).run h
  have h1 := hd.racing i j g k e f hr
  constructor
  · intro hg
    have h2 := hd.checkEv i g e hg hr.2.1
    rcases h1 with ⟨x, rfl | ⟨d, rfl⟩, ⟨rfl, _⟩ | ⟨_, rfl | rfl⟩⟩ | ⟨n, rfl, _⟩ <;> simp at h2
  · intro hg
    have h2 := hd.checkEv j k f hg hr.2.2.1
    rcases h1 with ⟨x, rfl | ⟨d, rfl⟩, ⟨_, rfl | rfl⟩ | ⟨rfl, _⟩⟩ | ⟨n, _, _, h3⟩
    · simp at h2
    · simp at h2
    · simp at h2
    · simp at h2
    · simp at h2
    · simp at h2
    · exact h3 hg

/-- **C88**.  The races that there are, are between a plain read and an atomic write of a pointer, or they follow from such a plain read of
`p.rolePolicies`, as the variable behind it is read as well.  What is in a policy that was fetched is never concerned. -/
theorem C88_kinds (domains : List Str) (as : List DAct) (s : DState) (h : dRun domains (dInit domains) as = some s) (i j g k : Nat) (e f : Ev)
    (hr : Racing s.trace i j g k e f) :
    (∃ x, (x = .role ∨ ∃ d, x = .cache d) ∧ ((e = .read x ∧ (f = .store x ∨ f = .swap x)) ∨ (f = .read x ∧ (e = .store x ∨ e = .swap x)))) ∨
      ∃ n, e = .write (.box n) ∧ f = .read (.box n) := by
  rcases ((dInv_init domains).run h).racing i j g k e f hr with h | ⟨n, h1, h2, _⟩
  · exact .inl h
  · exact .inr ⟨n, h1, h2⟩

namespace Ex

/-- Could there be an edge? -/
def edgeB (tr : List (Nat × Ev)) (i j : Nat) : Bool :=
  match tr[i]?, tr[j]? with
  | some (g, e), some (h, f) =>
    decide (i < j) && (decide (g = h) || decide (e = .fork h) || decide (f = .join g) ||
      (match e, f with
        | .store x, .load y => decide (x = y)
        | .store x, .swap y => decide (x = y)
        | .swap x, .load y => decide (x = y)
        | .swap x, .swap y => decide (x = y)
        | _, _ => false))
  | _, _ => false

theorem edgeB_of {tr : List (Nat × Ev)} {i j : Nat} (h : Edge tr i j) : edgeB tr i j = true := by
  cases h with
  | po h a b => simp [edgeB, a, b, h]
  | fork h a b => simp [edgeB, a, b, h]
  | join h a b => simp [edgeB, a, b, h]
  | sync h a b c d _ => rcases c with rfl | rfl <;> rcases d with rfl | rfl <;> simp [edgeB, a, b, h]

def closedB (tr : List (Nat × Ev)) (S : List Nat) : Bool := S.all fun a => (List.range tr.length).all fun b => !edgeB tr a b || S.contains b

theorem not_hb {tr : List (Nat × Ev)} {S : List Nat} {i j : Nat} (hc : closedB tr S = true) (hi : i ∈ S) (hj : j ∉ S) : ¬ HB tr i j := by
  have key : ∀ a b, a ∈ S → Edge tr a b → b ∈ S := by
    intro a b ha hE
    have hb : b < tr.length := by cases hE with
      | po _ _ h => exact get_lt h
      | fork _ _ h => exact get_lt h
      | join _ _ h => exact get_lt h
      | sync _ _ h => exact get_lt h
    have := List.all_eq_true.mp (List.all_eq_true.mp hc a ha) b (List.mem_range.mpr hb)
    simpa [edgeB_of hE] using this
  intro h
  have : j ∈ S := by
    clear hj
    induction h with
    | single h => exact key _ _ hi h
    | tail _ h ih => exact key _ _ ih h
  exact hj this

/-- Are the calls of Update of one goroutine, and one after the other? -/
def oneB (tr : List (Nat × Ev)) : Bool :=
  (List.range tr.length).all fun i => (List.range tr.length).all fun j =>
    match tr[i]?, tr[j]? with
    | some (g, .start), some (h, .start) =>
      !decide (i < j) || (decide (g = h) && (List.range j).any fun k => decide (i < k) && decide (tr[k]? = some (g, .finish)))
    | _, _ => true

theorem one_of {tr : List (Nat × Ev)} (h : oneB tr = true) : OneByOne tr := by
  intro i j g k hij h1 h2
  have := List.all_eq_true.mp (List.all_eq_true.mp h i (List.mem_range.mpr (get_lt h1))) j (List.mem_range.mpr (get_lt h2))
  simp only [h1, h2, hij, decide_true, Bool.not_true, Bool.false_or, Bool.and_eq_true, decide_eq_true_eq, List.any_eq_true, List.mem_range] at this
  obtain ⟨rfl, m, h3, h4, h5⟩ := this
  exact ⟨m, h4, h3, h5, .single (.po h3 h5 h2)⟩

def raDoms : List Str := ["a".toList, "b".toList]

/-- An Update that fetches a new policy for its domain. -/
def raUpdate : List DAct :=
  [.update 0 ["a".toList], .go 0 .new, .go 0 .new, .go 1 .new, .go 1 .new, .go 1 .new, .go 1 .new, .go 0 .new, .go 0 .new, .go 0 .new, .go 0 .new, .go 0 .new]

/-- Then the hook of an expired entry is called, while the next Update goes on. -/
def raHook : List DAct :=
  raUpdate ++ [.hook 2 "a".toList, .update 0 ["a".toList], .go 0 .new, .go 0 .new, .go 4 .new, .go 4 .new, .go 4 .new, .go 4 .new, .go 4 .same, .go 0 .new,
    .go 0 .new, .go 0 .new, .go 3 .new]

/-- An Update is cancelled after its first fetcher was started; the next Update uses the fetcher again. -/
def raCancel : List DAct :=
  [.update 0 ["a".toList, "b".toList], .go 0 .new, .go 0 .new, .cancel 0, .update 0 ["a".toList, "b".toList], .go 0 .new, .go 0 .new, .go 2 .new, .go 2 .new,
    .go 1 .new, .go 1 .new, .go 1 .new, .go 1 .new]

/-- An Update with debug logs, and checks at the same time. -/
def raGood : List DAct :=
  [.check 0, .spawn 0, .update 0 ["a".toList], .go 0 .new, .go 0 .new, .check 2, .go 3 .new, .go 3 .new, .go 1 .new, .go 3 .new, .go 3 .new, .go 4 .new, .go 0 .new,
    .go 0 .new, .debug 0, .go 0 .new, .go 0 .new, .go 4 .new, .debug 0, .go 0 .new, .go 0 .new, .go 0 .new, .check 2, .go 6 .new, .go 6 .new, .go 1 .new]

def raState (domains : List Str) (as : List DAct) : DState := (dRun domains (dInit domains) as).getD (dInit domains)

theorem raState_run {domains : List Str} {as : List DAct} (h : (dRun domains (dInit domains) as).isSome = true) :
    dRun domains (dInit domains) as = some (raState domains as) := by
  unfold raState
  cases hr : dRun domains (dInit domains) as with
  | none => rw [hr] at h; simp at h
  | some s => rfl

end Ex

/-- It fails, although Updates are called one after the other and are not cancelled: the hook reads `p.rolePolicies` plainly, while the next Update
swaps it. -/
theorem C88_hook_refuted : ¬ ∀ (domains : List Str) (as : List DAct) (s : DState), dRun domains (dInit domains) as = some s →
    (∀ g, DAct.cancel g ∉ as) → OneByOne s.trace → ¬ Race s.trace := by
  intro h
  refine h ["a".toList] Ex.raHook _ (Ex.raState_run (by decide +kernel)) ?_ (Ex.one_of (by decide +kernel)) ?_
  · intro g
    simp [Ex.raHook, Ex.raUpdate]
  · refine ⟨26, 27, 0, 3, .swap .role, .read .role, by decide, by decide +kernel, by decide +kernel, ⟨.role, rfl, rfl⟩, .inl ⟨_, .inr (.inr rfl)⟩, ?_, ?_⟩
    · rintro ⟨_, _, h | h | h⟩ <;> simp at h
    · exact Ex.not_hb (S := [26]) (by decide +kernel) (by simp) (by simp)

/-- It fails, although Updates are called one after the other and without hooks: a cancelled Update does not wait for its goroutines, so that two
of them use the same fetcher. -/
theorem C88_cancel_refuted : ¬ ∀ (domains : List Str) (as : List DAct) (s : DState), dRun domains (dInit domains) as = some s →
    (∀ g d, DAct.hook g d ∉ as) → OneByOne s.trace → ¬ Race s.trace := by
  intro h
  refine h Ex.raDoms Ex.raCancel _ (Ex.raState_run (by decide +kernel)) ?_ (Ex.one_of (by decide +kernel)) ?_
  · intro g d
    simp [Ex.raCancel]
  · refine ⟨12, 16, 2, 1, .read (.cache "a".toList), .store (.cache "a".toList), by decide, by decide +kernel, by decide +kernel, ⟨_, rfl, rfl⟩,
      .inr ⟨_, .inr (.inl rfl)⟩, ?_, ?_⟩
    · rintro ⟨⟨_, h | h | h⟩, _⟩ <;> simp at h
    · exact Ex.not_hb (S := [12]) (by decide +kernel) (by simp) (by simp)

theorem C88_refuted : ¬ C88_statement := fun h => C88_hook_refuted fun domains as s hr _ _ => h domains as s hr

/-- The hypotheses of C88_oneByOne_partial: an Update with checks at the same time, and two Updates of one goroutine. -/
example : (dRun ["a".toList] (dInit ["a".toList]) Ex.raGood).isSome = true ∧ OneByOne (Ex.raState ["a".toList] Ex.raGood).trace ∧
    (∀ g d, DAct.hook g d ∉ Ex.raGood) ∧ (∀ g, DAct.cancel g ∉ Ex.raGood) ∧ (Ex.raState ["a".toList] Ex.raGood).checks = [6, 4, 1] ∧
    OneByOne (Ex.raState ["a".toList] (Ex.raUpdate ++ [.update 0 ["a".toList], .go 0 .new])).trace := by
  refine ⟨by decide +kernel, Ex.one_of (by decide +kernel), ?_, ?_, by decide +kernel, Ex.one_of (by decide +kernel)⟩
  · intro g d
    simp [Ex.raGood]
  · intro g
    simp [Ex.raGood]

end Athenz
