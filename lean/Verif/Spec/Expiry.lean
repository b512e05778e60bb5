import Verif.Model.Expiry

/-! # What should become of expired policies -/

namespace Athenz.Spec

/-- An infinite execution; at a moment with `none` nothing happens. -/
structure XExec (cap : Nat) (now : Int) where
  state : Nat → XState
  act : Nat → Option XAct
  init : state 0 = xInit now
  next : ∀ n, match act n with
    | none => state (n + 1) = state n
    | some a => xStep cap (state n) a = some (state (n + 1))

/-- The step is one of lookup `j`. -/
def OfLookup (j : Nat) (a : XAct) : Prop := a = .get j ∨ a = .send j ∨ a = .ret j

/-- The step is one of the goroutine that calls the hook for object `i`. -/
def OfExpirer (i : Nat) (a : XAct) : Prop := a = .take i ∨ a = .exit i

/-- Fairness: lookups and the goroutines that call the hook go on if they can from some time on, and such a goroutine ends if it can from some time
on. -/
structure XFair {cap : Nat} {now : Int} (x : XExec cap now) : Prop where
  lookups : ∀ j n, (∀ m, n ≤ m → ∃ a, OfLookup j a ∧ (xStep cap (x.state m) a).isSome) → ∃ m a, n ≤ m ∧ x.act m = some a ∧ OfLookup j a
  expirers : ∀ i n, (∀ m, n ≤ m → ∃ a, OfExpirer i a ∧ (xStep cap (x.state m) a).isSome) → ∃ m a, n ≤ m ∧ x.act m = some a ∧ OfExpirer i a
  ends : ∀ i n, (∀ m, n ≤ m → (xStep cap (x.state m) (.exit i)).isSome) → ∃ m, n ≤ m ∧ x.act m = some (.exit i)

/-- Lookup `j` in object `i` has found that the entry for `k` is expired. -/
def FoundExpired (s : XState) (j i : Nat) (k : Str) : Prop := j < s.looks ∧ s.look j = ⟨i, k, .found⟩

/-- At this moment the hook is called with the key that lookup `j` found; it will store into the policies in use. -/
def HookCalled {cap : Nat} {now : Int} (x : XExec cap now) (n j i : Nat) (k : Str) : Prop :=
  x.act n = some (.take i) ∧ ((x.state n).obj i).queue.head? = some (k, j) ∧ (x.state (n + 1)).hooks = (x.state n).hooks ++ [(k, (x.state n).live)]

/-- Lookup `j` has returned. -/
def HasReturned (s : XState) (j : Nat) : Prop := ∃ hit, (s.look j).pc = .returned hit

/-- Call `i` of Update is at work. -/
def InProgress (s : XState) (i : Nat) : Prop := (s.obj i).pc ≠ .none ∧ (s.obj i).pc ≠ .returned

/-- The goroutine of object `i` is there, and nobody has told it to end. -/
def KeepsRunning (s : XState) (i : Nat) : Prop := (s.obj i).running = true ∧ (s.obj i).stopped = false

end Athenz.Spec
