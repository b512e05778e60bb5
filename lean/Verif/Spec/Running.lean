import Verif.Model.Running
import Verif.Spec.Change
import Verif.Spec.Revoke

/-! # Specification: an authorizer that was started -/

namespace Athenz
namespace Spec

/-- An infinite execution of the authorizer with the goroutines of `Start`. -/
structure RsExec (cfg : SysCfg) (ce : Str) (now : Int) (on : LKind → Bool) where
  state : Nat → RSys
  act : Nat → RAct
  init : state 0 = rsInit (sysInit cfg now) on
  next : ∀ n, rsStep cfg ce (state n) (act n) = some (state (n + 1))

/-- The step is one of the goroutine of the child `k`. -/
def OfChild (k : LKind) : RAct → Prop
  | .call k' _ _ => k' = k
  | .ret k' _ => k' = k
  | .fwd (.child k' a) => k' = k ∧ a ≠ .tick
  | _ => False

/-- The goroutine of the child `k` goes on if it can go on, whatever it does then; and its ticker goes on for ever. -/
structure ChildFair {cfg : SysCfg} {ce : Str} {now : Int} {on : LKind → Bool} (x : RsExec cfg ce now on) (k : LKind) : Prop where
  goes : ∀ n, (∀ m, n ≤ m → ∃ a, OfChild k a ∧ (rsStep cfg ce (x.state m) a).isSome) → ∃ m, n ≤ m ∧ OfChild k (x.act m)
  ticks : ∀ n, ∃ m, n ≤ m ∧ x.act m = .fwd (.child k .tick)

/-- There is something in the channel of the child `k`. -/
def HasError (s : RSys) (k : LKind) : Prop := ∃ c, s.fwd.child k = some c ∧ c.ech ≠ []

/-- The goroutine that passes errors on does so: a send that stays possible happens, and a child that has something in its channel again and again
when the goroutine is at its select is served.  And somebody reads the channel that `Start` returned. -/
structure ErrorsRead {cfg : SysCfg} {ce : Str} {now : Int} {on : LKind → Bool} (x : RsExec cfg ce now on) : Prop where
  sends : ∀ n, (∀ m, n ≤ m → (rsStep cfg ce (x.state m) (.fwd .send)).isSome) → ∃ m, n ≤ m ∧ x.act m = .fwd .send
  choice : ∀ k, (∀ n, ∃ m, n ≤ m ∧ (x.state m).fwd.pc = .select ∧ HasError (x.state m) k) → ∀ n, ∃ m, n ≤ m ∧ x.act m = .fwd (.take k)
  reads : ∀ n, (∀ m, n ≤ m → (x.state m).fwd.ech ≠ []) → ∃ m, n ≤ m ∧ x.act m = .fwd .recv

/-- The context given to `Start` is not cancelled. -/
def Uncancelled {cfg : SysCfg} {ce : Str} {now : Int} {on : LKind → Bool} (x : RsExec cfg ce now on) : Prop := ∀ n, x.act n ≠ .fwd .cancel

/-- All goroutines of the public key daemon's updates are over. -/
def KeysIdle (s : PkState) : Prop := ∀ (j : Nat) (b : PkJob), s.jobs[j]? = some b → ∃ r, b.pc = .done r

/-- `Init` comes first: whoever else calls `Update` of the public key daemon does so before the moment `n0`, one call after the other, and the
goroutine of `Start` calls it after that moment, when these calls are over. -/
structure InitFirst {cfg : SysCfg} {ce : Str} {now : Int} {on : LKind → Bool} (x : RsExec cfg ce now on) (n0 : Nat) : Prop where
  before : ∀ n, n < n0 → ∀ r f, x.act n ≠ .call .pubkeyd r f
  serial : ∀ n, n < n0 → x.act n = .sys (.pk .update) → KeysIdle (x.state n).sys.pk
  over : KeysIdle (x.state n0).sys.pk
  after : ∀ n, n0 ≤ n → x.act n ≠ .sys (.pk .update)

end Spec
end Athenz
