import Verif.Spec.Running

/-! # Specification: the context of `Start` is cancelled -/

namespace Athenz
namespace Spec

/-- The step is one of the goroutine that passes errors on. -/
def OfForwarder : RAct → Prop
  | .fwd (.take _) => True
  | .fwd .send => True
  | .fwd .selDone => True
  | .fwd .stop => True
  | _ => False

/-- The goroutine that passes errors on goes on if it can go on; and if it comes to its select again and again while the context is cancelled,
the select takes that case some time. -/
structure ForwarderFair {cfg : SysCfg} {ce : Str} {now : Int} {on : LKind → Bool} (x : RsExec cfg ce now on) : Prop where
  goes : ∀ n, (∀ m, n ≤ m → ∃ a, OfForwarder a ∧ (rsStep cfg ce (x.state m) a).isSome) → ∃ m, n ≤ m ∧ OfForwarder (x.act m)
  stops : (∀ n, ∃ m, n ≤ m ∧ (x.state m).fwd.pc = .select ∧ (x.state m).fwd.cancelled = true) → ∃ m, x.act m = .fwd .selDone

/-- The same for the goroutine of the child `k`. -/
structure StopFair {cfg : SysCfg} {ce : Str} {now : Int} {on : LKind → Bool} (x : RsExec cfg ce now on) (k : LKind) : Prop where
  goes : ∀ n, (∀ m, n ≤ m → ∃ a, OfChild k a ∧ (rsStep cfg ce (x.state m) a).isSome) → ∃ m, n ≤ m ∧ OfChild k (x.act m)
  stops : (∀ n, ∃ m c, n ≤ m ∧ (x.state m).fwd.child k = some c ∧ c.pc = .select ∧ c.cancelled = true) → ∃ m, x.act m = .fwd (.child k .selDone)

/-- Somebody reads the channel that `Start` returned. -/
def ChannelRead {cfg : SysCfg} {ce : Str} {now : Int} {on : LKind → Bool} (x : RsExec cfg ce now on) : Prop :=
  ∀ n, (∀ m, n ≤ m → (x.state m).fwd.ech ≠ []) → ∃ m, n ≤ m ∧ x.act m = .fwd .recv

/-- The goroutine that passes errors on has returned. -/
def ForwarderGone (s : RSys) : Prop := s.fwd.pc = .exited

/-- The goroutine of the child `k` has returned. -/
def ChildGone (s : RSys) (k : LKind) : Prop := ∃ c, s.fwd.child k = some c ∧ c.pc = .exited

/-- The goroutine of the child `k` waits for room in its channel, which holds 100 errors: to send the error of an update, or, as it stops, that of
the context. -/
def ChildBlocked (s : RSys) (k : LKind) : Prop :=
  ∃ c, s.fwd.child k = some c ∧ c.ech.length = 100 ∧ (c.pc = .stopping ∨ (k ≠ .jwkd ∧ ∃ r e, c.pc = .report r e))

/-- In this step the goroutine of the child `k` is given the error of its call of `Update`. -/
def FailedReturn (s : RSys) (k : LKind) (a : RAct) : Prop :=
  ∃ e i, a = .ret k e ∧ s.cur k = some i ∧ s.sys.updateRet i k = some false

open Classical in
/-- How many of the `d` moments from `n` on have the property. -/
noncomputable def countFrom (P : Nat → Prop) (n : Nat) : Nat → Nat
  | 0 => 0
  | d + 1 => countFrom P n d + if P (n + d) then 1 else 0

end Spec
end Athenz
