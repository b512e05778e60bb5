import Verif.Model.System

/-! # Specification: infinite executions of the assembled authorizer, and fairness -/

namespace Athenz
namespace Spec

/-- An infinite execution, which implies that the process never dies. -/
structure SysExec (cfg : SysCfg) (now : Int) where
  state : Nat → Sys
  act : Nat → SysAct
  init : state 0 = sysInit cfg now
  next : ∀ n, sysStep cfg (state n) (act n) = some (state (n + 1))

/-- What has happened before the moment `n`. -/
def SysExec.hist {cfg : SysCfg} {now : Int} (x : SysExec cfg now) (n : Nat) : List SysAct := (List.range n).map x.act

/-- The step is one of the goroutines of check `k` of the policy daemon. -/
def OfCheck (k : Nat) : SysAct → Prop
  | .pd (.load k') => k' = k
  | .pd (.chk k' (.worker _)) => k' = k
  | .pd (.chk k' .close) => k' = k
  | .pd (.chk k' .recv) => k' = k
  | _ => False

/-- The step is one of the call `i` of `authorize`, or of the goroutines of its policy check. -/
def OfCall (s : Sys) (i : Nat) (a : SysAct) : Prop :=
  (∃ k, s.checkOf i = some k ∧ OfCheck k a) ∨
  match a with
  | .auth (.get j) => j = i
  | .auth (.validate j) => j = i
  | .auth (.translate j _) => j = i
  | .auth (.store j) => j = i
  | .beginCheck j => j = i
  | .endCheck j _ _ => j = i
  | _ => False

/-- The step is one of the call `k` of `Verify` or `Authorize`. -/
def OfSess (s : Sys) (k : Nat) (a : SysAct) : Prop :=
  (∃ i, a = .auth (.sub k i)) ∨ a = .auth (.fin k) ∨ ∃ x i, s.auth.sess k = some x ∧ x.cur = some i ∧ OfCall s i a

/-- Something that goes on by itself. -/
inductive Thread
  | check (k : Nat)
  | call (i : Nat)
  | sess (k : Nat)

def Thread.Does (s : Sys) : Thread → SysAct → Prop
  | .check k, a => OfCheck k a
  | .call i, a => OfCall s i a
  | .sess k, a => OfSess s k a

/-- Fairness: what can go on from some time on goes on at some time. -/
def SysFair {cfg : SysCfg} {now : Int} (x : SysExec cfg now) : Prop :=
  ∀ (th : Thread) (n : Nat), (∀ m, n ≤ m → ∃ a, th.Does (x.state m) a ∧ (sysStep cfg (x.state m) a).isSome) →
    ∃ m, n ≤ m ∧ th.Does (x.state m) (x.act m)

end Spec
end Athenz
