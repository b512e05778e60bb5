import Verif.Spec.Revoke
import Verif.Spec.Running
import Verif.Spec.Pace
import Verif.Spec.InTimeJwk

/-! # Specification for C103: an authorizer whose public key daemon updates in time -/

namespace Athenz.Spec

/-- The call of `Update` of the public key daemon that began in step `n` has returned in the state `s`: both of its goroutines are over. -/
def PkReturned {cfg : SysCfg} {now : Int} (x : SysExec cfg now) (n : Nat) (s : Sys) : Prop :=
  ∀ d, d < 2 → ∃ b r, s.pk.jobs[(x.state n).pk.jobs.length + d]? = some b ∧ b.pc = .done r

/-- Until the time `T`, the updates of the public keys in the execution `x` are `upd`: number `k` is called in step `call k`, at the time that `upd`
says, and has returned after step `done k`, at the time that `upd` says.  Nobody else calls `Update`, except for calls that have returned before
the first of them. -/
structure PkPacedUntil {cfg : SysCfg} {now : Int} (x : SysExec cfg now) (upd : Nat → PaceUpd) (T : Int) (call done : Nat → Nat) : Prop where
  order : ∀ k, stops (upd k) ≤ T → call k ≤ done k
  next : ∀ k, (upd (k + 1)).start ≤ T → done k ≤ call (k + 1)
  called : ∀ k, (upd k).start ≤ T → x.act (call k) = .pk .update ∧ (x.state (call k)).auth.now = (upd k).start
  returned : ∀ k, stops (upd k) ≤ T → (x.state (done k)).auth.now = stops (upd k) ∧ PkReturned x (call k) (x.state (done k))
  only : ∀ n, x.act n = .pk .update → (x.state n).auth.now ≤ T →
    (∃ k, (upd k).start ≤ T ∧ n = call k) ∨ PkReturned x n (x.state (call 0))

/-- From step `N` on, requests to the service `e` are answered with `200` or `304`. -/
def Answers {cfg : PkCfg} {now : Int} (x : PkExec cfg now) (N : Nat) (e : Env) : Prop :=
  ∀ n, N ≤ n → ∀ j r o, x.act n = .answer j r o → jobEnv j = e → ∃ st tag b, r = .answer st tag b ∧ (st = 200 ∨ st = 304)

/-- The goroutine of the public key daemon in the execution `y` goes on without delay: `c` is the goroutine with the time, and every step of `y` is one
in time of the goroutine, or none of it. -/
structure PkInTime {cfg : SysCfg} {ce : Str} {now : Int} {on : LKind → Bool} (y : RsExec cfg ce now on) (pace : PaceCfg) (env : Nat → Int → TFetch)
    (B : Nat) (c : Nat → TLoop) : Prop where
  prompt : Prompt .pubkeyd ce pace env B c
  loop : ∀ n, B ≤ n → (y.state n).fwd.child .pubkeyd = some (c n).l
  clock : ∀ n, B ≤ n → (c n).now = (y.state n).sys.auth.now

end Athenz.Spec
