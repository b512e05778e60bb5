import Verif.Spec.Revoke
import Verif.Spec.RotateJwk
import Verif.Spec.SysLive
import Verif.Spec.Pace

/-! # Specification for C102: an assembled authorizer whose JWK daemon updates in time -/

namespace Athenz.Spec

/-- The call of `Update` of the JWK daemon that began in step `n` has returned in the state `s`. -/
def JwkReturned {cfg : SysCfg} {now : Int} (x : SysExec cfg now) (n : Nat) (s : Sys) : Prop :=
  ∃ b e, s.jwk.jobs[(x.state n).jwk.jobs.length]? = some b ∧ b.result = some e

/-- Until the time `T`, the updates of the sets of keys in the execution `x` are `upd`: number `k` is called in step `call k`, at the time that `upd`
says, and has returned after step `done k`, at the time that `upd` says.  Nobody else calls `Update`, except for calls that have returned before
the first of them. -/
structure JwkPacedUntil {cfg : SysCfg} {now : Int} (x : SysExec cfg now) (upd : Nat → PaceUpd) (T : Int) (call done : Nat → Nat) : Prop where
  order : ∀ k, stops (upd k) ≤ T → call k ≤ done k
  next : ∀ k, (upd (k + 1)).start ≤ T → done k ≤ call (k + 1)
  called : ∀ k, (upd k).start ≤ T → x.act (call k) = .jwk .update ∧ (x.state (call k)).auth.now = (upd k).start
  returned : ∀ k, stops (upd k) ≤ T → (x.state (done k)).auth.now = stops (upd k) ∧ JwkReturned x (call k) (x.state (done k))
  only : ∀ n, x.act n = .jwk .update → (x.state n).auth.now ≤ T →
    (∃ k, (upd k).start ≤ T ∧ n = call k) ∨ JwkReturned x n (x.state (call 0))

/-- From step `N` on, requests for the set of the URL succeed, and give `set`. -/
def GivesSet {cfg : SysCfg} {now : Int} (x : SysExec cfg now) (N : Nat) (url : Str) (set : JwkSet) : Prop :=
  ∀ n, N ≤ n → ∀ j out, x.act n = .jwk (.fetch j out) → WorksOn (x.state n).jwk j url → out = some set

end Athenz.Spec
