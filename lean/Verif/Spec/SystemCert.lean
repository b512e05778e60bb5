import Verif.Model.SystemCert
import Verif.Spec.SysLive
import Verif.Spec.InForce

/-! # Specification: what the policies say about role certificates, and executions with calls of `VerifyRoleCert` -/

namespace Athenz
namespace Spec

/-- For some domain, a role that the certificates name for it is allowed the action on the resource, and none is denied it. -/
def CertAllowed (U : CaseFns) (A : List RawAssertion) (pre : Str) (certs : List Cert) (act res : Str) : Prop :=
  ∃ d, (∃ x, NamesRole pre certs d x ∧ Allowed U A d x act res) ∧ ¬ ∃ x, NamesRole pre certs d x ∧ Denied U A d x act res

/-- No other documents than `docs` were in force since the step number `n` of the history `h`. -/
def OnlyInForce (cfg : SysCfg) (s0 : Sys) (h : List SysAct) (n : Nat) (docs : List (Option PolicyDoc)) : Prop :=
  ∀ h1 h2 s1 docs', h = h1 ++ h2 → n ≤ h1.length → sysRun cfg s0 h1 = some s1 → InForce cfg s0 h1 s1 docs' → docs' = docs

/-- An infinite execution. -/
structure CExec (cfg : SysCfg) (now : Int) where
  state : Nat → CSys
  act : Nat → CAct
  init : state 0 = cInit cfg now
  next : ∀ n, cStep cfg (state n) (act n) = some (state (n + 1))

/-- The step is one of the call `i` of `VerifyRoleCert`, or of the goroutines of the policy check it waits for. -/
def OfCert (s : CSys) (i : Nat) (a : CAct) : Prop :=
  a = .next i ∨ a = .ret i ∨ ∃ c k b, s.certs[i]? = some c ∧ c.pc = .wait ∧ c.checks.getLast? = some k ∧ a = .sys b ∧ OfCheck k b

/-- Fairness for the calls of `VerifyRoleCert`. -/
def CertFair {cfg : SysCfg} {now : Int} (x : CExec cfg now) : Prop :=
  ∀ (i n : Nat), (∀ m, n ≤ m → ∃ a, OfCert (x.state m) i a ∧ (cStep cfg (x.state m) a).isSome) → ∃ m, n ≤ m ∧ OfCert (x.state m) i (x.act m)

end Spec
end Athenz
