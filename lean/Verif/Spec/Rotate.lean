import Verif.Spec.Pubkey

/-! # Specification: key servers that change their keys, and refreshes that go on by themselves -/

namespace Athenz
namespace Spec

/-- An infinite execution of the public key daemon, which implies that the process never dies. -/
structure PkExec (cfg : PkCfg) (now : Int) where
  state : Nat → PkState
  act : Nat → PkAct
  init : state 0 = pkInit now
  next : ∀ n, pkStep cfg (state n) (act n) = some (state (n + 1))

/-- What has happened before the moment `n`. -/
def PkExec.hist {cfg : PkCfg} {now : Int} (x : PkExec cfg now) (n : Nat) : List PkAct := (List.range n).map x.act

/-- The step is one of the goroutine `j`, or the end of its request. -/
def OfJob (j : Nat) (a : PkAct) : Prop := jobOf a = some j

/-- Fairness: a goroutine that can go on from some time on goes on at some time, and requests end. -/
def PkFair {cfg : PkCfg} {now : Int} (x : PkExec cfg now) : Prop :=
  ∀ j n, (∀ m, n ≤ m → ∃ a, OfJob j a ∧ (pkStep cfg (x.state m) a).isSome) → ∃ m, n ≤ m ∧ OfJob j (x.act m)

/-- The body is a usable key list that publishes the keys `K`. -/
def Publishes (cfg : PkCfg) (b : Str) (K : Str → Option SigVerifier) : Prop :=
  ∃ es, cfg.decode b = some (some es) ∧ Complete cfg es ∧ ∀ id, published cfg es id = K id

/-- From the moment `N` on the server of `e` has the keys `K`, as its version `T`: it answers with these keys and that ETag, or says that
the version `T` named in the request is unchanged, or fails. -/
def ServesKeys {cfg : PkCfg} {now : Int} (x : PkExec cfg now) (N : Nat) (e : Env) (T : Str) (K : Str → Option SigVerifier) : Prop :=
  ∀ n, N ≤ n → ∀ j st tag b o, x.act n = .answer j (.answer st tag b) o → jobEnv j = e →
    (st = 200 → tag = T ∧ Publishes cfg b K) ∧ (st = 304 → requestTag (x.state n) j = some T)

/-- Again and again an update is made whose request to `e` is answered with `200` or `304`. -/
def Reached {cfg : PkCfg} {now : Int} (x : PkExec cfg now) (e : Env) : Prop :=
  ∀ n, ∃ m j st tag b o, n ≤ m ∧ (x.state n).jobs.length ≤ j ∧ jobEnv j = e ∧ x.act m = .answer j (.answer st tag b) o ∧ (st = 200 ∨ st = 304)

/-- The lookup of a key for `e` gives what `K` says. -/
def InUse (s : PkState) (e : Env) (K : Str → Option SigVerifier) : Prop := ∀ id, s.provider e id = K id

/-- At the moment `M` the updates of `e` that had begun by the moment `N` are over. -/
def Over {cfg : PkCfg} {now : Int} (x : PkExec cfg now) (N M : Nat) (e : Env) : Prop :=
  N ≤ M ∧ ∀ (j : Nat) (b : PkJob), j < (x.state N).jobs.length → (x.state M).jobs[j]? = some b → b.env = e → ∃ r, b.pc = .done r

/-- Updates of `e` do not overlap: a request is sent only when every other update of `e` has not sent its request yet or is over. -/
def OneAtATime {cfg : PkCfg} {now : Int} (x : PkExec cfg now) (e : Env) : Prop :=
  ∀ n j, x.act n = .send j → jobEnv j = e → ∀ (i : Nat) (b : PkJob), (x.state n).jobs[i]? = some b → b.env = e → i ≠ j →
    b.pc = .start ∨ ∃ r, b.pc = .done r

/-- The server of `e` names the version of every list it serves, and the version `T` is always the list that publishes `K`. -/
def Versioned {cfg : PkCfg} {now : Int} (x : PkExec cfg now) (e : Env) (T : Str) (K : Str → Option SigVerifier) : Prop :=
  ∀ n j tag b o, x.act n = .answer j (.answer 200 tag b) o → jobEnv j = e → cfg.decode b ≠ none →
    tag ≠ [] ∧ (tag = T → Publishes cfg b K)

end Spec
end Athenz
