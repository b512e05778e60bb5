import Verif.Model.Jwkd
import Verif.Spec.Access

/-! # Specification: servers that change their sets of JSON web keys -/

namespace Athenz
namespace Spec

/-- An infinite execution of the JWK daemon; at a moment with `none` it does nothing. -/
structure JwkExec (cfg : JwkCfg) where
  state : Nat → JwkState
  act : Nat → Option JwkAct
  init : state 0 = jwkInit
  next : ∀ n, match act n with
    | none => state (n + 1) = state n
    | some a => jwkStep cfg (state n) a = some (state (n + 1))

/-- The step is one of the update `j`, or the end of its request. -/
def OfJwkJob (j : Nat) : JwkAct → Prop
  | .update => False
  | .fetch k _ => k = j
  | .store k => k = j

/-- Fairness: an update that can go on from some time on goes on at some time, and requests end. -/
def JwkFair {cfg : JwkCfg} (x : JwkExec cfg) : Prop :=
  ∀ j n, (∀ m, n ≤ m → ∃ a, OfJwkJob j a ∧ (jwkStep cfg (x.state m) a).isSome) → ∃ m a, n ≤ m ∧ x.act m = some a ∧ OfJwkJob j a

/-- Update `j` is at work on the URL. -/
def WorksOn (s : JwkState) (j : Nat) (url : Str) : Prop := ∃ (b : JwkJob) (rest : List Str), s.jobs[j]? = some b ∧ b.todo = url :: rest

/-- From the moment `N` on the server gives the set for the URL, or fails. -/
def ServesSet {cfg : JwkCfg} (x : JwkExec cfg) (N : Nat) (url : Str) (set : JwkSet) : Prop :=
  ∀ n, N ≤ n → ∀ j set', x.act n = some (.fetch j (some set')) → WorksOn (x.state n) j url → set' = set

/-- Again and again a request to the URL succeeds. -/
def ReachedJwk {cfg : JwkCfg} (x : JwkExec cfg) (url : Str) : Prop :=
  ∀ n, ∃ m j set, n ≤ m ∧ x.act m = some (.fetch j (some set)) ∧ WorksOn (x.state m) j url

/-- Lookups for the URL find the keys of the set, and no others. -/
def InUseJwk (cfg : JwkCfg) (s : JwkState) (url : Str) (set : JwkSet) : Prop :=
  ∀ kid jku, lookupURL cfg jku = url → ∀ k, getKey cfg s kid jku = some k ↔ kid ≠ [] ∧ KeyIn set kid k

end Spec
end Athenz
