import Verif.Model.Loop

/-! # What the background updaters should do -/

namespace Athenz.Spec

/-- The errors of the updates that failed, oldest first. -/
def failures : List LAct → List Str
  | [] => []
  | .updFail e :: as => e :: failures as
  | _ :: as => failures as

/-- The last update that returned has failed. -/
def LastFailed (acts : List LAct) : Prop := ∃ pre e post, acts = pre ++ .updFail e :: post ∧ LAct.updOk ∉ post

/-- What an updater puts before the error of a failed update. -/
def failText : LKind → Str
  | .policyd => "error update policy".toList
  | .pubkeyd => "error update pubkey".toList
  | .jwkd => "error update athenz json web key".toList

/-- An error that `Start` takes from the channel of an updater, as it passes it on. -/
def fwdText : LKind × Str → Str
  | (.pubkeyd, e) => "update pubkey error".toList ++ ": ".toList ++ e
  | (.policyd, e) => "update policy error".toList ++ ": ".toList ++ e
  | (.jwkd, e) => "update jwk error".toList ++ ": ".toList ++ e

/-- Several failures as one text, the latest in front; `m` is put before each. -/
def batchText (m : Str) : List Str → Str
  | es => es.foldl (fun acc e => m ++ ": ".toList ++ e ++ ": ".toList ++ acc) []

/-- An infinite execution of the loop. -/
structure LExec (k : LKind) (ce : Str) where
  state : Nat → LState
  act : Nat → LAct
  init : state 0 = lInit
  next : ∀ n, lStep k ce (state n) (act n) = some (state (n + 1))

/-- Fairness: updates return; a step of the goroutine, other than a choice at the select, that stays possible is taken; the error channel is
read if there is something in it, which only matters if `reader` is true; and a case of the select that is ready infinitely often is taken
infinitely often. -/
structure LFair {k : LKind} {ce : Str} (reader : Prop) (x : LExec k ce) : Prop where
  updates : ∀ n, ∃ m, n ≤ m ∧ ∀ r, (x.state m).pc ≠ .updating r
  steps : ∀ a ∈ [LAct.send, .wake, .offer], ∀ n, (∀ m, n ≤ m → (lStep k ce (x.state m) a).isSome) → ∃ m, n ≤ m ∧ x.act m = a
  reads : reader → ∀ n, (∀ m, n ≤ m → (x.state m).ech ≠ []) → ∃ m, n ≤ m ∧ x.act m = .recv
  choice : (∀ n, ∃ m, n ≤ m ∧ (x.state m).pc = .select ∧ 0 < (x.state m).fch) → ∀ n, ∃ m, n ≤ m ∧ x.act m = .selRetry

end Athenz.Spec
