import Verif.Model.Fetcher

/-! # What the settings of retries mean on the wire -/

namespace Athenz.Spec

/-- The last value that the list gives, if there is one. -/
def lastGiven {O α : Type} (f : O → Option α) (opts : List O) : Option α := (opts.filterMap f).getLast?

/-- The number of requests that a call sent. -/
def requestsOf (s : FState) (j : Nat) : Nat := s.reqs.countP fun r => decide (r.1 = j)

/-- Every `FetchWithRetry` of such a fetcher asks the server at most `n` times, and `n` times before it gives up. -/
def GivesUpAfter (cfg : FetchCfg) (n : Nat) : Prop :=
  ∀ now keys h s, fRun cfg (fInit now keys) h = some s → ∀ j pc, s.calls[j]? = some ⟨true, pc⟩ →
    requestsOf s j ≤ n ∧ ∀ sp e, pc = .ret sp (some e) → requestsOf s j = n

end Athenz.Spec
