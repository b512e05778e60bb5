import Verif.Model.Client

/-! # Pauses of the retrying transport -/

namespace Athenz.Spec

/-- How long it slept, all together. -/
def slept : List RtEvent → Int
  | [] => 0
  | .call _ :: es => slept es
  | .sleep _ d :: es => d + slept es

/-- The clock goes on by at least the time slept. -/
def Passing (now0 : Int) (evs : List RtEvent) : Prop := ∀ pre now d post, evs = pre ++ .sleep now d :: post → now0 + slept pre ≤ now

end Athenz.Spec
