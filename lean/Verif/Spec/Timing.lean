import Verif.Model.Timing

/-! # Specification for C93: traces of what takes time -/

namespace Athenz.Spec

/-- When it begins. -/
def starts : TEvent → Int
  | .fetch t _ => t
  | .sleep t _ => t

/-- When it is over. -/
def over : TEvent → Int
  | .fetch t f => t + f.dur
  | .sleep t d => t + d

/-- The trace begins at `t`, ends at `t'`, and each thing begins when the one before is over. -/
def Follows : Int → List TEvent → Int → Prop
  | t, [], t' => t = t'
  | t, e :: es, t' => starts e = t ∧ Follows (over e) es t'

def isFetch : TEvent → Bool
  | .fetch _ _ => true
  | .sleep _ _ => false

def isFailed : TEvent → Bool
  | .fetch _ f => !f.ok
  | .sleep _ _ => false

/-- A request that begins before `T`. -/
def fetchBefore (T : Int) : TEvent → Bool
  | .fetch t _ => decide (t < T)
  | .sleep _ _ => false

/-- How long the requests of a trace take together. -/
def requestTime (es : List TEvent) : Nat :=
  (es.map fun e => match e with | .fetch _ f => f.dur | .sleep _ _ => 0).sum

/-- The contract of `http.Client` with a context that is cancelled at `T`: a request under way ends then, and one made later fails at once. -/
structure EndsOnCancel (T : Int) (env : TServer) : Prop where
  before : ∀ i t, t < T → t + (env i t).dur ≤ T
  after : ∀ i t, T ≤ t → (env i t).dur = 0 ∧ (env i t).ok = false

/-- No request takes longer than `D`. -/
def AtMost (D : Nat) (env : TServer) : Prop := ∀ i t, (env i t).dur ≤ D

end Athenz.Spec
