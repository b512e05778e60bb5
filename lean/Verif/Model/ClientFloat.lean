import Verif.Go.Float
import Verif.Model.Client

/-! # client/exp_rt.go: the pauses of the retrying transport in floating point arithmetic -/

namespace Athenz

/-- client/exp_rt.go:48, 93-96 `calNextWaitDur` for the back-off factor `f`.  `big` is what the conversion of a number that is too large gives. -/
def waitDur (big : Int) (f : ℚ) (count : Nat) : Int :=
  F64.toInt64 big (F64.times (2 * count + 1) (F64.under 1000000000 (F64.square f)))

/-- client/exp_rt.go:44-56 `NewExponentialRoundTripper`. -/
def newExpRtF (big : Int) (f : ℚ) (maxRetryCount maxRetryTime : Int) : RtCfg :=
  { dur := waitDur big f, maxRetryCount := maxRetryCount, maxRetryTime := maxRetryTime }

/-- client/exp_rt.go:95.  What the conversion gives on amd64 (the instruction CVTTSD2SQ). -/
def bigAmd64 : Int := -2 ^ 63

end Athenz
