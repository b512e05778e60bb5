import Verif.Go.Num

/-! # client/exp_rt.go: the retrying transport -/

namespace Athenz

/-- client/exp_rt.go:60, 85-86.  A response; `open'` says that its body can still be read. -/
structure Resp where
  status : Nat
  body : Str
  open' : Bool
  deriving DecidableEq, Repr

/-- client/exp_rt.go:64.  What one call of the inner transport gives.  By the contract of `http.RoundTripper` there is a response or an
error, not both; a response comes with an open body.  For an error: whether it has a method `Temporary` that returns true, its text, and the
clock, in nanoseconds since 1970, when `canRetry` reads it. -/
inductive Attempt
  | fail (temporary : Bool) (e : Str) (now : Int)
  | resp (status : Nat) (body : Str)
  deriving DecidableEq, Repr

/-- client/exp_rt.go:37-42. -/
def retryable (status : Nat) : Bool := status == 429 || status == 500 || status == 503 || status == 504

/-- client/exp_rt.go:29-35. -/
structure RtCfg where
  /-- `calNextWaitDur` (client/exp_rt.go:93-96): floating point arithmetic is not modelled, any function from counts to durations is possible. -/
  dur : Nat → Int
  maxRetryCount : Int
  maxRetryTime : Int

/-- client/exp_rt.go:44-56 `NewExponentialRoundTripper` with the back-off factor `p / q`, and client/exp_rt.go:93-96: `2 * count + 1` times the
precomputed time factor, one second divided by the square of the back-off factor, cut down to whole nanoseconds.  Computed exactly; the rounding
of floating point numbers is not modelled. -/
def newExpRt (p q : Nat) (maxRetryCount maxRetryTime : Int) : RtCfg :=
  { dur := fun count => (((2 * count + 1) * (1000000000 * q ^ 2) / p ^ 2 : Nat) : Int), maxRetryCount := maxRetryCount, maxRetryTime := maxRetryTime }

/-- client/exp_rt.go:64, 76.  What the caller of the transport sees of the loop: calls of the inner transport and sleeps, with the time at
which the sleep was decided on. -/
inductive RtEvent
  | call (cnt : Nat)
  | sleep (now dur : Int)
  deriving DecidableEq, Repr

/-- client/exp_rt.go:100-102 `canRetry`; `UnixNano` wraps around. -/
def canRetry (now dur limit : Int) : Bool := decide (wrap64 (now + dur) < limit)

/-- The loop of client/exp_rt.go:63-88 with `fuel` rounds left; `last` is the value of the variables `resp` and `err`. -/
def rtLoop (cfg : RtCfg) (env : Nat → Attempt) (limit : Int) : Nat → Nat → Option Resp × Option Str → List RtEvent × (Option Resp × Option Str)
  | 0, _, last => ([], last)
  | fuel + 1, cnt, _ =>
    match env cnt with
    | .fail temporary e now =>
      if temporary = false then ([.call cnt], (none, some e))
      else if canRetry now (cfg.dur cnt) limit = false then ([.call cnt], (none, some e))
      else
        let (evs, r) := rtLoop cfg env limit fuel (cnt + 1) (none, some e)
        (.call cnt :: .sleep now (cfg.dur cnt) :: evs, r)
    | .resp status body =>
      if retryable status then
        let (evs, r) := rtLoop cfg env limit fuel (cnt + 1) (some ⟨status, body, true⟩, none)
        (.call cnt :: evs, r)
      else ([.call cnt], (some ⟨status, body, false⟩, none))

/-- client/exp_rt.go:58-91 `RoundTrip`; `now0` is the clock at the beginning.  The body of the request is not modelled: all requests of the
library are GET requests. -/
def roundTrip (cfg : RtCfg) (env : Nat → Attempt) (now0 : Int) : List RtEvent × (Option Resp × Option Str) :=
  rtLoop cfg env (wrap64 (now0 + cfg.maxRetryTime)) cfg.maxRetryCount.toNat 0 (none, none)

end Athenz
