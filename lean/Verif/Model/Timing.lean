import Mathlib.Data.Int.Basic
import Verif.Go.Num

/-! # How long policy/fetcher.go `FetchWithRetry` and policy/daemon.go `Update` take

Only requests and `time.Sleep` take time; everything else a goroutine does is taken to be instantaneous.  Times are in nanoseconds. -/

namespace Athenz

/-- policy/fetcher.go:71-151, 157.  One call of `Fetch`: how long it takes, which is the time of `client.Do` and of reading the body, and
whether it returns without an error. -/
structure TFetch where
  dur : Nat
  ok : Bool
deriving DecidableEq, Repr

/-- policy/fetcher.go:99, 157.  What becomes of the requests of one call of `FetchWithRetry`: of the one with this number, from 0, that begins
at this time.  That it depends on the time says what a context that is cancelled at some time does to it. -/
abbrev TServer := Nat → Int → TFetch

/-- policy/fetcher.go:157, 163.  What `FetchWithRetry` spends time with, and when it begins that. -/
inductive TEvent where
  | fetch (start : Int) (f : TFetch)
  | sleep (start : Int) (dur : Nat)
deriving DecidableEq, Repr

/-- The loop of policy/fetcher.go:156-164 with `fuel` rounds left: what it does, when it ends, and whether it returns at line 159.
`time.Sleep` of a negative duration returns at once.  Nothing in the loop looks at the context but the request. -/
def retryFrom (delay : Int) (env : TServer) : Nat → Nat → Int → List TEvent × Int × Bool
  | 0, _, now => ([], now, false)
  | fuel + 1, i, now =>
    let f := env i now
    if f.ok then ([.fetch now f], now + f.dur, true)
    else
      let woken := now + f.dur + delay.toNat
      let (evs, stop, ok) := retryFrom delay env fuel (i + 1) woken
      (.fetch now f :: .sleep (now + f.dur) delay.toNat :: evs, stop, ok)

/-- policy/fetcher.go:153-175 `FetchWithRetry` called at `now`; the loop variable goes from -1 up to `retryAttempts`, exclusive.  What comes
after the loop takes no time. -/
def timedFetch (delay retryAttempts : Int) (env : TServer) (now : Int) : List TEvent × Int × Bool :=
  retryFrom delay env (retryAttempts + 1).toNat 0 now

/-- policy/daemon.go:163-182, 299-300.  When `Update`, called at `now`, gets past line 182 or returns before, with a context that is done from
`cancel` on; one `TServer` for each domain.  The domains are fetched at the same time, and `eg.Wait` waits for all of them: the group has no
context (line 160), so that the failure of one does not end the others.  Lines 165-179 are passed for all domains at `now`. -/
def timedUpdate (delay retryAttempts : Int) (cancel : Option Int) (domains : List TServer) (now : Int) : Int :=
  if cancel.any (fun t => decide (t ≤ now)) then now                        -- lines 166-168
  else (domains.map fun env => (timedFetch delay retryAttempts env now).2.1).foldl max now

end Athenz
