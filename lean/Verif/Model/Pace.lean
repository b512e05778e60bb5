import Verif.Model.Timing

/-! # When the goroutines of policy/daemon.go `Start`, pubkey/daemon.go `Start` and jwk/daemon.go `Start` call `Update`

The three loops wait for a ticker and for a channel `fch` with room for one, which says that an update failed.  Only `Update` and `time.Sleep` take
time.  The context is not cancelled, and sending an error takes no time: somebody reads the errors, or there is room.  Times are in nanoseconds. -/

namespace Athenz

/-- policy/daemon.go:62-64, pubkey/daemon.go:46-47, jwk/daemon.go:41-42: the refresh period and the pause; and where the pause is.  `atTick` says
that an update which the ticker began is followed by a pause when it fails, as in jwk/daemon.go:81, and unlike policy/daemon.go:138-147 and
pubkey/daemon.go:135-144. -/
structure PaceCfg where
  period : Int
  delay : Int
  atTick : Bool
  /-- when `time.NewTicker` is called -/
  t0 : Int

/-- policy/daemon.go:126, 138, pubkey/daemon.go:123, 135, jwk/daemon.go:109, 111.  Which case of the `select` was taken. -/
inductive Trig where
  | tick
  | retry
deriving DecidableEq, Repr

/-- policy/daemon.go:119-149, pubkey/daemon.go:116-146, jwk/daemon.go:98-114.  The goroutine at its `select`: the time, when it received from
the ticker for the last time, and whether there is something in `fch`. -/
structure PaceSt where
  now : Int
  last : Int
  fch : Bool

/-- policy/daemon.go:127, 139, pubkey/daemon.go:124, 136, jwk/daemon.go:79.  A call of `Update`. -/
structure PaceUpd where
  trig : Trig
  start : Int
  dur : Nat
  ok : Bool
deriving DecidableEq, Repr

/-- policy/daemon.go:118, pubkey/daemon.go:115, jwk/daemon.go:75.  How many times the ticker has fired at `t`; it fires at `t0 + period`,
`t0 + 2 * period` and so on. -/
def ticks (cfg : PaceCfg) (t : Int) : Int := (t - cfg.t0) / cfg.period

/-- policy/daemon.go:120-149, pubkey/daemon.go:117-146, jwk/daemon.go:99-113.  One round of the loop: `pick` decides if both cases are ready,
`env` says what the update that begins at a time does.  The channel of a ticker has room for one tick and further ones are dropped, so there is
a tick to receive if the ticker has fired since the last receive. -/
def paceStep (cfg : PaceCfg) (env : Int → TFetch) (pick : Bool) (s : PaceSt) : PaceUpd × PaceSt :=
  let pending := decide (ticks cfg s.last < ticks cfg s.now)
  let byRetry := s.fch && (!pending || pick)
  let trig := if byRetry then Trig.retry else Trig.tick
  let start := if byRetry || pending then s.now else cfg.t0 + (ticks cfg s.now + 1) * cfg.period
  let f := env start
  let stop := start + f.dur
  let last := if byRetry then s.last else start
  let fch := if byRetry then false else s.fch
  let woken := if byRetry || cfg.atTick then stop + cfg.delay.toNat else stop   -- policy/daemon.go:130, pubkey/daemon.go:127, jwk/daemon.go:81
  (⟨trig, start, f.dur, f.ok⟩, if f.ok then ⟨stop, last, fch⟩ else ⟨woken, last, true⟩)

/-- policy/daemon.go:112-119, pubkey/daemon.go:109-116, jwk/daemon.go:70-98.  The goroutine after `n` rounds. -/
def paceState (cfg : PaceCfg) (env : Nat → Int → TFetch) (pick : Nat → Bool) : Nat → PaceSt
  | 0 => ⟨cfg.t0, cfg.t0, false⟩
  | n + 1 => (paceStep cfg (env n) (pick n) (paceState cfg env pick n)).2

/-- policy/daemon.go:119-149, pubkey/daemon.go:116-146, jwk/daemon.go:98-114.  Its call of `Update` number `n`, from 0. -/
def paceUpd (cfg : PaceCfg) (env : Nat → Int → TFetch) (pick : Nat → Bool) (n : Nat) : PaceUpd :=
  (paceStep cfg (env n) (pick n) (paceState cfg env pick n)).1

end Athenz
