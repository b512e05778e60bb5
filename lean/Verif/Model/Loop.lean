import Verif.Model.Err

/-! # The background updaters: policy/daemon.go:109-154, pubkey/daemon.go:104-151, jwk/daemon.go:67-119

One goroutine runs the loop; a ticker, the context and the reader of the error channel are its environment.  Errors are their texts, as
`Error()` gives them.  What an update does is not part of this model: it succeeds, or it fails with some text, at any time. -/

namespace Athenz

/-- jwk/daemon.go:80, 84, 87, 104, policy/daemon.go:128-140, pubkey/daemon.go:125, 137.  pkg/errors `Wrap` and `fmt` of the result: the
message, a colon, and the text of the cause. -/
def wrapMsg (msg e : Str) : Str := msg ++ ": ".toList ++ e

/-- policy/daemon.go:109-153, pubkey/daemon.go:104-150, jwk/daemon.go:67-118.  The three updaters. -/
inductive LKind
  | policyd
  | pubkeyd
  | jwkd
  deriving DecidableEq, Repr

/-- The message put before the error of an update: policy/daemon.go:128, 140, pubkey/daemon.go:125, 137, jwk/daemon.go:80. -/
def LKind.msg : LKind → Str
  | .policyd => "error update policy".toList
  | .pubkeyd => "error update pubkey".toList
  | .jwkd => "error update athenz json web key".toList

/-- The capacity of the error channel: policy/daemon.go:111, pubkey/daemon.go:107, jwk/daemon.go:69. -/
def echCap : Nat := 100

/-- policy/daemon.go:114-150, pubkey/daemon.go:110-147, jwk/daemon.go:72-115.  Where the goroutine is.  `retry` says that the update was
begun because of an entry in the failure queue. -/
inductive LPc
  /-- At the select of the loop. -/
  | select
  /-- In `Update`. -/
  | updating (retry : Bool)
  /-- About to send the error `e` of the update. -/
  | report (retry : Bool) (e : Str)
  /-- In `time.Sleep`; the error is used afterwards by jwkd only. -/
  | sleeping (retry : Bool) (e : Str)
  /-- About to put an entry into the failure queue. -/
  | offer
  /-- Saw that the context is done, about to send the last item. -/
  | stopping
  /-- Returned; both channels are closed. -/
  | exited
  deriving DecidableEq, Repr

/-- policy/daemon.go:109-153, pubkey/daemon.go:104-150, jwk/daemon.go:67-118.  The goroutine with its channels. -/
structure LState where
  pc : LPc
  /-- Entries in the failure queue `fch`. -/
  fch : Nat
  /-- The error channel, oldest first. -/
  ech : List Str
  /-- What has been read from the error channel, oldest first. -/
  read : List Str
  /-- An entry in the channel of the ticker. -/
  tick : Bool
  /-- The context is done. -/
  cancelled : Bool
  /-- The text of `ebuf` (jwk/daemon.go:76); not used by the others. -/
  ebuf : Str
  deriving DecidableEq, Repr

/-- policy/daemon.go:109-120, pubkey/daemon.go:104-115, jwk/daemon.go:67-76.  The state when the goroutine begins. -/
def lInit : LState := { pc := .select, fch := 0, ech := [], read := [], tick := false, cancelled := false, ebuf := [] }

/-- policy/daemon.go:114-150, pubkey/daemon.go:110-147, jwk/daemon.go:72-115. -/
inductive LAct
  /-- A period of the ticker is over. -/
  | tick
  /-- The context is cancelled. -/
  | cancel
  /-- Somebody reads from the error channel. -/
  | recv
  /-- The select takes the case of the context. -/
  | selDone
  /-- The select takes the case of the failure queue. -/
  | selRetry
  /-- The select takes the case of the ticker. -/
  | selTick
  /-- `Update` returns nil. -/
  | updOk
  /-- `Update` returns an error. -/
  | updFail (e : Str)
  /-- The error is sent, or for jwkd held back. -/
  | send
  /-- The sleep is over. -/
  | wake
  /-- An entry is put into the failure queue if there is room. -/
  | offer
  /-- The last item is sent, and the goroutine returns. -/
  | stop
  deriving DecidableEq, Repr

/-- The last item: policy/daemon.go:124, pubkey/daemon.go:121, jwk/daemon.go:103-107. -/
def lastItem (ce ebuf : Str) : Str := if ebuf = [] then ce else wrapMsg ebuf ce

/-- policy/daemon.go:114-150, pubkey/daemon.go:110-147, jwk/daemon.go:72-115.  One step.  `ce` is the text of the error of the context.  A
send to the error channel is possible only if there is room, since the channel has a buffer: with a full buffer no reader can be waiting. -/
def lStep (k : LKind) (ce : Str) (s : LState) : LAct → Option LState
  | .tick => some { s with tick := true }
  | .cancel => some { s with cancelled := true }
  | .recv =>
    match s.ech with
    | [] => none
    | e :: es => some { s with ech := es, read := s.read ++ [e] }
  | .selDone => if s.pc = .select ∧ s.cancelled = true then some { s with pc := .stopping } else none
  | .selRetry => if s.pc = .select ∧ 0 < s.fch then some { s with pc := .updating true, fch := s.fch - 1 } else none
  | .selTick => if s.pc = .select ∧ s.tick = true then some { s with pc := .updating false, tick := false } else none
  | .updOk =>
    match s.pc with
    | .updating _ => some { s with pc := .select }
    | _ => none
  | .updFail e =>
    match s.pc with
    | .updating r => some { s with pc := if k = .jwkd then .sleeping r e else .report r e }
    | _ => none
  | .send =>
    match s.pc with
    | .report r e =>
      if k = .jwkd then
        -- jwk/daemon.go:83-88
        let t := wrapMsg (wrapMsg k.msg e) s.ebuf
        if s.ech.length < echCap then some { s with pc := .offer, ech := s.ech ++ [t], ebuf := [] }
        else some { s with pc := .offer, ebuf := t }
      else if s.ech.length < echCap then
        -- policy/daemon.go:128-130 and 140, pubkey/daemon.go:125-127 and 137
        some { s with pc := if r then .sleeping r e else .offer, ech := s.ech ++ [wrapMsg k.msg e] }
      else none
    | _ => none
  | .wake =>
    match s.pc with
    | .sleeping r e => some { s with pc := if k = .jwkd then .report r e else .offer }
    | _ => none
  | .offer => if s.pc = .offer then some { s with pc := .select, fch := if s.fch < 1 then s.fch + 1 else s.fch } else none
  | .stop =>
    if s.pc = .stopping ∧ s.ech.length < echCap then
      some { s with pc := .exited, ech := s.ech ++ [if k = .jwkd then lastItem ce s.ebuf else ce] }
    else none

/-- policy/daemon.go:109-153, pubkey/daemon.go:104-150, jwk/daemon.go:67-118.  A run of steps. -/
def lRun (k : LKind) (ce : Str) : LState → List LAct → Option LState
  | s, [] => some s
  | s, a :: as =>
    match lStep k ce s a with
    | some s' => lRun k ce s' as
    | none => none

end Athenz
