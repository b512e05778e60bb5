import Verif.Model.Loop

/-! # authorizerd.go:266-343: Init and Start -/

namespace Athenz

/-! ## Init -/

/-- authorizerd.go:273, 279, 285.  Which daemons are enabled: `!a.disablePubkeyd`, `!a.disablePolicyd` and `!a.disableJwkd`. -/
structure InitCfg where
  pubkeyd : Bool
  policyd : Bool
  jwkd : Bool
  deriving DecidableEq, Repr

/-- The first goroutine of `Init`, authorizerd.go:268-284. -/
inductive I1
  | start
  /-- In `pubkeyd.Update`. -/
  | pubkeys
  /-- In `policyd.Update`. -/
  | policies
  /-- The function has returned this error or nil; errgroup has not dealt with it. -/
  | ret (r : Option Str)
  | done
  deriving DecidableEq, Repr

/-- The second goroutine, authorizerd.go:285-294. -/
inductive I2
  /-- Not started, as jwkd is disabled. -/
  | absent
  | start
  /-- In `jwkd.Update`. -/
  | keys
  | ret (r : Option Str)
  | done
  deriving DecidableEq, Repr

/-- authorizerd.go:267-296, the two goroutines and the group. -/
structure IState where
  g1 : I1
  g2 : I2
  /-- The context given to `Init` is done. -/
  cancelled : Bool
  /-- The error that errgroup keeps; it also cancels the derived context. -/
  first : Option Str
  /-- What `Init` returned, if it has returned. -/
  result : Option (Option Str)
  deriving DecidableEq, Repr

/-- authorizerd.go:266-297, the steps of `Init`. -/
inductive IAct
  | cancel
  /-- The select of the first goroutine. -/
  | begin1
  /-- `pubkeyd.Update` returns. -/
  | pubkeyRet (r : Option Str)
  /-- `policyd.Update` returns. -/
  | policyRet (r : Option Str)
  | begin2
  /-- `jwkd.Update` returns. -/
  | jwkRet (r : Option Str)
  /-- errgroup deals with what the first goroutine returned. -/
  | report1
  | report2
  /-- `eg.Wait` returns. -/
  | wait
  deriving DecidableEq, Repr

/-- authorizerd.go:267-294, when the goroutines are started. -/
def iInit (c : InitCfg) : IState :=
  { g1 := .start, g2 := if c.jwkd then .start else .absent, cancelled := false, first := none, result := none }

/-- authorizerd.go:267.  The derived context `egCtx` is done: golang.org/x/sync/errgroup `WithContext` cancels it with the first error. -/
def IState.egDone (s : IState) : Bool := s.cancelled || s.first.isSome

/-- What follows the public keys, authorizerd.go:279-282. -/
def afterPubkeys (c : InitCfg) : I1 := if c.policyd then .policies else .ret none

/-- authorizerd.go:267.  `errOnce` of errgroup: the first error is kept. -/
def keepFirst (first r : Option Str) : Option Str :=
  match first with
  | some e => some e
  | none => r

/-- authorizerd.go:266-297.  One step; `ce` is the text of the error of the derived context. -/
def iStep (c : InitCfg) (ce : Str) (s : IState) : IAct → Option IState
  | .cancel => some { s with cancelled := true }
  | .begin1 =>
    if s.g1 = .start then
      if s.egDone then some { s with g1 := .ret (some ce) }
      else if c.pubkeyd then some { s with g1 := .pubkeys }
      else some { s with g1 := afterPubkeys c }
    else none
  | .pubkeyRet r =>
    if s.g1 = .pubkeys then
      match r with
      | some e => some { s with g1 := .ret (some e) }
      | none => some { s with g1 := afterPubkeys c }
    else none
  | .policyRet r => if s.g1 = .policies then some { s with g1 := .ret r } else none
  | .begin2 =>
    if s.g2 = .start then
      if s.egDone then some { s with g2 := .ret (some ce) } else some { s with g2 := .keys }
    else none
  | .jwkRet r => if s.g2 = .keys then some { s with g2 := .ret r } else none
  | .report1 =>
    match s.g1 with
    | .ret r => some { s with g1 := .done, first := keepFirst s.first r }
    | _ => none
  | .report2 =>
    match s.g2 with
    | .ret r => some { s with g2 := .done, first := keepFirst s.first r }
    | _ => none
  | .wait =>
    if s.g1 = .done ∧ (s.g2 = .done ∨ s.g2 = .absent) ∧ s.result = none then some { s with result := some s.first } else none

/-- authorizerd.go:266-297, any interleaving. -/
def iRun (c : InitCfg) (ce : Str) : IState → List IAct → Option IState
  | s, [] => some s
  | s, a :: as =>
    match iStep c ce s a with
    | some s' => iRun c ce s' as
    | none => none

/-! ## Start -/

/-- The message put before the errors of a child daemon, authorizerd.go:328, 332, 336. -/
def LKind.fwdMsg : LKind → Str
  | .pubkeyd => "update pubkey error".toList
  | .policyd => "update policy error".toList
  | .jwkd => "update jwk error".toList

/-- The capacity of the channel of `Start`, authorizerd.go:302. -/
def fwdCap : Nat := 200

/-- The forwarding goroutine, authorizerd.go:317-340. -/
inductive FPc
  | select
  /-- About to send an error of a child. -/
  | holding (k : LKind) (e : Str)
  | stopping
  | exited
  deriving DecidableEq, Repr

/-- authorizerd.go:300-343, the forwarding goroutine, its channel and its children. -/
structure SState where
  /-- The updaters that were started; for the others the channel is nil, and the case of the select is never ready. -/
  child : LKind → Option LState
  pc : FPc
  ech : List Str
  read : List Str
  cancelled : Bool

/-- authorizerd.go:317-340. -/
inductive SAct
  /-- A step of an updater, other than reading from its channel, which is up to the forwarding goroutine, and cancellation. -/
  | child (k : LKind) (a : LAct)
  /-- The context is cancelled, for all. -/
  | cancel
  /-- The select takes the channel of a child. -/
  | take (k : LKind)
  | send
  | selDone
  | stop
  /-- Somebody reads from the channel of `Start`. -/
  | recv
  deriving DecidableEq, Repr

/-- The state when the goroutines begin.  The expiry of the result cache, which is also started here and cleared at the end
(authorizerd.go:303, 322-323), is not part of this model. -/
def sInit (on : LKind → Bool) : SState :=
  { child := fun k => if on k then some lInit else none, pc := .select, ech := [], read := [], cancelled := false }

/-- authorizerd.go:308, 311, 314, a child goes on. -/
def SState.setChild (s : SState) (k : LKind) (c : LState) : SState := { s with child := fun k' => if k' = k then some c else s.child k' }

/-- authorizerd.go:317-340. -/
def sStep (ce : Str) (s : SState) : SAct → Option SState
  | .child k a =>
    if a = .recv ∨ a = .cancel then none
    else
      match s.child k with
      | none => none
      | some c =>
        match lStep k ce c a with
        | some c' => some (s.setChild k c')
        | none => none
  | .cancel => some { s with cancelled := true, child := fun k => (s.child k).map fun c => { c with cancelled := true } }
  | .take k =>
    if s.pc = .select then
      match s.child k with
      | none => none
      | some c =>
        match c.ech with
        | e :: es => some { s.setChild k { c with ech := es, read := c.read ++ [e] } with pc := .holding k e }
        | [] =>
          -- a closed channel gives nil, which is not forwarded
          if c.pc = .exited then some s else none
    else none
  | .send =>
    match s.pc with
    | .holding k e => if s.ech.length < fwdCap then some { s with pc := .select, ech := s.ech ++ [wrapMsg k.fwdMsg e] } else none
    | _ => none
  | .selDone => if s.pc = .select ∧ s.cancelled = true then some { s with pc := .stopping } else none
  | .stop => if s.pc = .stopping ∧ s.ech.length < fwdCap then some { s with pc := .exited, ech := s.ech ++ [ce] } else none
  | .recv =>
    match s.ech with
    | [] => none
    | e :: es => some { s with ech := es, read := s.read ++ [e] }

/-- authorizerd.go:317-340, any interleaving. -/
def sRun (ce : Str) : SState → List SAct → Option SState
  | s, [] => some s
  | s, a :: as =>
    match sStep ce s a with
    | some s' => sRun ce s' as
    | none => none

end Athenz
