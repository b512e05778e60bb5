import Verif.Model.Assertion

/-!
# policy/daemon.go:213-290 `CheckPolicy`, `CheckPolicyRoles`

The function starts one goroutine that starts one worker per role; the workers send on a channel with room for one message per
role; the calling goroutine collects.  Here it is a transition system: every action is one atomic step of one goroutine (or of the
environment), and a schedule is an arbitrary list of actions.
-/

namespace Athenz

/-- policy/daemon.go:48-51 `roleEffect`. -/
structure RoleEffect where
  role : Str
  effect : Option Err
deriving DecidableEq, Repr

/-- policy/daemon.go:236-237.  What `rp.Get` answers: the policy cache that line 237 loads. -/
abbrev PolicyView := Str → Option (List Assertion)

/-- policy/daemon.go:240, the cache key of a role. -/
def roleKey (domain role : Str) : Str := domain ++ ":role.".toList ++ role

/-- policy/daemon.go:224.  The arguments of the call. -/
structure CheckReq where
  domain : Str
  roles : List Str
  action : Str
  resource : Str
deriving DecidableEq, Repr

/-- policy/daemon.go:241-270.  A worker goroutine (lines 241-270).  `done` remembers what it sent, for the proofs only. -/
inductive Worker where
  /-- before the first `select` (line 243) -/
  | start (role : Str)
  /-- inside the loop of line 253 with these assertions left -/
  | scan (role : Str) (rest : List Assertion)
  /-- finished (`wg.Done`), having sent `sent` if anything -/
  | done (role : Str) (sent : Option (Option Err))
deriving DecidableEq, Repr

/-- policy/daemon.go:275-289.  The collecting goroutine (lines 275-289). -/
inductive Collector where
  /-- in the `for re := range ech` loop, with `allowedRoles` so far -/
  | loop (allowed : List Str)
  /-- returned -/
  | ret (r : Res (List Str))
deriving DecidableEq, Repr

/-- policy/daemon.go:224-290.  The state of one call. -/
structure CheckState where
  /-- content of the cache object loaded at line 237 -/
  view : PolicyView
  workers : List Worker
  /-- buffered messages in `ech`, oldest first -/
  chan : List RoleEffect
  closed : Bool
  /-- the caller's `ctx` is done -/
  parent : Bool
  /-- the deferred `cancel()` of line 228 ran -/
  own : Bool
  coll : Collector
  /-- a send on the closed channel happened -/
  panicked : Bool

/-- policy/daemon.go:224-290.  One atomic step. -/
inductive CheckAct where
  /-- worker number `i` executes up to and including its next shared operation -/
  | worker (i : Nat)
  /-- `wg.Wait` returned, `close(ech)` (lines 272, 231) -/
  | close
  /-- the collector receives (line 276) -/
  | recv
  /-- the caller cancels `ctx` -/
  | cancel
  /-- somebody else (expiry, the expired hook of line 189) changes the cache object -/
  | mutate (v : PolicyView)

/-- policy/daemon.go:227-228, 244, 256.  `cctx.Done()` is ready. -/
def CheckState.cancelled (s : CheckState) : Bool := s.parent || s.own

/-- policy/daemon.go:226-241.  The state after the goroutines are started (lines 226-241). -/
def CheckReq.init (q : CheckReq) (view : PolicyView) : CheckState :=
  { view := view, workers := q.roles.map .start, chan := [], closed := false, parent := false, own := false,
    coll := .loop [], panicked := false }

/-- policy/daemon.go:226.  A send by worker `i`, which then is finished; `none` = the send blocks because `cap(ech) = len(roles)` messages
wait (line 226). -/
def CheckState.send (s : CheckState) (q : CheckReq) (i : Nat) (role : Str) (e : Option Err) : Option CheckState :=
  if s.closed then some { s with panicked := true, workers := s.workers.set i (.done role (some e)) }
  else if s.chan.length < q.roles.length then
    some { s with chan := s.chan ++ [⟨role, e⟩], workers := s.workers.set i (.done role (some e)) }
  else none

/-- policy/daemon.go:224-290, one step; `none` = the action is not possible in this state. -/
def checkStep (U : CaseFns) (q : CheckReq) (s : CheckState) : CheckAct → Option CheckState
  | .worker i =>
    match s.workers[i]? with
    | some (.start role) =>
      if s.cancelled then s.send q i role (some .ctx)                                     -- lines 244-246
      else match s.view (roleKey q.domain role) with                                      -- line 248
        | none => some { s with workers := s.workers.set i (.done role none) }            -- lines 249-251
        | some asss => some { s with workers := s.workers.set i (.scan role asss) }
    | some (.scan role []) => some { s with workers := s.workers.set i (.done role none) }
    | some (.scan role (a :: rest)) =>
      if s.cancelled then s.send q i role (some .ctx)                                     -- lines 256-258
      else if a.matches U q.domain q.action q.resource then s.send q i role a.effect      -- lines 261-265
      else some { s with workers := s.workers.set i (.scan role rest) }
    | _ => none
  | .close =>
    if s.closed then none
    else if s.workers.all (fun w => match w with | .done _ _ => true | _ => false) then some { s with closed := true }
    else none
  | .recv =>
    match s.coll with
    | .ret _ => none
    | .loop allowed =>
      match s.chan with
      | re :: ch =>
        match re.effect with
        | some e => some { s with chan := ch, coll := .ret (.err e), own := true }         -- lines 277-280, 228
        | none => some { s with chan := ch, coll := .loop (allowed ++ [re.role]) }         -- line 281
      | [] =>
        if s.closed then
          some { s with own := true,
                        coll := .ret (if allowed.length > 0 then .ok allowed else .err .noMatch) }  -- lines 283-289
        else none
  | .cancel => if s.parent then none else some { s with parent := true }
  | .mutate v => some { s with view := v }

/-- policy/daemon.go:224-290.  Running a schedule; `none` if some action of it is not possible. -/
def checkRun (U : CaseFns) (q : CheckReq) (s : CheckState) : List CheckAct → Option CheckState
  | [] => some s
  | a :: as => match checkStep U q s a with
    | none => none
    | some s' => checkRun U q s' as

/-- policy/daemon.go:224-290.  `CheckPolicyRoles(ctx, domain, roles, action, resource)` can return `r` under the given schedule. -/
def CheckReturns (U : CaseFns) (q : CheckReq) (view : PolicyView) (sched : List CheckAct) (r : Res (List Str)) : Prop :=
  ∃ s, checkRun U q (q.init view) sched = some s ∧ s.coll = .ret r

/-- policy/daemon.go:224-290.  Nothing but the goroutines themselves acts: no cancellation, no change of the cache object. -/
def Undisturbed (sched : List CheckAct) : Prop :=
  ∀ a ∈ sched, match a with | .cancel => False | .mutate _ => False | _ => True

/-- policy/daemon.go:236-250.  The cache object is not changed (cancellation allowed). -/
def ViewStable (sched : List CheckAct) : Prop :=
  ∀ a ∈ sched, match a with | .mutate _ => False | _ => True

/-- policy/daemon.go:253-268.  What one uninterrupted worker finds in a list of assertions: the effect of the first that matches (lines 253-268). -/
def firstMatch (U : CaseFns) (q : CheckReq) (l : List Assertion) : Option (Option Err) :=
  (l.find? (fun a => a.matches U q.domain q.action q.resource)).map (·.effect)

/-- policy/daemon.go:241-270.  What one uninterrupted worker reports for a role. -/
def roleVerdict (U : CaseFns) (q : CheckReq) (view : PolicyView) (role : Str) : Option (Option Err) :=
  (view (roleKey q.domain role)).bind (firstMatch U q)

end Athenz
