import Verif.Model.CheckPolicy
import Verif.Spec.Policy
import Verif.Go.Gache

/-!
# policy/daemon.go:299-389 `fetchAndCachePolicy`, `simplifyAndCachePolicy`, and 156-211 `Update`
-/

namespace Athenz

/-- policy/daemon.go:341 and policy/assertion.go:62: `strings.EqualFold("deny", ass.Effect)`. -/
def RawAssertion.isDeny (U : CaseFns) (a : RawAssertion) : Bool := U.equalFold "deny".toList a.effect

/-- policy/daemon.go:336 `km`. -/
def RawAssertion.key (a : RawAssertion) : Str := a.role ++ ',' :: (a.action ++ ',' :: a.resource)

/-- The part of `SignedPolicy` (policy/signed_policy.go:30-32) that the daemon reads: the assertions per policy and the expiry in
Unix nanoseconds. -/
structure PolicyDoc where
  policies : List (List RawAssertion)
  expires : Int
deriving DecidableEq, Repr

/-- policy/daemon.go:325.  `sync.Map` from `km` to assertion. -/
abbrev AssMap := List (Str × RawAssertion)

/-- policy/daemon.go:337.  `assm.Load`. -/
def AssMap.load (m : AssMap) (k : Str) : Option RawAssertion := (m.find? (fun p => p.1 == k)).map (·.2)

/-- policy/daemon.go:338-343.  `assm.Store`. -/
def AssMap.store (m : AssMap) (k : Str) (a : RawAssertion) : AssMap :=
  if m.any (fun p => p.1 == k) then m.map (fun p => if p.1 == k then (k, a) else p) else m ++ [(k, a)]

/-- policy/daemon.go:331-346.  Where a merging goroutine stands inside the loop body of lines 331-346. -/
inductive MPc where
  | idle
  /-- after `assm.Load` of line 337, with its `ok` -/
  | loaded (present : Bool)
deriving DecidableEq, Repr

/-- policy/daemon.go:330-349.  The goroutine of one policy (lines 330-349). -/
structure MThread where
  todo : List RawAssertion
  pc : MPc
  /-- returned `ctx.Err()` -/
  failed : Bool
deriving DecidableEq, Repr

/-- policy/daemon.go:324-354.  The merge phase, lines 324-354. -/
structure MergeState where
  map : AssMap
  threads : List MThread
deriving DecidableEq, Repr

/-- policy/daemon.go:324-330.  The goroutines are started. -/
def PolicyDoc.mergeInit (d : PolicyDoc) : MergeState :=
  { map := [], threads := d.policies.map fun p => ⟨p, .idle, false⟩ }

/-- policy/daemon.go:331-346.  One step of merging goroutine `i`: the `select` and `Load` (lines 332-337), or the decision and `Store`
(lines 337-343). -/
def mergeStep (U : CaseFns) (cancelled : Bool) (s : MergeState) (i : Nat) : Option MergeState :=
  match s.threads[i]? with
  | none => none
  | some t =>
    match t.todo, t.pc with
    | [], _ => none
    | a :: rest, .idle =>
      if cancelled then some { s with threads := s.threads.set i ⟨[], .idle, true⟩ }
      else some { s with threads := s.threads.set i ⟨a :: rest, .loaded (s.map.load a.key).isSome, t.failed⟩ }
    | a :: rest, .loaded present =>
      let s' := { s with threads := s.threads.set i ⟨rest, .idle, t.failed⟩ }
      if !present || a.isDeny U then some { s' with map := s.map.store a.key a } else some s'

/-- policy/daemon.go:352.  `eg.Wait()` of line 352 returns. -/
def MergeState.finished (s : MergeState) : Bool := s.threads.all (fun t => t.todo.isEmpty)

/-- policy/daemon.go:352.  `eg.Wait()` returns an error. -/
def MergeState.failed (s : MergeState) : Bool := s.threads.any (·.failed)

/-- policy/daemon.go:324-354.  Running the merge without cancellation under a schedule of goroutine numbers. -/
def mergeRun (U : CaseFns) (s : MergeState) : List Nat → Option MergeState
  | [] => some s
  | i :: is => match mergeStep U false s i with
    | none => none
    | some s' => mergeRun U s' is

/-- policy/daemon.go:368-378, the new list for a role: allows go to the end, denies to the front. -/
def insertAss (x : Assertion) (old : Option (List Assertion)) : List Assertion :=
  match old with
  | none => [x]
  | some l => if x.effect = none then l ++ [x] else x :: l

/-- policy/daemon.go:358, 379.  `time.Time.Sub` saturates. -/
def satSub (a b : Int) : Int := max (-(2 ^ 63)) (min (2 ^ 63 - 1) (a - b))

/-- policy/daemon.go:164-180, 299-389.  One domain's goroutine inside `Update` (lines 170-178), executing `fetchAndCachePolicy` on the
shared new cache. -/
inductive Job where
  /-- not yet past the `select` of line 171; the parameter is what `FetchWithRetry` is going to return, `none` = no policy -/
  | start (fetch : Option PolicyDoc)
  /-- inside `FetchWithRetry` of line 300; the expired hook starts here -/
  | fetching (fetch : Option PolicyDoc)
  | merge (doc : PolicyDoc) (m : MergeState)
  /-- inside `assm.Range` (line 359) with these entries left; `pc` = result of `rp.Get` of line 369 if that was executed -/
  | fill (ttl : Int) (todo : List RawAssertion) (pc : Option (Option (List Assertion)))
  | done (err : Option Err)
deriving DecidableEq, Repr

/-- policy/daemon.go:156-211.  The state of one `Update` call. -/
structure UpdState where
  /-- Unix nanoseconds -/
  now : Int
  cancelled : Bool
  /-- the new cache of line 161 -/
  rp : Gache (List Assertion)
  jobs : List Job

/-- policy/daemon.go:156-211.  One atomic step. -/
inductive UpdAct where
  /-- job `i` goes on; at the start of the fill phase `order` is the order in which `Range` visits the entries -/
  | job (i : Nat) (order : List RawAssertion)
  /-- goroutine `k` of the merge phase of job `i` goes on -/
  | merge (i k : Nat)
  | tick (d : Nat)
  | cancel
deriving DecidableEq, Repr

/-- policy/daemon.go:156-180.  The state when all goroutines are started (lines 156-180). -/
def updInit (now : Int) (fetch : List (Option PolicyDoc)) : UpdState :=
  { now := now, cancelled := false, rp := Gache.empty, jobs := fetch.map .start }

/-- policy/daemon.go:170-178, 299-389: one step; `none` = not possible. -/
def updStep (U : CaseFns) (s : UpdState) : UpdAct → Option UpdState
  | .job i order =>
    match s.jobs[i]? with
    | some (.start f) =>
      if s.cancelled then some { s with jobs := s.jobs.set i (.done (some .ctx)) }         -- lines 171-173
      else some { s with jobs := s.jobs.set i (.fetching f) }
    | some (.fetching none) => some { s with jobs := s.jobs.set i (.done (some .fetchPolicy)) } -- lines 301-306
    | some (.fetching (some d)) => some { s with jobs := s.jobs.set i (.merge d d.mergeInit) }
    | some (.merge d m) =>
      if m.finished then
        if m.failed then some { s with jobs := s.jobs.set i (.done (some .ctx)) }          -- lines 352-354
        else if order.Perm (m.map.map (·.2)) then
          some { s with jobs := s.jobs.set i (.fill (satSub d.expires s.now) order none) } -- lines 358-359, 379
        else none
      else none
    | some (.fill _ [] _) => some { s with jobs := s.jobs.set i (.done none) }
    | some (.fill ttl (a :: rest) none) =>
      match newAssertion U a.action a.resource a.effect with
      | .ok _ => some { s with jobs := s.jobs.set i (.fill ttl (a :: rest) (some (s.rp.get s.now a.role))) }
      | .err e => some { s with jobs := s.jobs.set i (.done (some e)) }                    -- lines 361-366
      | .panic => none
    | some (.fill ttl (a :: rest) (some old)) =>
      match newAssertion U a.action a.resource a.effect with
      | .ok x => some { s with rp := s.rp.set s.now a.role (insertAss x old) ttl,          -- line 379
                               jobs := s.jobs.set i (.fill ttl rest none) }
      | _ => none
    | _ => none
  | .merge i k =>
    match s.jobs[i]? with
    | some (.merge d m) =>
      match mergeStep U s.cancelled m k with
      | some m' => some { s with jobs := s.jobs.set i (.merge d m') }
      | none => none
    | _ => none
  | .tick d => some { s with now := s.now + d }
  | .cancel => some { s with cancelled := true }

/-- policy/daemon.go:156-211.  Running a schedule. -/
def updRun (U : CaseFns) (s : UpdState) : List UpdAct → Option UpdState
  | [] => some s
  | a :: as => match updStep U s a with
    | none => none
    | some s' => updRun U s' as

/-- policy/daemon.go:182, 199.  `eg.Wait()` of line 182 returns nil, so that the new cache is going to be swapped in (line 199). -/
def UpdState.succeeded (s : UpdState) : Prop := ∀ j ∈ s.jobs, j = .done none

/-- policy/daemon.go:236-250.  What checks see of a cache at time `now`. -/
def viewOf (rp : Gache (List Assertion)) (now : Int) : PolicyView := fun k => rp.get now k

end Athenz
