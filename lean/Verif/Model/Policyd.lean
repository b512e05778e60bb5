import Verif.Model.Simplify

/-!
# policy/daemon.go as a whole: concurrent `Update`, expired-entry hooks and `CheckPolicyRoles`

Cache objects live on a heap, because `Update` publishes a new object by swapping a pointer (lines 198-199), checks load the pointer
once (lines 236-237), and the hook of an expired entry writes into the object that is published when it runs (line 191).
-/

namespace Athenz

/-- policy/daemon.go:156-211.  An `Update` call (lines 156-211) or a run of the expired hook (lines 189-192): goroutines filling one cache object. -/
structure Task where
  /-- the cache object it fills -/
  obj : Nat
  isUpdate : Bool
  cancelled : Bool
  jobs : List Job
  /-- `some true` = returned nil, `some false` = returned an error -/
  ret : Option Bool
deriving DecidableEq, Repr

/-- policy/daemon.go:224-290.  A running or finished `CheckPolicyRoles` call. -/
structure Chk where
  q : CheckReq
  /-- the object loaded at line 237; time and content at that moment are remembered for the proofs only -/
  loaded : Option (Nat × Int × Gache (List Assertion))
  cs : CheckState

/-- policy/daemon.go:53-73.  The state of the daemon. -/
structure PdState where
  now : Int
  /-- the keys of `p.fetchers` -/
  domains : List Str
  objs : List (Gache (List Assertion))
  /-- per object the documents fetched for it, for the proofs only -/
  srcs : List (List (Option PolicyDoc))
  /-- `p.rolePolicies` -/
  live : Nat
  tasks : List Task
  /-- keys handed to the expired hook that did not run yet -/
  pending : List Str
  checks : List Chk
  /-- the process died of a nil dereference -/
  crashed : Bool

/-- policy/daemon.go:76-106.  `policy.New` (lines 76-106). -/
def pdInit (now : Int) (domains : List Str) : PdState :=
  { now := now, domains := domains, objs := [Gache.empty], srcs := [[]], live := 0, tasks := [], pending := [], checks := [],
    crashed := false }

/-- policy/daemon.go:156-290.  One atomic step of the daemon or its environment. -/
inductive PdAct where
  | tick (d : Nat)
  /-- somebody calls `Update`; the list is what the `FetchWithRetry` calls are going to return -/
  | update (fetch : List (Option PolicyDoc))
  /-- a goroutine of task `i` goes on -/
  | task (i : Nat) (a : UpdAct)
  /-- `eg.Wait` of task `i` returns; on success the new object is published -/
  | finish (i : Nat)
  /-- `Update` returns early because `ctx` is done (lines 166-168) -/
  | abort (i : Nat)
  /-- the sweep of object `o` removes the expired entry `k` and queues the hook -/
  | expire (o : Nat) (k : Str)
  /-- the hook runs for the `j`-th queued key; `fetch` is what `FetchWithRetry` is going to return -/
  | hook (j : Nat) (fetch : Option PolicyDoc)
  /-- somebody calls `CheckPolicyRoles` -/
  | check (q : CheckReq)
  /-- line 237 of check `k` -/
  | load (k : Nat)
  /-- a goroutine of check `k` goes on -/
  | chk (k : Nat) (a : CheckAct)

/-- policy/daemon.go:182.  All goroutines of the task are finished. -/
def Task.allDone (t : Task) : Bool := t.jobs.all fun j => match j with | .done _ => true | _ => false

/-- policy/daemon.go:182.  All goroutines of the task are finished without error. -/
def Task.allOk (t : Task) : Bool := t.jobs.all fun j => match j with | .done none => true | _ => false

/-- policy/daemon.go:191.  `strings.Split(key, ":role.")[0]` (line 191). -/
def hookDomain (k : Str) : Str := match Str.cut ":role.".toList k with | some p => p.1 | none => k

/-- policy/daemon.go:161, 191.  The part of the state a task works on. -/
def PdState.taskView (s : PdState) (t : Task) : UpdState :=
  { now := s.now, cancelled := t.cancelled, rp := (s.objs[t.obj]?).getD Gache.empty, jobs := t.jobs }

/-- policy/daemon.go:156-290.  One step; `none` = not possible.  Simplifications: a cancellation between the call of a check and its line
237 is only seen after line 237 (no goroutine looks at the context before); the hook's fetch result is fixed when the hook starts; `append`
at line 372 never becomes visible to readers of the old slice (see `Model/Slices` for when it does). -/
def pdStep (U : CaseFns) (s : PdState) (a : PdAct) : Option PdState :=
  if s.crashed then none else
  match a with
  | .tick d => some { s with now := s.now + d }
  | .update fetch =>
    some { s with objs := s.objs ++ [Gache.empty], srcs := s.srcs ++ [fetch],                 -- line 161
                  tasks := s.tasks ++ [⟨s.objs.length, true, false, fetch.map .start, none⟩] } -- lines 163-180
  | .task i a =>
    match s.tasks[i]? with
    | none => none
    | some t =>
      match a with
      | .tick _ => none
      | _ =>
        match updStep U (s.taskView t) a with
        | none => none
        | some u => some { s with objs := s.objs.set t.obj u.rp,
                                  tasks := s.tasks.set i { t with cancelled := u.cancelled, jobs := u.jobs } }
  | .finish i =>
    match s.tasks[i]? with
    | none => none
    | some t =>
      if t.isUpdate && t.ret.isNone && t.allDone then
        if t.allOk then some { s with live := t.obj, tasks := s.tasks.set i { t with ret := some true } }  -- lines 198-210
        else some { s with tasks := s.tasks.set i { t with ret := some false } }                        -- lines 182-185
      else none
  | .abort i =>
    match s.tasks[i]? with
    | none => none
    | some t =>
      if t.isUpdate && t.ret.isNone && t.cancelled then some { s with tasks := s.tasks.set i { t with ret := some false } }
      else none
  | .expire o k =>
    if s.tasks.any (fun t => t.isUpdate && decide (t.obj = o) && t.allDone) then  -- after line 187
      match s.objs[o]? with
      | none => none
      | some g =>
        match g k with
        | none => none
        | some e =>
          if Gache.valid s.now e then none
          else some { s with objs := s.objs.set o (g.delete k), pending := s.pending ++ [k] }
    else none
  | .hook j fetch =>
    match s.pending[j]? with
    | none => none
    | some k =>
      if hookDomain k ∈ s.domains then
        some { s with pending := s.pending.eraseIdx j,
                      srcs := s.srcs.set s.live ((s.srcs[s.live]?).getD [] ++ [fetch]),
                      tasks := s.tasks ++ [⟨s.live, false, false, [.fetching fetch], none⟩] }
      else some { s with crashed := true }                                         -- nil Fetcher, line 300
  | .check q => some { s with checks := s.checks ++ [⟨q, none, q.init (fun _ => none)⟩] }
  | .load k =>
    match s.checks[k]? with
    | none => none
    | some c =>
      if c.loaded.isSome then none
      else
        let g := (s.objs[s.live]?).getD Gache.empty
        some { s with checks := s.checks.set k ⟨c.q, some (s.live, s.now, g), c.q.init (viewOf g s.now)⟩ }
  | .chk k a =>
    match s.checks[k]? with
    | none => none
    | some c =>
      match c.loaded with
      | none => none
      | some (o, _, _) =>
        match a with
        | .mutate _ => none
        | _ =>
          match checkStep U c.q { c.cs with view := viewOf ((s.objs[o]?).getD Gache.empty) s.now } a with
          | none => none
          | some cs => some { s with checks := s.checks.set k { c with cs := cs } }

/-- policy/daemon.go:156-290.  Running a schedule. -/
def pdRun (U : CaseFns) (s : PdState) : List PdAct → Option PdState
  | [] => some s
  | a :: as => match pdStep U s a with
    | none => none
    | some s' => pdRun U s' as

end Athenz
