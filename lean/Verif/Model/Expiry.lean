import Verif.Go.Gache

/-!
# Expired policies: the channel of expired keys, and the goroutine that calls the hook (policy/daemon.go:186-206, authorizerd.go:266-297)

A cache object that Update publishes has a channel for the keys of entries that were found expired, and a goroutine that takes keys from it and calls the
hook, until the context of that Update is done or the object is stopped.  Both are of `gache` v1.2.8 (`StartExpired`, `Get`, `DeleteExpired`, `Stop`).
Object `i` is the one that call `i` of Update makes; object 0 is the one of New.  What the policies say is left out.
-/

namespace Athenz

/-- Where call `i` of Update is: policy/daemon.go:154-183 (filling), 187 (started), 188-192 (hooked), 199 (swapped), 205-210 (returned). -/
inductive XPc where
  | none
  | filling
  | started
  | hooked
  | swapped (old : Nat)
  | returned
deriving DecidableEq, Repr

/-- A cache object with the call of Update that made it (policy/daemon.go:149-214).  `ofInit`: it is the call of Init (authorizerd.go:280); `ctxDone`: its
context is done; `running`: the goroutine of `StartExpired` (policy/daemon.go:187) is there; `stopped`: `Stop` was called (policy/daemon.go:205);
`enabled`: `EnableExpiredHook` was called (policy/daemon.go:188); `queue`: the keys in the channel, and behind them the keys of those who wait to send,
with the number of the lookup they are from. -/
structure XObj where
  pc : XPc
  ofInit : Bool
  ctxDone : Bool
  cache : Gache Unit
  running : Bool
  stopped : Bool
  enabled : Bool
  queue : List (Str × Nat)

/-- A lookup: it has begun, it has deleted an expired entry, it has sent the key or waits for room, it has returned with or without a value
(policy/daemon.go:250). -/
inductive LkPc where
  | begun
  | found
  | sent
  | returned (hit : Bool)
deriving DecidableEq, Repr

/-- `Get` of a check (policy/daemon.go:250), or what `DeleteExpired` does for one key (the goroutine of policy/daemon.go:187). -/
structure Lookup where
  obj : Nat
  key : Str
  pc : LkPc
deriving DecidableEq, Repr

/-- The state: how many objects and lookups there are, which object is in use (policy/daemon.go:59), and the calls of the hook, with the object that they
store into (policy/daemon.go:191). -/
structure XState where
  now : Int
  objs : Nat
  obj : Nat → XObj
  live : Nat
  looks : Nat
  look : Nat → Lookup
  hooks : List (Str × Nat)

/-- policy/daemon.go:154.  A new object; `pc` says whether there is a call for it. -/
def XObj.new (pc : XPc) (ofInit : Bool) : XObj :=
  { pc := pc, ofInit := ofInit, ctxDone := false, cache := Gache.empty, running := false, stopped := false, enabled := false, queue := [] }

/-- policy/daemon.go:76-106. -/
def xInit (now : Int) : XState :=
  { now := now, objs := 1, obj := fun _ => .new .none false, live := 0, looks := 0, look := fun _ => ⟨0, [], .returned false⟩, hooks := [] }

/-- The steps: time passes; Update is called (policy/daemon.go:149), by Init or otherwise; its goroutines store (policy/daemon.go:308); it fails
(policy/daemon.go:160-162, 176-179); it goes on (policy/daemon.go:187, 188-192, 199, 205); Init returns (authorizerd.go:296), which cancels the context of its
Update; a context is cancelled otherwise; a check looks up a role (policy/daemon.go:237-250); the sweep of an object comes to a key; a lookup goes on; the goroutine of
an object takes a key and calls the hook, or ends; a call of the hook stores (policy/daemon.go:191, 308). -/
inductive XAct where
  | tick (d : Nat)
  | update (ofInit : Bool)
  | store (i : Nat) (k : Str) (ttl : Int)
  | fail (i : Nat)
  | start (i : Nat)
  | enable (i : Nat)
  | swap (i : Nat)
  | stop (i : Nat)
  | initRet (i : Nat)
  | cancel (i : Nat)
  | lookup (k : Str)
  | sweep (i : Nat) (k : Str)
  | get (j : Nat)
  | send (j : Nat)
  | ret (j : Nat)
  | take (i : Nat)
  | exit (i : Nat)
  | hookStore (h : Nat) (k : Str) (ttl : Int)
deriving DecidableEq

/-- Object `i` becomes `o` (any step of policy/daemon.go:149-214). -/
def XState.setObj (s : XState) (i : Nat) (o : XObj) : XState := { s with obj := fun i' => if i' = i then o else s.obj i' }

/-- Lookup `j` becomes `l` (policy/daemon.go:250). -/
def XState.setLook (s : XState) (j : Nat) (l : Lookup) : XState := { s with look := fun j' => if j' = j then l else s.look j' }

/-- policy/daemon.go:250.  A new lookup. -/
def XState.addLook (s : XState) (i : Nat) (k : Str) : XState := { s.setLook s.looks ⟨i, k, .begun⟩ with looks := s.looks + 1 }

/-- One step; `cap` is the capacity of the channel of expired keys.  Senders wait in a queue, as they do at a Go channel.  Simplifications: the goroutine of
`StartExpired` can be stopped from the moment it is started on (policy/daemon.go:187, 205); a sweep can go on after its object was stopped. -/
def xStep (cap : Nat) (s : XState) : XAct → Option XState
  | .tick d => some { s with now := s.now + d }
  | .update ofInit => some { s.setObj s.objs (.new .filling ofInit) with objs := s.objs + 1 }
  | .store i k ttl =>
    if (s.obj i).pc = .filling then some (s.setObj i { s.obj i with cache := (s.obj i).cache.set s.now k () ttl }) else none
  | .fail i => if (s.obj i).pc = .filling then some (s.setObj i { s.obj i with pc := .returned }) else none
  | .start i => if (s.obj i).pc = .filling then some (s.setObj i { s.obj i with pc := .started, running := true }) else none
  | .enable i => if (s.obj i).pc = .started then some (s.setObj i { s.obj i with pc := .hooked, enabled := true }) else none
  | .swap i => if (s.obj i).pc = .hooked then some { s.setObj i { s.obj i with pc := .swapped s.live } with live := i } else none
  | .stop i =>
    match (s.obj i).pc with
    | .swapped old =>
      let s' := s.setObj i { s.obj i with pc := .returned }
      some (s'.setObj old { s'.obj old with stopped := true })
    | _ => none
  | .initRet i => if (s.obj i).ofInit ∧ (s.obj i).pc = .returned then some (s.setObj i { s.obj i with ctxDone := true }) else none
  | .cancel i => if i < s.objs then some (s.setObj i { s.obj i with ctxDone := true }) else none
  | .lookup k => some (s.addLook s.live k)
  | .sweep i k => if (s.obj i).pc = .none ∨ (s.obj i).pc = .filling then none else some (s.addLook i k)
  | .get j =>
    if (s.look j).pc = .begun then
      let l := s.look j
      let o := s.obj l.obj
      match o.cache l.key with
      | none => some (s.setLook j { l with pc := .returned false })
      | some e =>
        if Gache.valid s.now e then some (s.setLook j { l with pc := .returned true })
        else some ((s.setObj l.obj { o with cache := o.cache.delete l.key }).setLook j { l with pc := if o.enabled then .found else .returned false })
    else none
  | .send j =>
    if (s.look j).pc = .found then
      let l := s.look j
      some ((s.setObj l.obj { s.obj l.obj with queue := (s.obj l.obj).queue ++ [(l.key, j)] }).setLook j { l with pc := .sent })
    else none
  | .ret j =>
    if (s.look j).pc = .sent ∧ j ∉ ((s.obj (s.look j).obj).queue.drop cap).map (·.2) then some (s.setLook j { s.look j with pc := .returned false })
    else none
  | .take i =>
    if (s.obj i).running then
      match (s.obj i).queue with
      | [] => none
      | kj :: rest => some { s.setObj i { s.obj i with queue := rest } with hooks := s.hooks ++ [(kj.1, s.live)] }
    else none
  | .exit i => if (s.obj i).running ∧ ((s.obj i).ctxDone ∨ (s.obj i).stopped) then some (s.setObj i { s.obj i with running := false }) else none
  | .hookStore h k ttl =>
    match s.hooks[h]? with
    | none => none
    | some t => some (s.setObj t.2 { s.obj t.2 with cache := (s.obj t.2).cache.set s.now k () ttl })

/-- A schedule of the steps (policy/daemon.go:149-297). -/
def xRun (cap : Nat) : XState → List XAct → Option XState
  | s, [] => some s
  | s, a :: as => (xStep cap s a).bind fun s' => xRun cap s' as

end Athenz
