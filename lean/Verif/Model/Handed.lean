import Verif.Model.Slices

/-!
# policy/daemon.go:292-297 `GetPolicyCache`: what a caller holds afterwards

`GetPolicyCache` (authorizerd.go:556-562) answers with a new map, but its values are the slices of the cache: the same arrays, and in them
pointers to the same `Assertion` records, whose fields are exported.  Here the arrays hold pointers, the records are memory, and callers
write through what they got.  The daemon goes on filling its objects (lines 359-381) and exchanging them (line 199) meanwhile.
-/

namespace Athenz

/-- policy/assertion.go:27, policy/daemon.go:368.  A `*Assertion`: nil, a record that the daemon made, or one that a caller made. -/
inductive Cell where
  | nil
  | ptr (n : Nat)
  | own (n : Nat)
deriving DecidableEq, Repr

/-- policy/daemon.go:368-378.  A backing array with all its cells, those behind the slices included. -/
structure PArr where
  cells : List Cell
  /-- the length of the slice that the array was made for, for the proofs only -/
  base : Nat
deriving DecidableEq, Repr

/-- policy/daemon.go:359-381.  A goroutine that stores one assertion, the record `n`, for the role `k` into the object `o`.  Simplification:
a goroutine that stores several is several of these, in any order. -/
inductive PJob where
  /-- after `NewAssertion` of line 361 -/
  | start (o : Nat) (k : Str) (n : Nat)
  /-- after `rp.Get` of line 369 -/
  | got (o : Nat) (k : Str) (n : Nat) (old : Option Slice)
  /-- after line 372, 374 or 377 -/
  | made (o : Nat) (k : Str) (sl : Slice)
  | done
deriving DecidableEq, Repr

/-- policy/daemon.go:59, 161.  What belongs to the daemon. -/
structure PCore where
  mem : List Assertion
  heap : List PArr
  /-- the cache objects; object 0 is the one of line 77 -/
  objs : Nat → Str → Option Slice
  live : Nat
  jobs : List PJob

/-- policy/daemon.go:161-199, 359-381.  One atomic step of the daemon. -/
inductive PAct where
  /-- a goroutine is about to store an assertion into the object `o` (line 361) -/
  | add (o : Nat) (a : RawAssertion)
  /-- goroutine `j` goes on -/
  | go (j spare : Nat)
  /-- an entry expires -/
  | drop (o : Nat) (k : Str)
  /-- `Update` exchanges the object (line 199) -/
  | swap (o : Nat)
deriving DecidableEq, Repr

/-- policy/daemon.go:368-378.  A new array for these elements, with `spare` cells behind them. -/
def newPArr (cs : List Cell) (spare : Nat) : PArr := ⟨cs ++ List.replicate spare .nil, cs.length⟩

/-- policy/daemon.go:253.  The elements of a slice. -/
def sliceCells (heap : List PArr) (sl : Slice) : List Cell :=
  match heap[sl.arr]? with
  | some A => A.cells.take sl.len
  | none => []

/-- policy/daemon.go:372.  Writing one cell of an array; `none` = the array has no such cell. -/
def putCell (heap : List PArr) (arr i : Nat) (c : Cell) : Option (List PArr) :=
  match heap[arr]? with
  | some A => if i < A.cells.length then some (heap.set arr { A with cells := A.cells.set i c }) else none
  | none => none

/-- policy/daemon.go:368-378.  The new slice; `spare` is the room that `append` leaves in a new array. -/
def insertCell (mem : List Assertion) (heap : List PArr) (n : Nat) (old : Option Slice) (spare : Nat) : List PArr × Slice :=
  match old with
  | none => (heap ++ [newPArr [.ptr n] 0], ⟨heap.length, 1⟩)                                                -- line 377
  | some s =>
    if (mem[n]?.bind (·.effect)) = none then
      match putCell heap s.arr s.len (.ptr n) with
      | some heap' => (heap', ⟨s.arr, s.len + 1⟩)                                                           -- line 372, in place
      | none => (heap ++ [newPArr (sliceCells heap s ++ [.ptr n]) spare], ⟨heap.length, s.len + 1⟩)         -- line 372, new array
    else (heap ++ [newPArr (.ptr n :: sliceCells heap s) spare], ⟨heap.length, s.len + 1⟩)                  -- line 374

/-- policy/daemon.go:379.  Storing an entry of an object. -/
def setObj (objs : Nat → Str → Option Slice) (o : Nat) (k : Str) (v : Option Slice) : Nat → Str → Option Slice :=
  fun o' k' => if o' = o ∧ k' = k then v else objs o' k'

/-- policy/daemon.go:161-199, 359-381: one step of the daemon; `none` = not possible.  Simplification: an entry can expire at any time. -/
def pCoreStep (U : CaseFns) (c : PCore) : PAct → Option PCore
  | .add o a =>
    match newAssertion U a.action a.resource a.effect with
    | .ok x => some { c with mem := c.mem ++ [x], jobs := c.jobs ++ [.start o a.role c.mem.length] }
    | _ => none
  | .go j spare =>
    match c.jobs[j]? with
    | some (.start o k n) => some { c with jobs := c.jobs.set j (.got o k n (c.objs o k)) }
    | some (.got o k n old) =>
      some { c with heap := (insertCell c.mem c.heap n old spare).1,
                    jobs := c.jobs.set j (.made o k (insertCell c.mem c.heap n old spare).2) }
    | some (.made o k sl) => some { c with objs := setObj c.objs o k (some sl), jobs := c.jobs.set j .done }
    | _ => none
  | .drop o k => some { c with objs := setObj c.objs o k none }
  | .swap o => some { c with live := o }

/-- policy/daemon.go:161-199, 359-381.  Running a schedule of the daemon alone. -/
def pCoreRun (U : CaseFns) (c : PCore) : List PAct → Option PCore
  | [] => some c
  | a :: as => match pCoreStep U c a with
    | none => none
    | some c' => pCoreRun U c' as

/-- policy/daemon.go:296.  A value of a map that was handed out: a slice of the cache, or memory of the caller. -/
inductive Handed where
  | shared (sl : Slice)
  | own (cells : List Cell)
deriving DecidableEq, Repr

/-- policy/daemon.go:292-297.  A `*Assertion` that a caller writes: nil, a new record, or one found in a map that they got. -/
inductive UVal where
  | nil
  | fresh (x : Assertion)
  | found (m : Nat) (k : Str) (i : Nat)
deriving DecidableEq, Repr

/-- policy/daemon.go:292-297.  What a caller does. -/
inductive UAct where
  /-- calls `GetPolicyCache` -/
  | hand
  /-- `delete(m, k)` -/
  | del (m : Nat) (k : Str)
  /-- `m[k'] = m[k]` -/
  | copy (m : Nat) (k k' : Str)
  /-- `m[k] = []*Assertion{...}`, with new records -/
  | lit (m : Nat) (k : Str) (xs : List Assertion)
  /-- `m[k] = m[k][:n]`, up to the capacity -/
  | reslice (m : Nat) (k : Str) (n : Nat)
  /-- `m[k] = append(m[k], v)` -/
  | append (m : Nat) (k : Str) (v : UVal)
  /-- `m[k][i] = v` -/
  | cell (m : Nat) (k : Str) (i : Nat) (v : UVal)
  /-- `*m[k][i] = x` -/
  | field (m : Nat) (k : Str) (i : Nat) (x : Assertion)
deriving DecidableEq, Repr

/-- policy/daemon.go:292-297.  The daemon, and the callers with what they hold. -/
structure PState where
  core : PCore
  /-- the records that callers made -/
  mine : List Assertion
  maps : List (Str → Option Handed)

/-- policy/daemon.go:292-297.  The pointers that a caller finds under `k` in map `m`. -/
def PState.held (s : PState) (m : Nat) (k : Str) : Option (List Cell) :=
  match (s.maps[m]?).bind (· k) with
  | some (.shared sl) => some (sliceCells s.core.heap sl)
  | some (.own cs) => some cs
  | none => none

/-- policy/daemon.go:292-297.  The pointer that a caller writes, and the records of the callers afterwards. -/
def PState.value (s : PState) : UVal → Option (Cell × List Assertion)
  | .nil => some (.nil, s.mine)
  | .fresh x => some (.own s.mine.length, s.mine ++ [x])
  | .found m k i => ((s.held m k).bind (·[i]?)).map (·, s.mine)

/-- policy/daemon.go:292-297.  Storing a value in a map that was handed out. -/
def setMap (maps : List (Str → Option Handed)) (m : Nat) (k : Str) (v : Option Handed) : List (Str → Option Handed) :=
  match maps[m]? with
  | some f => maps.set m (fun k' => if k' = k then v else f k')
  | none => maps

/-- policy/daemon.go:292-297: one step of a caller; `none` = not possible.  Simplifications: `ToRawMap` is one step, and slices in memory of
the caller are values (nobody else sees them). -/
def userStep (s : PState) : UAct → Option PState
  | .hand => some { s with maps := s.maps ++ [fun k => (s.core.objs s.core.live k).map .shared] }
  | .del m k => some { s with maps := setMap s.maps m k none }
  | .copy m k k' =>
    match (s.maps[m]?).bind (· k) with
    | some v => some { s with maps := setMap s.maps m k' (some v) }
    | none => none
  | .lit m k xs =>
    some { s with mine := s.mine ++ xs,
                  maps := setMap s.maps m k (some (.own ((List.range xs.length).map (fun i => .own (s.mine.length + i))))) }
  | .reslice m k n =>
    match (s.maps[m]?).bind (· k) with
    | some (.shared sl) =>
      match s.core.heap[sl.arr]? with
      | some A => if n ≤ A.cells.length then some { s with maps := setMap s.maps m k (some (.shared ⟨sl.arr, n⟩)) } else none
      | none => none
    | some (.own cs) => if n ≤ cs.length then some { s with maps := setMap s.maps m k (some (.own (cs.take n))) } else none
    | none => none
  | .append m k v =>
    match s.value v, (s.maps[m]?).bind (· k) with
    | some (c, mine), some (.shared sl) =>
      match putCell s.core.heap sl.arr sl.len c with
      | some heap => some { s with core := { s.core with heap := heap }, mine := mine,
                                   maps := setMap s.maps m k (some (.shared ⟨sl.arr, sl.len + 1⟩)) }
      | none => some { s with mine := mine, maps := setMap s.maps m k (some (.own (sliceCells s.core.heap sl ++ [c]))) }
    | some (c, mine), some (.own cs) => some { s with mine := mine, maps := setMap s.maps m k (some (.own (cs ++ [c]))) }
    | _, _ => none
  | .cell m k i v =>
    match s.value v, (s.maps[m]?).bind (· k) with
    | some (c, mine), some (.shared sl) =>
      if i < sl.len then
        match putCell s.core.heap sl.arr i c with
        | some heap => some { s with core := { s.core with heap := heap }, mine := mine }
        | none => none
      else none
    | some (c, mine), some (.own cs) =>
      if i < cs.length then some { s with mine := mine, maps := setMap s.maps m k (some (.own (cs.set i c))) } else none
    | _, _ => none
  | .field m k i x =>
    match (s.held m k).bind (·[i]?) with
    | some (.ptr n) => some { s with core := { s.core with mem := s.core.mem.set n x } }
    | some (.own n) => some { s with mine := s.mine.set n x }
    | _ => none

/-- policy/daemon.go:161-199, 292-297, 359-381.  A step of the daemon or of a caller. -/
inductive GAct where
  | daemon (a : PAct)
  | user (a : UAct)
deriving DecidableEq, Repr

/-- policy/daemon.go:161-199, 292-297, 359-381: one step; `none` = not possible. -/
def gStep (U : CaseFns) (s : PState) : GAct → Option PState
  | .daemon a => (pCoreStep U s.core a).map (fun c => { s with core := c })
  | .user a => userStep s a

/-- policy/daemon.go:161-199, 292-297, 359-381.  Running a schedule. -/
def gRun (U : CaseFns) (s : PState) : List GAct → Option PState
  | [] => some s
  | a :: as => match gStep U s a with
    | none => none
    | some s' => gRun U s' as

/-- policy/daemon.go:77.  The daemon at the start. -/
def pCoreInit : PCore := { mem := [], heap := [], objs := fun _ _ => none, live := 0, jobs := [] }

/-- policy/daemon.go:77.  The start: nobody holds anything. -/
def gInit : PState := { core := pCoreInit, mine := [], maps := [] }

/-- policy/daemon.go:253.  The record behind a pointer; `none` = nil, at which line 261 crashes. -/
def PState.deref (s : PState) : Cell → Option Assertion
  | .nil => none
  | .ptr n => s.core.mem[n]?
  | .own n => s.mine[n]?

/-- policy/daemon.go:248-253.  What a check finds for a role: the records in the order of the loop. -/
def PState.seen (s : PState) (k : Str) : Option (List (Option Assertion)) :=
  (s.core.objs s.core.live k).map (fun sl => (sliceCells s.core.heap sl).map s.deref)

/-- policy/daemon.go:248-253.  What checks read if no pointer is nil. -/
def PState.policies (s : PState) : PolicyView := fun k => (s.seen k).map (·.filterMap id)

end Athenz
