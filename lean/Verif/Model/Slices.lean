import Verif.Model.Simplify

/-!
# policy/daemon.go:248-268, 359-381: one cache object with slices that share their memory

The other models take the value of an entry, a `[]*Assertion`, as a list.  Here it is a slice: an array and a length.  `append` of line 372
writes into the array of the slice that it got from the cache if there is room, so that slices handed out before can share it.  Any number
of goroutines (domains of an `Update`, or refreshes of expired entries) fill the object, and any number of workers of checks read it.
-/

namespace Athenz

/-- policy/daemon.go:368-378.  A backing array: the cells that were written, and how many more there are.  No slice reaches beyond the
cells that were written. -/
structure Arr where
  cells : List Assertion
  spare : Nat
deriving DecidableEq, Repr

/-- policy/daemon.go:368.  `[]*Assertion`, always from the start of its array. -/
structure Slice where
  arr : Nat
  len : Nat
deriving DecidableEq, Repr

/-- policy/daemon.go:253.  The elements of a slice. -/
def sliceVal (heap : List Arr) (s : Slice) : List Assertion :=
  match heap[s.arr]? with
  | some A => A.cells.take s.len
  | none => []

/-- policy/daemon.go:372.  Writing the cell behind the slice; `none` = the array has no such cell. -/
def Arr.put (A : Arr) (i : Nat) (x : Assertion) : Option Arr :=
  if i < A.cells.length then some { A with cells := A.cells.set i x }
  else if 0 < A.spare then some ⟨A.cells ++ [x], A.spare - 1⟩
  else none

/-- policy/daemon.go:368-378.  The new slice.  `spare` is the room that `append` leaves in a new array.  Simplification: copying of the
elements into a new array is one step. -/
def insertSlice (heap : List Arr) (x : Assertion) (old : Option Slice) (spare : Nat) : List Arr × Slice :=
  match old with
  | none => (heap ++ [⟨[x], 0⟩], ⟨heap.length, 1⟩)                                              -- line 378
  | some s =>
    if x.effect = none then
      match (heap[s.arr]?).bind (·.put s.len x) with
      | some A => (heap.set s.arr A, ⟨s.arr, s.len + 1⟩)                                        -- line 372, in place
      | none => (heap ++ [⟨sliceVal heap s ++ [x], spare⟩], ⟨heap.length, s.len + 1⟩)           -- line 372, new array
    else (heap ++ [⟨x :: sliceVal heap s, spare⟩], ⟨heap.length, s.len + 1⟩)                    -- line 374

/-- policy/daemon.go:359-381.  Where a filling goroutine stands for the first of its assertions. -/
inductive HPc where
  | idle
  /-- after `rp.Get` of line 369 -/
  | got (old : Option Slice)
  /-- after line 372, 374 or 378, before `rp.SetWithExpire` of line 379 -/
  | made (old : Option Slice) (s : Slice)
deriving DecidableEq, Repr

/-- policy/daemon.go:359-387.  A goroutine inside `assm.Range`, or at its end. -/
inductive HJob where
  | fill (ttl : Int) (todo : List RawAssertion) (pc : HPc)
  | done (err : Option Err)
deriving DecidableEq, Repr

/-- policy/daemon.go:241-268.  A worker of a check after line 248. -/
structure HRead where
  key : Str
  sl : Slice
  /-- the index of the loop of line 253 -/
  pos : Nat
  /-- the elements that the slice had at line 248, for the proofs only -/
  loaded : List Assertion
  /-- the elements that the loop got so far -/
  seen : List Assertion
deriving DecidableEq, Repr

/-- policy/daemon.go:161, 248, 359.  One cache object and everybody who uses it. -/
structure HState where
  now : Int
  heap : List Arr
  rp : Gache Slice
  jobs : List HJob
  reads : List HRead
  /-- the assertions of all goroutines that began to fill, for the proofs only -/
  begun : List RawAssertion

/-- policy/daemon.go:241-268, 359-381.  One atomic step. -/
inductive HAct where
  | tick (d : Nat)
  /-- another goroutine begins to fill the object (line 359) -/
  | begin (ttl : Int) (todo : List RawAssertion)
  /-- goroutine `i` goes on -/
  | fill (i spare : Nat)
  /-- the sweep removes an entry that is not valid any more -/
  | expire (k : Str)
  /-- a worker of a check gets the entry `k` (line 248) -/
  | load (k : Str)
  /-- worker `r` gets the next element (line 253) -/
  | read (r : Nat)
deriving DecidableEq, Repr

/-- policy/daemon.go:161.  A new object. -/
def hInit (now : Int) : HState := { now := now, heap := [], rp := Gache.empty, jobs := [], reads := [], begun := [] }

/-- policy/daemon.go:241-268, 359-387: one step; `none` = not possible. -/
def hStep (U : CaseFns) (s : HState) : HAct → Option HState
  | .tick d => some { s with now := s.now + d }
  | .begin ttl todo => some { s with jobs := s.jobs ++ [.fill ttl todo .idle], begun := s.begun ++ todo }
  | .fill i spare =>
    match s.jobs[i]? with
    | some (.fill _ [] _) => some { s with jobs := s.jobs.set i (.done none) }
    | some (.fill ttl (a :: rest) .idle) =>
      match newAssertion U a.action a.resource a.effect with
      | .ok _ => some { s with jobs := s.jobs.set i (.fill ttl (a :: rest) (.got (s.rp.get s.now a.role))) }   -- line 369
      | .err e => some { s with jobs := s.jobs.set i (.done (some e)) }                                        -- lines 361-366
      | .panic => none
    | some (.fill ttl (a :: rest) (.got old)) =>
      match newAssertion U a.action a.resource a.effect with
      | .ok x => some { s with heap := (insertSlice s.heap x old spare).1,
                               jobs := s.jobs.set i (.fill ttl (a :: rest) (.made old (insertSlice s.heap x old spare).2)) }
      | _ => none
    | some (.fill ttl (a :: rest) (.made _ sl)) =>
      some { s with rp := s.rp.set s.now a.role sl ttl, jobs := s.jobs.set i (.fill ttl rest .idle) }          -- line 379
    | _ => none
  | .expire k =>
    match s.rp k with
    | none => none
    | some e => if Gache.valid s.now e then none else some { s with rp := s.rp.delete k }
  | .load k =>
    match s.rp.get s.now k with
    | none => none
    | some sl => some { s with reads := s.reads ++ [⟨k, sl, 0, sliceVal s.heap sl, []⟩] }
  | .read r =>
    match s.reads[r]? with
    | none => none
    | some rd =>
      if rd.pos < rd.sl.len then
        match (s.heap[rd.sl.arr]?).bind (·.cells[rd.pos]?) with
        | some x => some { s with reads := s.reads.set r { rd with pos := rd.pos + 1, seen := rd.seen ++ [x] } }
        | none => none
      else none

/-- policy/daemon.go:241-268, 359-387.  Running a schedule. -/
def hRun (U : CaseFns) (s : HState) : List HAct → Option HState
  | [] => some s
  | a :: as => match hStep U s a with
    | none => none
    | some s' => hRun U s' as

end Athenz
