import Verif.Model.Authority

/-!
# principal.go, authorizerd.go:401-473: principals as pointers

The other models take a principal as a value.  Here it is a pointer to a record with two slices, as in Go: the calls that find a result in the
cache return the same pointer, and callers get the slices themselves from `Roles` and `AuthorizedRoles`.  Callers may write to the elements of
a slice that they have, and append to it.
-/

namespace Athenz

/-- principal.go:36, 40.  A slice from the start of its array. -/
structure StrSlice where
  arr : Nat
  len : Nat
deriving DecidableEq, Repr

/-- principal.go:53, 73.  The elements of a slice; an array has as many cells as its capacity. -/
def StrSlice.read (heap : List (List Str)) (s : StrSlice) : List Str := ((heap[s.arr]?).getD []).take s.len

/-- principal.go:34-46 `principal`, `oAuthAccessToken`. -/
structure PObj where
  name : Str
  roles : StrSlice
  domain : Str
  issueTime : Int
  expiryTime : Int
  authorizedRoles : StrSlice
  clientID : Option Str
deriving DecidableEq, Repr

/-- authorizerd.go:416-422, 431-440.  The record for the principal `p`. -/
def PObj.of (p : Principal) (roles authorizedRoles : StrSlice) : PObj :=
  { name := p.name, roles := roles, domain := p.domain, issueTime := p.issueTime, expiryTime := p.expiryTime, authorizedRoles := authorizedRoles,
    clientID := p.clientID }

/-- principal.go:47-81.  What the getters show. -/
def PObj.read (heap : List (List Str)) (o : PObj) : Principal :=
  { name := o.name, roles := o.roles.read heap, domain := o.domain, issueTime := o.issueTime, expiryTime := o.expiryTime,
    authorizedRoles := o.authorizedRoles.read heap, clientID := o.clientID }

/-- authorizerd.go:60-75, 401-473.  The calls, the memory and the slices that callers have. -/
structure MState where
  /-- The calls; the principals in it are what was read from the tokens and found by the checks. -/
  a : AState
  heap : List (List Str)
  /-- the record that call `i` made -/
  objs : Nat → Option PObj
  /-- the value in the cache: the call that made it -/
  ptr : Str → Option Nat
  /-- the pointer that call `i` returned: the call that made the record -/
  ret : Nat → Option Nat
  /-- the slices that callers have, each with the elements that it had when they got it or made it; these are for the proofs only -/
  mine : List (StrSlice × List Str)

/-- authorizerd.go:393-473, principal.go:53, 73.  A step of a call or of its environment, or of a caller. -/
inductive MAct where
  /-- `spare` is the room that the JSON decoder leaves in the array of the roles of an access token -/
  | lib (act : AAct) (spare : Nat)
  /-- `Roles()` of the principal that call `i` returned -/
  | roles (i : Nat)
  /-- `AuthorizedRoles()` of it -/
  | authorizedRoles (i : Nat)
  /-- a caller sets an element of a slice that it has -/
  | write (m idx : Nat) (v : Str)
  /-- a caller appends to a slice that it has; `spare` is the room that `append` leaves in a new array -/
  | append (m : Nat) (v : Str) (spare : Nat)

/-- authorizerd.go:128-215, the state after `New`. -/
def mInit (now : Int) (keys : Option KeyProvider) (jwkp : Option JwkProvider) : MState :=
  { a := aInit now keys jwkp, heap := [], objs := fun _ => none, ptr := fun _ => none, ret := fun _ => none, mine := [] }

/-- authorizerd.go:454.  The roles that are checked are read from memory. -/
def MState.synced (s : MState) : AAct → AState
  | .check i _ _ =>
    match s.a.calls i, s.objs i with
    | some ⟨q, .translated p act res⟩, some o => s.a.setPc i q (.translated { p with roles := o.roles.read s.heap } act res)
    | _, _ => s.a
  | _ => s.a

/-- authorizerd.go:416-422, 431-440.  The record of a token; there are no authorized roles yet. -/
def MState.make (s : MState) (a' : AState) (i : Nat) (p : Principal) (spare : Nat) : MState :=
  { s with a := a', heap := s.heap ++ [p.roles ++ List.replicate spare [], []]
           objs := fun j => if j = i then some (PObj.of p ⟨s.heap.length, p.roles.length⟩ ⟨s.heap.length + 1, 0⟩) else s.objs j }

/-- policy/daemon.go:275, authorizerd.go:460-465.  The authorized roles: an array with room for all roles of the token. -/
def MState.grant (s : MState) (a' : AState) (i : Nat) (p : Principal) : MState :=
  { s with a := a', heap := s.heap ++ [p.authorizedRoles ++ List.replicate (p.roles.length - p.authorizedRoles.length) []]
           objs := fun j => if j = i then (s.objs i).map fun o => { o with authorizedRoles := ⟨s.heap.length, p.authorizedRoles.length⟩ } else s.objs j }

/-- authorizerd.go:393-473.  What a step does to the memory. -/
def MState.after (cfg : AuthCfg) (s : MState) (a' : AState) : AAct → Nat → MState
  | .validate i, spare =>
    match a'.calls i with
    | some ⟨_, .validated p⟩ => s.make a' i p spare
    | some ⟨_, .checked p⟩ => s.make a' i p spare
    | _ => { s with a := a' }
  | .check i _ _, _ =>
    match a'.calls i with
    | some ⟨_, .checked p⟩ => s.grant a' i p
    | _ => { s with a := a' }
  | .get i, _ =>
    match a'.calls i with
    | some ⟨q, .done (.ok _)⟩ => { s with a := a', ret := fun j => if j = i then s.ptr (cacheKey cfg q) else s.ret j }
    | _ => { s with a := a' }
  | .store i, _ =>
    match a'.calls i with
    | some ⟨q, _⟩ => { s with a := a', ptr := fun k => if k = cacheKey cfg q then some i else s.ptr k, ret := fun j => if j = i then some i else s.ret j }
    | none => { s with a := a' }
  | _, _ => { s with a := a' }

/-- authorizerd.go:367-473, principal.go:53, 73.  One step; `none` = not possible. -/
def mStep (cfg : AuthCfg) (s : MState) : MAct → Option MState
  | .lib act spare =>
    match aStep cfg (s.synced act) act with
    | some a' => some (s.after cfg a' act spare)
    | none => none
  | .roles i =>
    match (s.ret i).bind s.objs with
    | some o => some { s with mine := s.mine ++ [(o.roles, o.roles.read s.heap)] }
    | none => none
  | .authorizedRoles i =>
    match (s.ret i).bind s.objs with
    | some o => some { s with mine := s.mine ++ [(o.authorizedRoles, o.authorizedRoles.read s.heap)] }
    | none => none
  | .write m idx v =>
    match s.mine[m]? with
    | some (sl, _) => if idx < sl.len then some { s with heap := s.heap.modify sl.arr (·.set idx v) } else none
    | none => none
  | .append m v spare =>
    match s.mine[m]? with
    | some (sl, _) =>
      if sl.len < ((s.heap[sl.arr]?).getD []).length then
        some { s with heap := s.heap.modify sl.arr (·.set sl.len v), mine := s.mine ++ [(⟨sl.arr, sl.len + 1⟩, sl.read s.heap ++ [v])] }
      else
        some { s with heap := s.heap ++ [sl.read s.heap ++ v :: List.replicate spare []]
                      mine := s.mine ++ [(⟨s.heap.length, (sl.read s.heap).length + 1⟩, sl.read s.heap ++ [v])] }
    | none => none

/-- authorizerd.go:367-473.  Running a schedule. -/
def mRun (cfg : AuthCfg) (s : MState) : List MAct → Option MState
  | [] => some s
  | a :: as => match mStep cfg s a with
    | some s' => mRun cfg s' as
    | none => none

end Athenz
