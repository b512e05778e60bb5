import Verif.Go.SyncMap
import Verif.Model.Access

/-! # jwk/daemon.go: any number of overlapping `Update` calls -/

namespace Athenz

/-- jwk/daemon.go:173-180.  A key of a set: its id and what `Raw` yields; `none` if `Raw` fails. -/
structure JwkEntry where
  kid : Str
  raw : Option JKey
deriving DecidableEq, Repr

/-- jwk/daemon.go:133, 173.  A fetched `jwk.Set`. -/
abbrev JwkSet := List JwkEntry

/-- jwk/daemon.go:37-47 `jwkd`; the periods and the client are not needed here. -/
structure JwkCfg where
  athenzURL : Str
  urls : List Str

/-- jwk/daemon.go:187-194 `isContain`. -/
def isContain : List Str → Str → Bool
  | [], _ => false
  | t :: ts, key => if t = key then true else isContain ts key

/-- jwk/daemon.go:123-128, the targets of an update. -/
def JwkCfg.targets (cfg : JwkCfg) : List Str :=
  if isContain cfg.urls cfg.athenzURL then cfg.urls else cfg.athenzURL :: cfg.urls

/-- jwk/daemon.go:120-149.  A running `Update`: the URLs still to do (the first is being worked on), the set fetched for the first but not
yet stored, and the URLs that failed. -/
structure JwkJob where
  todo : List Str
  got : Option JwkSet
  failed : List Str
deriving DecidableEq, Repr

/-- jwk/daemon.go:143-148, the result of a finished update: true for an error. -/
def JwkJob.result (b : JwkJob) : Option Bool := if b.todo = [] then some (!b.failed.isEmpty) else none

/-- jwk/daemon.go:133, 139.  The observable trace: requests with their outcome, and stores into the key map. -/
inductive JwkEvent
  | fetched (job : Nat) (url : Str) (out : Option JwkSet)
  | stored (job : Nat) (url : Str) (set : JwkSet)
deriving DecidableEq, Repr

/-- jwk/daemon.go:37-47.  The daemon: the key map, the updates, and the trace (which the program does not keep). -/
structure JwkState where
  keys : SMap JwkSet
  jobs : List JwkJob
  log : List JwkEvent

/-- jwk/daemon.go:54-56, the new daemon. -/
def jwkInit : JwkState := { keys := [], jobs := [], log := [] }

/-- jwk/daemon.go:120-149.  `update`: a call of `Update`.  `fetch j out`: the request of job `j` ends, `none` with an error.  `store j`: job
`j` stores what it fetched. -/
inductive JwkAct
  | update
  | fetch (j : Nat) (out : Option JwkSet)
  | store (j : Nat)

/-- jwk/daemon.go:120-149 `Update`, one step.  The request and the store are separate steps of the loop at 131-141. -/
def jwkStep (cfg : JwkCfg) (s : JwkState) : JwkAct → Option JwkState
  | .update => some { s with jobs := s.jobs ++ [⟨cfg.targets, none, []⟩] }
  | .fetch j out =>
    match s.jobs[j]? with
    | some ⟨url :: rest, none, failed⟩ =>
      let log := s.log ++ [.fetched j url out]
      match out with
      | none => some { s with jobs := s.jobs.set j ⟨rest, none, failed ++ [url]⟩, log := log }
      | some set => some { s with jobs := s.jobs.set j ⟨url :: rest, some set, failed⟩, log := log }
    | _ => none
  | .store j =>
    match s.jobs[j]? with
    | some ⟨url :: rest, some set, failed⟩ =>
      some { keys := s.keys.store url set, jobs := s.jobs.set j ⟨rest, none, failed⟩, log := s.log ++ [.stored j url set] }
    | _ => none

/-- jwk/daemon.go:120-149, any interleaving of updates. -/
def jwkRun (cfg : JwkCfg) (s : JwkState) : List JwkAct → Option JwkState
  | [] => some s
  | a :: as => match jwkStep cfg s a with
    | some s' => jwkRun cfg s' as
    | none => none

/-- jwk/daemon.go:173.  `Set.LookupKeyID` of lestrrat-go/jwx v1.2.25: the first key with the id. -/
def lookupKeyID (set : JwkSet) (kid : Str) : Option JwkEntry := set.find? fun e => e.kid == kid

/-- jwk/daemon.go:155-185 `getKey`. -/
def getKey (cfg : JwkCfg) (s : JwkState) : JwkProvider := fun kid jku =>
  if kid = [] then none
  else
    match s.keys.load (if jku = [] then cfg.athenzURL else jku) with
    | none => none
    | some set => match lookupKeyID set kid with
      | some e => e.raw
      | none => none

end Athenz
