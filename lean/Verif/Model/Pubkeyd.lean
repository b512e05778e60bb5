import Verif.Model.Fetcher
import Verif.Go.SyncMap
import Verif.Go.Gache

/-!
# pubkey/daemon.go: `Update`, `fetchPubKeyEntries`, `getPubKey`
-/

namespace Athenz

/-- pubkey/daemon.go:76-82: the names of the two services. -/
def Env.name : Env → Str
  | .zts => "zts".toList
  | .zms => "zms".toList

/-- pubkey/sys_auth_config.go:27-30 `PublicKey`: id and key text. -/
abbrev PubKeyEntry := Str × Str

/-- pubkey/daemon.go:160-181, 271.  The parameters: `json.Decoder.Decode` into a `*SysAuthConfig` (`none` = error, `some none` = `null`,
list elements can be `null`), `YBase64.DecodeString` followed by `authcore.NewVerifier` (`none` = error), and the lifetime of ETags in
nanoseconds. -/
structure PkCfg where
  decode : Str → Option (Option (List (Option PubKeyEntry)))
  newVerifier : Str → Option SigVerifier
  eTagExpiry : Int

/-- pubkey/daemon.go:171-185.  The downloaded entries become verifiers; a nil entry is dereferenced at line 172. -/
def buildKeys (newVerifier : Str → Option SigVerifier) : SMap SigVerifier → List (Option PubKeyEntry) → Res (SMap SigVerifier)
  | cm, [] => .ok cm
  | _, none :: _ => .panic
  | cm, some (id, key) :: rest =>
    match newVerifier key with
    | none => .err (.other "error decoding key")
    | some ver => buildKeys newVerifier (cm.store id ver) rest

/-- pubkey/daemon.go:158-217.  Where the goroutine of one service (lines 201-217, `updConf` of lines 158-199) stands. -/
inductive PkPc where
  | start
  /-- the request is under way; the parameter is the ETag found in the cache (line 244) -/
  | sent (t : Option Str)
  /-- inside `cm.Range` (line 186), these ids are still to be stored -/
  | storing (cm : SMap SigVerifier) (todo : List Str)
  /-- inside `cache.Range` (line 190), these ids are still to be visited -/
  | deleting (cm : SMap SigVerifier) (todo : List Str)
  | done (err : Option Err)

/-- pubkey/daemon.go:201-217, the goroutine of one service. -/
structure PkJob where
  env : Env
  pc : PkPc

/-- pubkey/daemon.go:43-68.  The daemon.  `Update` number `i` consists of the jobs `2 i` (ZTS) and `2 i + 1` (ZMS). -/
structure PkState where
  now : Int
  /-- `eTagCache`; of `confCache` only the ETag is kept, since `sac` is never used for an unmodified answer -/
  eTags : Gache Str
  zts : SMap SigVerifier
  zms : SMap SigVerifier
  jobs : List PkJob
  /-- the process died -/
  crashed : Bool

/-- pubkey/daemon.go:85-101.  `New` (lines 85-101). -/
def pkInit (now : Int) : PkState := { now := now, eTags := Gache.empty, zts := [], zms := [], jobs := [], crashed := false }

/-- pubkey/daemon.go:203, 212.  The key map of a service (lines 203, 212). -/
def PkState.keysOf (s : PkState) : Env → SMap SigVerifier
  | .zts => s.zts
  | .zms => s.zms

/-- pubkey/daemon.go:186-196. -/
def PkState.setKeys (s : PkState) (e : Env) (m : SMap SigVerifier) : PkState :=
  match e with
  | .zts => { s with zts := m }
  | .zms => { s with zms := m }

/-- pubkey/daemon.go:153-292, the steps of the goroutines and of the environment. -/
inductive PkAct where
  | tick (d : Nat)
  /-- somebody calls `Update` -/
  | update
  /-- job `j` sends its request -/
  | send (j : Nat)
  /-- the request of job `j` ends; `order` is the order in which `cm.Range` will visit the ids -/
  | answer (j : Nat) (r : HttpResult) (order : List Str)
  /-- job `j` goes on; at the end of the storing phase `order` lists the ids that `cache.Range` will visit -/
  | step (j : Nat) (order : List Str)

/-- pubkey/daemon.go:153-292.  One step; `none` = not possible.  `cache.Range` visits at least all ids present when it begins. -/
def pkStep (cfg : PkCfg) (s : PkState) (a : PkAct) : Option PkState :=
  if s.crashed then none else
  match a with
  | .tick d => some { s with now := s.now + d }
  | .update => some { s with jobs := s.jobs ++ [⟨.zts, .start⟩, ⟨.zms, .start⟩] }        -- lines 201-217
  | .send j =>
    match s.jobs[j]? with
    | some ⟨e, .start⟩ => some { s with jobs := s.jobs.set j ⟨e, .sent (s.eTags.get s.now e.name)⟩ }  -- lines 231-249
    | _ => none
  | .answer j r order =>
    match s.jobs[j]? with
    | some ⟨e, .sent t⟩ =>
      match r with
      | .fail err => some { s with jobs := s.jobs.set j ⟨e, .done (some err)⟩ }           -- lines 251-255
      | .answer status eTag body =>
        if status = 304 then
          match t with
          | none => some { s with crashed := true }                                      -- line 259
          | some _ => some { s with jobs := s.jobs.set j ⟨e, .done none⟩ }               -- lines 166-169
        else if status ≠ 200 then some { s with jobs := s.jobs.set j ⟨e, .done (some .fetchAthenzPubkey)⟩ }
        else match cfg.decode body with
          | none => some { s with jobs := s.jobs.set j ⟨e, .done (some (.other "json format not correct"))⟩ }
          | some sac =>
            let s' := if eTag = [] then s else { s with eTags := s.eTags.set s.now e.name eTag cfg.eTagExpiry }  -- lines 284-288
            match sac with
            | none => some { s' with crashed := true }                                   -- line 171
            | some entries =>
              match buildKeys cfg.newVerifier [] entries with
              | .panic => some { s' with crashed := true }
              | .err err => some { s' with jobs := s.jobs.set j ⟨e, .done (some err)⟩ }
              | .ok cm => if order.Perm cm.keys then some { s' with jobs := s.jobs.set j ⟨e, .storing cm order⟩ } else none
    | _ => none
  | .step j order =>
    match s.jobs[j]? with
    | some ⟨e, .storing cm (k :: todo)⟩ =>
      match cm.load k with
      | some v => some { (s.setKeys e ((s.keysOf e).store k v)) with jobs := s.jobs.set j ⟨e, .storing cm todo⟩ }
      | none => none
    | some ⟨e, .storing cm []⟩ =>
      if ∀ k ∈ (s.keysOf e).keys, k ∈ order then some { s with jobs := s.jobs.set j ⟨e, .deleting cm order⟩ } else none
    | some ⟨e, .deleting cm (k :: todo)⟩ =>
      match cm.load k with
      | some _ => some { s with jobs := s.jobs.set j ⟨e, .deleting cm todo⟩ }
      | none => some { (s.setKeys e ((s.keysOf e).delete k)) with jobs := s.jobs.set j ⟨e, .deleting cm todo⟩ }
    | some ⟨e, .deleting _ []⟩ => some { s with jobs := s.jobs.set j ⟨e, .done none⟩ }
    | _ => none

/-- pubkey/daemon.go:153-292.  Running a schedule. -/
def pkRun (cfg : PkCfg) (s : PkState) : List PkAct → Option PkState
  | [] => some s
  | a :: as => match pkStep cfg s a with
    | none => none
    | some s' => pkRun cfg s' as

/-- pubkey/daemon.go:294-310.  `getPubKey`; every service other than "zts" is taken for ZMS. -/
def PkState.getPubKey (s : PkState) (env id : Str) : Option SigVerifier :=
  if env = Env.zts.name then s.zts.load id else s.zms.load id

/-- pubkey/daemon.go:227-229.  `GetProvider`, for the two constants of type `AthenzEnv`. -/
def PkState.provider (s : PkState) : KeyProvider := fun e id => s.getPubKey e.name id

end Athenz
