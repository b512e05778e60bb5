import Verif.Model.Authority
import Verif.Model.Policyd
import Verif.Model.Pubkeyd
import Verif.Model.Jwkd

/-!
# authorizerd.go:128-215: the daemons and the authorization calls of one `authority` together

`New` hands `GetProvider` of the public key daemon to the policy fetchers and the role token processor, `GetProvider` of the JWK daemon to
the access token processor, and `CheckPolicyRoles` of the policy daemon is what `authorize` calls.  The components are the models of the
other files; here the results that those leave open are tied together: the keys are those of the key daemons, the outcome of a policy
check is that of a check in the policy daemon, and what a goroutine of `Update` gets from `FetchWithRetry` is what the fetcher of its domain
returned.
-/

namespace Athenz

/-- authorizerd.go:128-215, the configuration, with the public key daemon and, for access tokens, the JWK daemon enabled.  If the policy
daemon is disabled (`auth.disablePolicyd`) there is none in the code; here it may still run, but no call asks it. -/
structure SysCfg where
  auth : AuthCfg
  pk : PkCfg
  jwk : JwkCfg
  fetch : FetchCfg
  /-- the keys of the map of fetchers, policy/daemon.go:91-102 -/
  domains : List Str

/-- authorizerd.go:60-75.  The state: all components, and who waits for whom. -/
structure Sys where
  auth : AState
  pk : PkState
  jwk : JwkState
  pd : PdState
  /-- the fetcher of every domain -/
  fs : Str → FState
  /-- the domains of the goroutines of every task of the policy daemon -/
  doms : List (List Str)
  /-- the call of the fetcher for which a goroutine of a task waits (policy/daemon.go:300) -/
  waits : Nat → Nat → Option Nat
  /-- the check of the policy daemon for which a call of `authorize` waits (authorizerd.go:454) -/
  checkOf : Nat → Option Nat
  /-- the process died of a nil dereference -/
  dead : Bool

/-- authorizerd.go:128-215, after `New`. -/
def sysInit (cfg : SysCfg) (now : Int) : Sys :=
  { auth := aInit now (some (pkInit now).provider) (some (getKey cfg.jwk jwkInit))
    pk := pkInit now, jwk := jwkInit, pd := pdInit now cfg.domains, fs := fun _ => fInit now (pkInit now).provider
    doms := [], waits := fun _ _ => none, checkOf := fun _ => none, dead := false }

/-- authorizerd.go:60-499.  A step of a component, or of its environment. -/
inductive SysAct where
  | tick (d : Nat)
  /-- the public key daemon goes on -/
  | pk (a : PkAct)
  /-- the JWK daemon goes on -/
  | jwk (a : JwkAct)
  /-- a call of the fetcher of a domain goes on -/
  | fetcher (dom : Str) (a : FAct)
  /-- the policy daemon goes on -/
  | pd (a : PdAct)
  /-- goroutine `j` of task `i` dereferences a nil pointer in the policy that it got -/
  | nilPolicy (i j : Nat)
  /-- call `i` of `authorize` calls `CheckPolicyRoles` -/
  | beginCheck (i : Nat)
  /-- `CheckPolicyRoles` returns to call `i`; `view` and `sched` tell in the terms of the calls' model how it came to its result -/
  | endCheck (i : Nat) (view : PolicyView) (sched : List CheckAct)
  /-- a call of `authorize`, `Verify` or `Authorize` begins or goes on -/
  | auth (a : AAct)

/-- policy/daemon.go:299-300.  The goroutine `j` of task `i` calls `FetchWithRetry` of the fetcher of `dom`. -/
def Sys.callFetcher (cfg : SysCfg) (s : Sys) (i j : Nat) (dom : Str) : Option Sys :=
  match fStep cfg.fetch (s.fs dom) (.call true) with
  | none => none
  | some f => some { s with
      fs := fun x => if x = dom then f else s.fs x
      waits := fun i' j' => if i' = i ∧ j' = j then some (s.fs dom).calls.length else s.waits i' j' }

/-- policy/daemon.go:170-178, 189-192.  The domain of goroutine `j` of task `i`. -/
def Sys.domOf (s : Sys) (i j : Nat) : Option Str := (s.doms[i]?).bind (·[j]?)

/-- policy/daemon.go:300.  What `FetchWithRetry` returned to goroutine `j` of task `i`: nothing yet, no policy, or a policy. -/
def Sys.fetchResult (s : Sys) (i j : Nat) : Option (Option SignedPolicy) :=
  match s.domOf i j, s.waits i j with
  | some dom, some n => match (s.fs dom).calls[n]? with
    | some ⟨_, .ret sp _⟩ => some sp
    | _ => none
  | _, _ => none

/-- policy/daemon.go:301-306, 328.  `f` is what the returned policy amounts to. -/
def fetchMatches : Option SignedPolicy → Option PolicyDoc → Prop
  | none, none => True
  | some sp, some d => docOf sp = .ok d
  | _, _ => False

instance (a : Option SignedPolicy) (b : Option PolicyDoc) : Decidable (fetchMatches a b) := by
  unfold fetchMatches
  split <;> infer_instance

/-- policy/daemon.go:156-290.  A step of the policy daemon; goroutines that begin to fetch call the fetcher of their domain, and go on with
what it returned. -/
def sysPd (cfg : SysCfg) (s : Sys) (a : PdAct) : Option Sys :=
  match pdStep cfg.auth.U s.pd a with
  | none => none
  | some pd =>
    let s' := { s with pd := pd, dead := pd.crashed }
    match a with
    | .tick _ => none
    | .update fetch => if fetch.length = cfg.domains.length then some { s' with doms := s.doms ++ [cfg.domains] } else none
    | .hook j _ =>
      match s.pd.pending[j]? with
      | none => none
      | some k =>
        if pd.crashed then some s'
        else { s' with doms := s.doms ++ [[hookDomain k]] }.callFetcher cfg s.pd.tasks.length 0 (hookDomain k)
    | .task i (.job j _) =>
      match s.pd.tasks[i]? with
      | none => none
      | some t =>
        match t.jobs[j]? with
        | some (.start _) =>
          if t.cancelled then some s'
          else match s.domOf i j with
            | some dom => s'.callFetcher cfg i j dom
            | none => none
        | some (.fetching f) =>
          match s.fetchResult i j with
          | some r => if fetchMatches r f then some s' else none
          | none => none
        | _ => some s'
    | _ => some s'

/-- authorizerd.go:407-440, policy/fetcher.go:131: the key daemon's `getPubKey` is asked anew every time. -/
def Sys.withKeys (s : Sys) (pk : PkState) : Sys :=
  { s with
    pk := pk, auth := { s.auth with keys := some pk.provider }, fs := fun x => { s.fs x with keys := pk.provider }, dead := pk.crashed }

/-- authorizerd.go:128-215.  One step; `none` = not possible.  A check of the policy daemon that nobody waits for stands for the calls of
`VerifyRoleCert` (authorizerd.go:539-547). -/
def sysStep (cfg : SysCfg) (s : Sys) (a : SysAct) : Option Sys :=
  if s.dead then none else
  match a with
  | .tick d => some { s with
      auth := { s.auth with now := s.auth.now + d }, pk := { s.pk with now := s.pk.now + d }, pd := { s.pd with now := s.pd.now + d }
      fs := fun x => { s.fs x with now := (s.fs x).now + d } }
  | .pk a =>
    match a with
    | .tick _ => none
    | _ => match pkStep cfg.pk s.pk a with
      | none => none
      | some pk => some (s.withKeys pk)
  | .jwk a =>
    match jwkStep cfg.jwk s.jwk a with
    | none => none
    | some jwk => some { s with jwk := jwk, auth := { s.auth with jwkp := some (getKey cfg.jwk jwk) } }
  | .fetcher dom a =>
    match a with
    | .tick _ => none
    | .setKeys _ => none
    | .call _ => none
    | _ => match fStep cfg.fetch (s.fs dom) a with
      | none => none
      | some f => some { s with fs := fun x => if x = dom then f else s.fs x, dead := f.crashed }
  | .pd a => sysPd cfg s a
  | .nilPolicy i j =>
    match (s.pd.tasks[i]?).bind (·.jobs[j]?), s.fetchResult i j with
    | some (.fetching _), some (some sp) => if docOf sp = .panic then some { s with dead := true } else none
    | _, _ => none
  | .beginCheck i =>
    match s.auth.calls i, s.checkOf i with
    | some ⟨_, .translated p act res⟩, none =>
      match pdStep cfg.auth.U s.pd (.check ⟨p.domain, p.roles, act, cfg.auth.resourcePrefix ++ res⟩) with
      | none => none
      | some pd => some { s with pd := pd, checkOf := fun i' => if i' = i then some s.pd.checks.length else s.checkOf i' }
    | _, _ => none
  | .endCheck i view sched =>
    match s.checkOf i with
    | none => none
    | some k =>
      match s.pd.checks[k]? with
      | none => none
      | some c =>
        if c.loaded.isSome then
          match c.cs.coll with
          | .loop _ => none
          | .ret r =>
            if checkResult cfg.auth.U c.q view sched = some r then
              match aStep cfg.auth s.auth (.check i view sched) with
              | none => none
              | some auth => some { s with auth := auth }
            else none
        else none
  | .auth a =>
    match a with
    | .check _ _ _ => none
    | .tick _ => none
    | .setKeys _ => none
    | .setJwkp _ => none
    | _ => match aStep cfg.auth s.auth a with
      | none => none
      | some auth => some { s with auth := auth }

/-- authorizerd.go:128-499.  Running a schedule. -/
def sysRun (cfg : SysCfg) (s : Sys) : List SysAct → Option Sys
  | [] => some s
  | a :: as => match sysStep cfg s a with
    | none => none
    | some s' => sysRun cfg s' as

end Athenz
