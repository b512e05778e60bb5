import Verif.Model.SystemLoop
import Verif.Model.Boot
import Verif.Model.Jwkd

/-!
# authorizerd.go:300-343 in the assembled authorizer

`Start` of the authorizer: the goroutines of the three child daemons, each with its `Update` as in `Model/System`, and the goroutine that
passes their errors on.  Others can call `Update`, too (`Init`).
-/

namespace Athenz

/-- authorizerd.go:60-75, 300-343.  The assembled authorizer, the goroutines of `Start` with their channels, and for each child the number of the
call of `Update` in which its goroutine is. -/
structure RSys where
  sys : Sys
  fwd : SState
  cur : LKind → Option Nat

/-- authorizerd.go:300-343.  Before the first steps of the goroutines; `on` says which daemons are enabled. -/
def rsInit (s : Sys) (on : LKind → Bool) : RSys := { sys := s, fwd := sInit on, cur := fun _ => none }

/-- policy/daemon.go:127, 139, pubkey/daemon.go:124, 136, jwk/daemon.go:79.  The call of `Update`; `fetch` as in `PdAct.update`. -/
def LKind.update (fetch : List (Option PolicyDoc)) : LKind → SysAct
  | .policyd => .pd (.update fetch)
  | .pubkeyd => .pk .update
  | .jwkd => .jwk .update

/-- policy/daemon.go:156, pubkey/daemon.go:153, jwk/daemon.go:120.  The number of the next call of `Update`; of the public key daemon, the number of
its first goroutine. -/
def Sys.nextUpdate (s : Sys) : LKind → Nat
  | .policyd => s.pd.tasks.length
  | .pubkeyd => s.pk.jobs.length
  | .jwkd => s.jwk.jobs.length

/-- policy/daemon.go:156-222, pubkey/daemon.go:219-223, jwk/daemon.go:143-148.  What call `i` of `Update` returned: nothing yet, an error (`false`)
or nil (`true`).  The public key daemon waits for both goroutines. -/
def Sys.updateRet (s : Sys) (i : Nat) : LKind → Option Bool
  | .policyd => (s.pd.tasks[i]?).bind (·.ret)
  | .pubkeyd =>
    match s.pk.jobs[i]?, s.pk.jobs[i + 1]? with
    | some ⟨_, .done a⟩, some ⟨_, .done b⟩ => some (a.isNone && b.isNone)
    | _, _ => none
  | .jwkd => ((s.jwk.jobs[i]?).bind (·.result)).map fun e => !e

/-- authorizerd.go:300-343. -/
inductive RAct
  /-- something happens in the authorizer -/
  | sys (a : SysAct)
  /-- the tickers, the context, the reader of the errors; the goroutine that passes errors on; the others between two calls of `Update` -/
  | fwd (a : SAct)
  /-- the select of a child takes the case of the failure queue (`retry`) or the ticker, and `Update` is called -/
  | call (k : LKind) (retry : Bool) (fetch : List (Option PolicyDoc))
  /-- `Update` has returned to the goroutine of a child; `e` is the text of its error if it is not nil -/
  | ret (k : LKind) (e : Str)

/-- authorizerd.go:300-343.  These steps are not calls of `Update` and not their returns. -/
def SAct.own : SAct → Bool
  | .child _ a => a.own
  | _ => true

/-- authorizerd.go:300-343.  One step; `none` = not possible.  When the process died nothing happens any more. -/
def rsStep (cfg : SysCfg) (ce : Str) (s : RSys) (a : RAct) : Option RSys :=
  if s.sys.dead then none else
  match a with
  | .sys a =>
    match sysStep cfg s.sys a with
    | none => none
    | some sys => some { s with sys := sys }
  | .fwd a =>
    if a.own then
      match sStep ce s.fwd a with
      | none => none
      | some fwd => some { s with fwd := fwd }
    else none
  | .call k retry fetch =>
    match sStep ce s.fwd (.child k (if retry then .selRetry else .selTick)), sysStep cfg s.sys (k.update fetch) with
    | some fwd, some sys => some { sys := sys, fwd := fwd, cur := fun k' => if k' = k then some (s.sys.nextUpdate k) else s.cur k' }
    | _, _ => none
  | .ret k e =>
    match (s.cur k).bind fun i => s.sys.updateRet i k with
    | none => none
    | some ok =>
      match sStep ce s.fwd (.child k (if ok then .updOk else .updFail e)) with
      | none => none
      | some fwd => some { s with fwd := fwd, cur := fun k' => if k' = k then none else s.cur k' }

/-- authorizerd.go:300-343.  Running a schedule. -/
def rsRun (cfg : SysCfg) (ce : Str) (s : RSys) : List RAct → Option RSys
  | [] => some s
  | a :: as => match rsStep cfg ce s a with
    | none => none
    | some s' => rsRun cfg ce s' as

/-- authorizerd.go:300-343.  What a step is in the authorizer; the steps of the goroutines are none, for which stands that no time passes. -/
def RAct.proj : RAct → SysAct
  | .sys a => a
  | .fwd _ => .tick 0
  | .call k _ fetch => k.update fetch
  | .ret _ _ => .tick 0

end Athenz
