import Verif.Model.System
import Verif.Model.Loop

/-!
# policy/daemon.go:109-154 in the assembled authorizer

The goroutine that `Start` of the policy daemon begins, together with `Model/System`: it calls the `Update` of that model, and goes on when
this call has returned.  Others can call `Update`, too (`Init`, the user).
-/

namespace Athenz

/-- authorizerd.go:128-215, policy/daemon.go:109-154.  The assembled authorizer, the goroutine with its channels, and the number of the call of
`Update` in which it is. -/
structure LSys where
  sys : Sys
  loop : LState
  cur : Option Nat

/-- policy/daemon.go:109-120.  When the goroutine begins; `s` is the state of the authorizer then. -/
def lsInit (s : Sys) : LSys := { sys := s, loop := lInit, cur := none }

/-- policy/daemon.go:114-150. -/
inductive LsAct
  /-- something happens in the authorizer -/
  | sys (a : SysAct)
  /-- the ticker, the context, the reader of the errors; the goroutine between two calls of `Update` -/
  | loop (a : LAct)
  /-- the select takes the case of the failure queue (`retry`) or the ticker, and `Update` is called; `fetch` as in `PdAct.update` -/
  | call (retry : Bool) (fetch : List (Option PolicyDoc))
  /-- `Update` has returned to the goroutine; `e` is the text of its error if it is not nil -/
  | ret (e : Str)

/-- policy/daemon.go:114-150.  These steps of the loop are not calls of `Update` and not their returns. -/
def LAct.own : LAct → Bool
  | .selRetry => false
  | .selTick => false
  | .updOk => false
  | .updFail _ => false
  | _ => true

/-- policy/daemon.go:109-154.  One step; `none` = not possible.  When the process died nothing happens any more. -/
def lsStep (cfg : SysCfg) (ce : Str) (s : LSys) (a : LsAct) : Option LSys :=
  if s.sys.dead then none else
  match a with
  | .sys a =>
    match sysStep cfg s.sys a with
    | none => none
    | some sys => some { s with sys := sys }
  | .loop a =>
    if a.own then
      match lStep .policyd ce s.loop a with
      | none => none
      | some loop => some { s with loop := loop }
    else none
  | .call retry fetch =>
    match lStep .policyd ce s.loop (if retry then .selRetry else .selTick), sysStep cfg s.sys (.pd (.update fetch)) with
    | some loop, some sys => some { sys := sys, loop := loop, cur := some s.sys.pd.tasks.length }   -- lines 127, 139
    | _, _ => none
  | .ret e =>
    match (s.cur.bind (s.sys.pd.tasks[·]?)).bind (·.ret) with
    | none => none
    | some ok =>
      match lStep .policyd ce s.loop (if ok then .updOk else .updFail e) with
      | none => none
      | some loop => some { s with loop := loop, cur := none }

/-- policy/daemon.go:109-154.  Running a schedule. -/
def lsRun (cfg : SysCfg) (ce : Str) (s : LSys) : List LsAct → Option LSys
  | [] => some s
  | a :: as => match lsStep cfg ce s a with
    | none => none
    | some s' => lsRun cfg ce s' as

/-- policy/daemon.go:109-154.  What a step is in the authorizer; the steps of the loop are none, for which stands that no time passes. -/
def LsAct.proj : LsAct → SysAct
  | .sys a => a
  | .loop _ => .tick 0
  | .call _ fetch => .pd (.update fetch)
  | .ret _ => .tick 0

end Athenz
