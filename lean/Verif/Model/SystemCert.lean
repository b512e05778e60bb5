import Verif.Model.System

/-!
# authorizerd.go:501-548 in the assembled authorizer

Calls of `VerifyRoleCert` on top of `Model/System`.  What they do themselves is local to the call; the policy checks that they ask for are
checks of the policy daemon, which run there among all others.
-/

namespace Athenz

/-- authorizerd.go:538-547.  Where a call stands. -/
inductive CertPc where
  /-- before the next turn of the loop of line 539 -/
  | next
  /-- inside `CheckPolicy` of line 541 -/
  | wait
  | done (r : Res Unit)
deriving DecidableEq, Repr

/-- authorizerd.go:502.  A call. -/
structure CertCall where
  certs : List Cert
  act : Str
  res : Str
  /-- the order in which line 539 iterates -/
  order : List (Str × List Str)
  /-- how many steps there were before the call, for the theorems only -/
  begun : Nat
  /-- the numbers of the checks asked for so far, one for each turn of the loop -/
  checks : List Nat
  pc : CertPc
deriving DecidableEq, Repr

/-- authorizerd.go:86-126.  The authorizer and the calls of `VerifyRoleCert`; `trace` are the steps of the rest, for the theorems only. -/
structure CSys where
  sys : Sys
  certs : List CertCall
  trace : List SysAct

/-- authorizerd.go:501-548.  One step. -/
inductive CAct where
  /-- something else goes on -/
  | sys (a : SysAct)
  /-- somebody calls `VerifyRoleCert` -/
  | call (certs : List Cert) (act res : Str) (order : List (Str × List Str))
  /-- call `i` asks for the check of the next domain (line 541) -/
  | next (i : Nat)
  /-- the check returns to call `i` -/
  | ret (i : Nat)

/-- authorizerd.go:128-215. -/
def cInit (cfg : SysCfg) (now : Int) : CSys := { sys := sysInit cfg now, certs := [], trace := [] }

/-- authorizerd.go:502-537.  The call up to the loop of line 539. -/
def certBegin (cfg : SysCfg) (s : CSys) (certs : List Cert) (act res : Str) (order : List (Str × List Str)) : CertCall :=
  { certs := certs, act := act, res := res, order := order, begun := s.trace.length, checks := []
    pc := if cfg.auth.disablePolicyd then .done (.ok ())
          else if order = [] then .done (.err (.other "invalid role certificate")) else .next }

/-- authorizerd.go:541-547.  Where the call stands after a check that returned `r`.  Simplification: `errors.Wrap` of line 547 keeps the error
(C04 compares errors by their cause). -/
def CertCall.after (c : CertCall) : Res (List Str) → CertPc
  | .ok _ => .done (.ok ())
  | .err e => if c.checks.length < c.order.length then .next else .done (.err e)
  | .panic => .done .panic

/-- authorizerd.go:501-548.  One step; `none` = not possible.  A step of a call that does nothing to the rest is noted there as the passing
of no time. -/
def cStep (cfg : SysCfg) (s : CSys) (a : CAct) : Option CSys :=
  match a with
  | .sys a =>
    match sysStep cfg s.sys a with
    | none => none
    | some sys => some { s with sys := sys, trace := s.trace ++ [a] }
  | .call certs act res order =>
    if s.sys.dead = false ∧ order.isPerm (certRoles cfg.auth.roleCertURIPrefix certs).roles then
      some { s with certs := s.certs ++ [certBegin cfg s certs act res order], trace := s.trace ++ [.tick 0] }
    else none
  | .next i =>
    match s.certs[i]? with
    | none => none
    | some c =>
      match c.pc, c.order[c.checks.length]? with
      | .next, some (d, rs) =>
        match sysStep cfg s.sys (.pd (.check ⟨d, rs, c.act, c.res⟩)) with
        | none => none
        | some sys => some { sys := sys, trace := s.trace ++ [.pd (.check ⟨d, rs, c.act, c.res⟩)]
                             certs := s.certs.set i { c with checks := c.checks ++ [s.sys.pd.checks.length], pc := .wait } }
      | _, _ => none
  | .ret i =>
    if s.sys.dead then none else
    match s.certs[i]? with
    | none => none
    | some c =>
      match c.pc, (c.checks.getLast?).bind (s.sys.pd.checks[·]?) with
      | .wait, some chk =>
        match chk.cs.coll with
        | .loop _ => none
        | .ret r => some { s with certs := s.certs.set i { c with pc := c.after r }, trace := s.trace ++ [.tick 0] }
      | _, _ => none

/-- authorizerd.go:501-548.  Running a schedule. -/
def cRun (cfg : SysCfg) (s : CSys) : List CAct → Option CSys
  | [] => some s
  | a :: as => match cStep cfg s a with
    | none => none
    | some s' => cRun cfg s' as

end Athenz
