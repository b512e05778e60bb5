import Verif.Model.System

/-!
# policy/daemon.go:292-297 and authorizerd.go:556-562: `GetPolicyCache`

The call loads the pointer to the published cache and asks gache for a copy as a map.  gache goes through the entries one by one while
everything else goes on.
-/

namespace Athenz

/-- policy/daemon.go:294-296: what the call can return that loads the pointer after `n` steps and returns after `e`; `at_ j` is the state of the
daemon after `j` steps.  `ToRawMap` goes through the entries in any order, so that every key is read at some moment of the call, and leaves out
entries that have expired; it stops if the context is done, so that entries can be missing.  That it deletes the expired entries and hands them to the
hook is an `expire` step of `pdStep`. -/
def PolicyCacheReturns (at_ : Nat → Option PdState) (n e : Nat) (cancelled : Bool) (m : Str → Option (List Assertion)) : Prop :=
  ∃ s, at_ n = some s ∧ ∀ k, (cancelled = true ∧ m k = none) ∨
    ∃ j s1, n ≤ j ∧ j ≤ e ∧ at_ j = some s1 ∧ m k = viewOf ((s1.objs[s.live]?).getD Gache.empty) s1.now k

/-- authorizerd.go:556-562: what the call of the authorizer can return, for a history of the assembled authorizer. -/
def GetPolicyCacheReturns (cfg : SysCfg) (s0 : Sys) (h : List SysAct) (n : Nat) (cancelled : Bool) (m : Str → Option (List Assertion)) : Prop :=
  if cfg.auth.disablePolicyd then ∀ k, m k = none
  else PolicyCacheReturns (fun j => (sysRun cfg s0 (h.take j)).map (·.pd)) n h.length cancelled m

end Athenz
