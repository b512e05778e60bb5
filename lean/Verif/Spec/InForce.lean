import Verif.Spec.Fresh
import Verif.Spec.Decision

/-! # Specification: which policies are in force -/

namespace Athenz
namespace Spec

/-- `docs` is what the update number `i` got: for every configured domain the document of the policy that `FetchWithRetry` of the fetcher of
that domain returned to it.  That policy was received for the domain, with valid signatures, and it is not older than the update: after any
moment before the update was called, it was delivered or confirmed, or kept because a fetcher had given up. -/
def Fetched (cfg : SysCfg) (s0 : Sys) (h : List SysAct) (s : Sys) (i : Nat) (docs : List (Option PolicyDoc)) : Prop :=
  docs.length = cfg.domains.length ∧ ∀ (j : Nat) (dom : Str), cfg.domains[j]? = some dom → ∃ sp d,
    s.domOf i j = some dom ∧ s.fetchResult i j = some (some sp) ∧ PolicySays sp d ∧ docs[j]? = some (some d) ∧
    PolicyReceived cfg s0 h dom sp ∧
    ∀ pre post s1, h = pre ++ post → sysRun cfg s0 pre = some s1 → s1.pd.tasks.length ≤ i →
      Confirmed cfg s1 post dom sp ∨ KeptInstead cfg s1 post dom sp

/-- Of the updates that returned nil during `h`, which ends in `s`, number `i` was the last to return. -/
def LastUpdate (h : List SysAct) (s : Sys) (i : Nat) : Prop :=
  (∃ t, s.pd.tasks[i]? = some t ∧ t.ret = some true) ∧ ∃ h1 h2, h = h1 ++ SysAct.pd (.finish i) :: h2 ∧
    ∀ i', SysAct.pd (.finish i') ∈ h2 → ∃ t, s.pd.tasks[i']? = some t ∧ t.ret = some false

/-- The documents in force after `h`, which ends in `s`: those of the last update that returned nil, none if there was no such update. -/
def InForce (cfg : SysCfg) (s0 : Sys) (h : List SysAct) (s : Sys) (docs : List (Option PolicyDoc)) : Prop :=
  (docs = [] ∧ ∀ t ∈ s.pd.tasks, t.ret ≠ some true) ∨ ∃ i, LastUpdate h s i ∧ Fetched cfg s0 h s i docs

/-- The update number `i` was called at the time `t` or later. -/
def CalledSince (cfg : SysCfg) (s0 : Sys) (h : List SysAct) (i : Nat) (t : Int) : Prop :=
  ∃ pre post s', h = pre ++ post ∧ sysRun cfg s0 pre = some s' ∧ s'.pd.tasks.length ≤ i ∧ t ≤ s'.auth.now

/-- The update whose documents are in force after `h`, which ends in `s`, was called at the time `t` or later. -/
def InForceSince (cfg : SysCfg) (s0 : Sys) (h : List SysAct) (s : Sys) (t : Int) : Prop :=
  ∀ i, LastUpdate h s i → CalledSince cfg s0 h i t

/-- During `h` no refresh of an expired entry (policy/daemon.go:189-192) began while the update that was the last after `h1`, which ends in
`s1`, was the last; if there was none, none began before the first update returned nil. -/
def NotRefreshed (cfg : SysCfg) (s0 : Sys) (h1 : List SysAct) (s1 : Sys) (h : List SysAct) : Prop :=
  ∀ pre n f post s2, h = pre ++ SysAct.pd (.hook n f) :: post → sysRun cfg s0 pre = some s2 →
    (∀ i, LastUpdate h1 s1 i → ¬ LastUpdate pre s2 i) ∧ ((∀ t ∈ s1.pd.tasks, t.ret ≠ some true) → ∃ t ∈ s2.pd.tasks, t.ret = some true)

/-- During `h` no refresh began while an update was the last that was so at step number `n` or later. -/
def NotRefreshedSince (cfg : SysCfg) (s0 : Sys) (h : List SysAct) (n : Nat) : Prop :=
  ∀ h1 h2 s1, h = h1 ++ h2 → n ≤ h1.length → sysRun cfg s0 h1 = some s1 → NotRefreshed cfg s0 h1 s1 h

/-- After `h1`, which ends in `s1`, and after `h2`, which ends in `s2`, the same update was the last, or there was none. -/
def SameLast (h1 : List SysAct) (s1 : Sys) (h2 : List SysAct) (s2 : Sys) : Prop :=
  (∃ i, LastUpdate h1 s1 i ∧ LastUpdate h2 s2 i) ∨ ((∀ t ∈ s1.pd.tasks, t.ret ≠ some true) ∧ ∀ t ∈ s2.pd.tasks, t.ret ≠ some true)

/-- During `h`, which ends in `s`, refreshes of expired entries (policy/daemon.go:189-192) that began while the update was the last that was so
after `h1`, which ends in `s1`, got only policies that say documents with the property `P`. -/
def RefreshedWith (cfg : SysCfg) (s0 : Sys) (h1 : List SysAct) (s1 : Sys) (h : List SysAct) (s : Sys) (P : PolicyDoc → Prop) : Prop :=
  ∀ pre n f post s2, h = pre ++ SysAct.pd (.hook n f) :: post → sysRun cfg s0 pre = some s2 → SameLast h1 s1 pre s2 →
    ∀ sp d, s.fetchResult s2.pd.tasks.length 0 = some (some sp) → PolicySays sp d → P d

/-- During `h`, which ends in `s`, refreshes that began while an update was the last that was so at step number `n` or later got only policies that
say documents with the property `P`. -/
def RefreshedSince (cfg : SysCfg) (s0 : Sys) (h : List SysAct) (s : Sys) (n : Nat) (P : PolicyDoc → Prop) : Prop :=
  ∀ h1 h2 s1, h = h1 ++ h2 → n ≤ h1.length → sysRun cfg s0 h1 = some s1 → RefreshedWith cfg s0 h1 s1 h s P

/-- The document says nothing about role `k` that `docs` do not say, and if it says something then it stays valid beyond the time `T`, or it had
expired at the time `t0`. -/
def SaysAlike (docs : List (Option PolicyDoc)) (t0 T : Int) (k : Str) (d : PolicyDoc) : Prop :=
  ∀ a ∈ d.policies.flatten, a.role = k → (∃ d', some d' ∈ docs ∧ a ∈ d'.policies.flatten) ∧
    (d.expires ≤ t0 ∨ (T < d.expires ∧ d.expires + T < 2 ^ 63))

end Spec
end Athenz
