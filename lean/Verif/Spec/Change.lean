import Verif.Spec.SysLive
import Verif.Spec.InForce

/-! # Specification: updates of the policies that go on by themselves, and servers that answer -/

namespace Athenz
namespace Spec

/-- What goes on by itself when policies are updated: call `n` of the fetcher of a domain, whose requests end at some time, and call `i` of
`Update` (or run `i` of the hook of an expired entry) with its goroutines. -/
inductive UpdThread
  | fetch (dom : Str) (n : Nat)
  | update (i : Nat)

/-- The step is one of call `n` of `FetchWithRetry` for `dom`, or the end of its request. -/
def OfFetch (dom : Str) (n : Nat) : SysAct → Prop
  | .fetcher d (.send k) => d = dom ∧ k = n
  | .fetcher d (.answer k _) => d = dom ∧ k = n
  | .fetcher d (.giveUp k) => d = dom ∧ k = n
  | _ => False

/-- The step is one of call `i` of `Update`, or of one of its goroutines. -/
def OfUpdate (i : Nat) : SysAct → Prop
  | .pd (.task k (.job _ _)) => k = i
  | .pd (.task k (.merge _ _)) => k = i
  | .pd (.finish k) => k = i
  | .pd (.abort k) => k = i
  | _ => False

def UpdThread.Does : UpdThread → SysAct → Prop
  | .fetch dom n, a => OfFetch dom n a
  | .update i, a => OfUpdate i a

/-- Fairness: what can go on from some time on goes on at some time. -/
def UpdFair {cfg : SysCfg} {now : Int} (x : SysExec cfg now) : Prop :=
  ∀ (th : UpdThread) (n : Nat), (∀ m, n ≤ m → ∃ a, th.Does a ∧ (sysStep cfg (x.state m) a).isSome) → ∃ m, n ≤ m ∧ th.Does (x.act m)

/-- The fetcher returned no policy and `f` is none, or it returned a policy that says `f`. -/
def AsSaid : Option SignedPolicy → Option PolicyDoc → Prop
  | none, f => f = none
  | some sp, f => ∃ d, f = some d ∧ PolicySays sp d

/-- The model lets a call of `Update` say in advance what its goroutines are going to get from the fetchers.  It says the truth: whenever the
fetcher has returned, it returned what was said. -/
def Foretold {cfg : SysCfg} {now : Int} (x : SysExec cfg now) : Prop :=
  ∀ (n i j : Nat) (t : Task) (f : Option PolicyDoc) (r : Option SignedPolicy), (x.state n).pd.tasks[i]? = some t →
    t.jobs[j]? = some (.fetching f) → (x.state n).fetchResult i j = some r → AsSaid r f

/-- From the moment `N` on the server gives `d` for the domain: every answer is a verified policy with that content, or says that such a
policy, which the fetcher had cached when it asked, is unchanged. -/
def Serves {cfg : SysCfg} {now : Int} (x : SysExec cfg now) (N : Nat) (dom : Str) (d : PolicyDoc) : Prop :=
  ∀ n, N ≤ n → ∀ j r, x.act n = .fetcher dom (.answer j r) →
    ∃ sp, FAct.succeeds cfg.fetch ((x.state n).fs dom) (.answer j r) sp ∧ PolicySays sp d

/-- From the moment `N` on the servers give the documents `D` for the configured domains, with a policy for every domain and resources that
name a domain, and no call of `Update` is cancelled. -/
structure NewPolicies {cfg : SysCfg} {now : Int} (x : SysExec cfg now) (N : Nat) (D : List PolicyDoc) : Prop where
  len : D.length = cfg.domains.length
  serves : ∀ (j : Nat) (dom : Str) (d : PolicyDoc), cfg.domains[j]? = some dom → D[j]? = some d → Serves x N dom d
  good : ∀ d ∈ D, ∀ a ∈ d.policies.flatten, ':' ∈ a.resource
  noCancel : ∀ n i, N ≤ n → x.act n ≠ .pd (.task i .cancel)

end Spec
end Athenz
