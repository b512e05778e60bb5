import Verif.Go.SyncMap
import Mathlib.Data.List.Dedup

/-!
# The accesses of the policy daemon to memory that goroutines share (policy/daemon.go, policy/fetcher.go)

Every step emits at most one event.  What the goroutines compute is left out: answers of servers, errors and numbers of attempts are choices.
Fields that are only written before the daemon is given away are left out, and so is memory that is behind locks of libraries (`gache`, `sync.Map`,
channels).  A goroutine of an Update that finds the context cancelled before it fetches (policy/daemon.go:165-168) is left out: it accesses nothing.
GetPolicyCache (policy/daemon.go:293-297) runs in a goroutine of its own, like a check, which leaves less order than there is.
-/

namespace Athenz

/-- Variables: `p.rolePolicies` (policy/daemon.go:59), `f.policyCache` of a domain (policy/fetcher.go:60), the variable `rp` of an Update
(policy/daemon.go:154) or `g` of New (policy/daemon.go:77), which `p.rolePolicies` points to, and a tagged policy (policy/fetcher.go:142-147), which
`f.policyCache` points to. -/
inductive Loc where
  | role
  | cache (d : Str)
  | box (n : Nat)
  | pol (n : Nat)
  deriving DecidableEq

/-- What a goroutine does to shared memory: plain reads and writes, and `sync/atomic` operations, as at policy/fetcher.go:91-92, 148 and
policy/daemon.go:199, 237; or `go` and the end of `eg.Wait` for one goroutine (policy/daemon.go:164, 176); or it calls Update or returns from it
(policy/daemon.go:149). -/
inductive Ev where
  | read (x : Loc)
  | write (x : Loc)
  | load (x : Loc)
  | store (x : Loc)
  | swap (x : Loc)
  | fork (g : Nat)
  | join (g : Nat)
  | start
  | finish
  deriving DecidableEq

/-- Where a goroutine is; `kids` are the goroutines of the error group with their fetchers.
Of users: policy/daemon.go:149-214; of fetches: policy/fetcher.go:76-175; of checks: policy/daemon.go:230-237; of hooks: policy/daemon.go:189-192. -/
inductive DPc where
  | none
  | idle
  | called (todo : List Str)
  | launch (b : Nat) (todo : List Str) (kids : List (Nat × Str))
  | ready (b : Nat)
  | peek (b n : Nat)
  | swapped (b old : Nat)
  | peek2 (b old n : Nat)
  | closing
  | check
  | checked (n : Nat)
  | body (b : Nat) (d : Str)
  | fetch (d : Str)
  | hasTag (d : Str)
  | tagged (d : Str) (n : Nat)
  | ask (d : Str) (tp : Option Nat)
  | got (d : Str) (n : Nat)
  | gaveUp (d : Str)
  | fallback (d : Str)
  | fellBack (d : Str) (n : Nat)
  | expirer
  | hook (d : Str)
  | hooked (d : Str) (n : Nat)
  | done
  deriving DecidableEq

/-- The events so far, what the pointers point to, how many objects and goroutines there were, where the goroutines are, and which of them
belong to checks.  The variables are those of policy/daemon.go:54-73 and policy/fetcher.go:47-61. -/
structure DState where
  trace : List (Nat × Ev)
  role : Nat
  cache : Str → Option Nat
  objs : Nat
  gids : Nat
  pc : Nat → DPc
  checks : List Nat

/-- After New (policy/daemon.go:76-106), which plainly writes all variables. -/
def dInit (domains : List Str) : DState :=
  { trace := (0, .write .role) :: (0, .write (.box 0)) :: domains.map fun d => (0, .write (.cache d))
    role := 0, cache := fun _ => .none, objs := 1, gids := 1, pc := fun g => if g = 0 then .idle else .none, checks := [] }

/-- The goroutine does this and goes there (a step of any of the goroutines of policy/daemon.go:149-297). -/
def DState.emit (s : DState) (g : Nat) (e : Ev) (p : DPc) : DState :=
  { s with trace := s.trace ++ [(g, e)], pc := fun h => if h = g then p else s.pc h }

/-- The goroutine goes there without an event (policy/fetcher.go:154-160). -/
def DState.goto (s : DState) (g : Nat) (p : DPc) : DState := { s with pc := fun h => if h = g then p else s.pc h }

/-- `go`: the goroutine goes on at `p`, and a new one begins at `q` (policy/daemon.go:164, 230). -/
def DState.forkTo (s : DState) (g : Nat) (p q : DPc) : DState :=
  { s with trace := s.trace ++ [(g, .fork s.gids)], gids := s.gids + 1, pc := fun h => if h = s.gids then q else if h = g then p else s.pc h }

/-- What came of a request: the policy is not modified (policy/fetcher.go:111), there is a new one (policy/fetcher.go:148), there was an error and
the next attempt follows, or there was and no attempt is left (policy/fetcher.go:154-165). -/
inductive Choice where
  | same
  | new
  | again
  | giveUp
  deriving DecidableEq

/-- What happens: a user's goroutine starts another one, calls Update (policy/daemon.go:149) or CheckPolicyRoles or GetPolicyCache
(policy/daemon.go:226, 293); Update finds its context cancelled (policy/daemon.go:160-162), or its group failed (policy/daemon.go:176-178), or it logs
the caches (policy/daemon.go:195, 201); the hook of a cache is called (policy/daemon.go:189); a goroutine goes on. -/
inductive DAct where
  | spawn (g : Nat)
  | update (g : Nat) (todo : List Str)
  | check (g : Nat)
  | cancel (g : Nat)
  | fail (g : Nat)
  | debug (g : Nat)
  | hook (g : Nat) (d : Str)
  | go (g : Nat) (c : Choice)
  deriving DecidableEq

/-- A goroutine goes on.
Update: policy/daemon.go:154 (variable), 157-174 (fetchers), 176 (Wait, one goroutine after the other), 186 (StartExpired), 199 (swap),
205 (Stop of the old cache).  A check: policy/daemon.go:237 (load, and the variable that the pointer points to).  A fetch: policy/daemon.go:170
(variable), policy/fetcher.go:91 (plain read), 92 (load), 93 (tag), 111 (not modified), 142-148 (new policy), 171 (plain read), 174 (load and
policy).  A hook: policy/daemon.go:191 (plain read, variable), then a fetch. -/
def dGo (s : DState) (g : Nat) (c : Choice) : Option DState :=
  match s.pc g with
  | .called todo => some { s.emit g (.write (.box s.objs)) (.launch s.objs todo []) with objs := s.objs + 1 }
  | .launch b (d :: todo) kids => some (s.forkTo g (.launch b todo (kids ++ [(s.gids, d)])) (.body b d))
  | .launch b [] ((k, _) :: kids) => if s.pc k = .done then some (s.emit g (.join k) (.launch b [] kids)) else none
  | .launch b [] [] => some (s.forkTo g (.ready b) .expirer)
  | .ready b => some { s.emit g (.swap .role) (.swapped b s.role) with role := b }
  | .peek b n => some (s.emit g (.read (.box n)) (.ready b))
  | .swapped _ old => some (s.emit g (.read (.box old)) .closing)
  | .peek2 b old n => some (s.emit g (.read (.box n)) (.swapped b old))
  | .closing => some (s.emit g .finish .idle)
  | .check => some (s.emit g (.load .role) (.checked s.role))
  | .checked n => some (s.emit g (.read (.box n)) .done)
  | .body b d => some (s.emit g (.read (.box b)) (.fetch d))
  | .fetch d => some (s.emit g (.read (.cache d)) (if s.cache d = none then .ask d none else .hasTag d))
  | .hasTag d => (s.cache d).map fun n => s.emit g (.load (.cache d)) (.tagged d n)
  | .tagged d n => some (s.emit g (.read (.pol n)) (.ask d (some n)))
  | .ask d tp =>
    match c with
    | .same => tp.map fun n => s.emit g (.read (.pol n)) .done
    | .new => some { s.emit g (.write (.pol s.objs)) (.got d s.objs) with objs := s.objs + 1 }
    | .again => some (s.goto g (.fetch d))
    | .giveUp => some (s.goto g (.gaveUp d))
  | .got d n => some { s.emit g (.store (.cache d)) .done with cache := fun d' => if d' = d then some n else s.cache d' }
  | .gaveUp d => some (s.emit g (.read (.cache d)) (if s.cache d = none then .done else .fallback d))
  | .fallback d => (s.cache d).map fun n => s.emit g (.load (.cache d)) (.fellBack d n)
  | .fellBack _ n => some (s.emit g (.read (.pol n)) .done)
  | .hook d => some (s.emit g (.read .role) (.hooked d s.role))
  | .hooked d n => some (s.emit g (.read (.box n)) (.fetch d))
  | _ => none

/-- One step of the daemon.  The fetchers are a map (policy/daemon.go:72), so that every domain has one, and Update takes them in any order
(policy/daemon.go:157). -/
def dStep (domains : List Str) (s : DState) : DAct → Option DState
  | .spawn g => if s.pc g = .idle then some (s.forkTo g .idle .idle) else none
  | .update g todo => if s.pc g = .idle ∧ todo.Perm domains.dedup then some (s.emit g .start (.called todo)) else none
  | .check g => if s.pc g = .idle then some { s.forkTo g .idle .check with checks := s.gids :: s.checks } else none
  | .cancel g =>
    match s.pc g with
    | .launch _ (_ :: _) _ => some (s.emit g .finish .idle)
    | _ => none
  | .fail g => match s.pc g with
    | .launch _ [] [] => some (s.emit g .finish .idle)
    | _ => none
  | .debug g =>
    match s.pc g with
    | .ready b => some (s.emit g (.read .role) (.peek b s.role))
    | .swapped b old => some (s.emit g (.read .role) (.peek2 b old s.role))
    | _ => none
  | .hook g d => if s.pc g = .expirer then some (s.forkTo g .expirer (.hook d)) else none
  | .go g c => dGo s g c

/-- A schedule of the steps of all goroutines of the daemon and of its users (policy/daemon.go:108-297). -/
def dRun (domains : List Str) : DState → List DAct → Option DState
  | s, [] => some s
  | s, a :: as => (dStep domains s a).bind fun s' => dRun domains s' as

end Athenz
