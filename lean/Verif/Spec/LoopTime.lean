import Verif.Model.Loop
import Verif.Model.Pace

/-! # Specification for C94: the steps of the goroutines of `Start`, with the time that they take -/

namespace Athenz.Spec

/-- The goroutine of the model of steps, and the time; how often the ticker has fired; since when the goroutine is in `Update` or in `time.Sleep`;
and for which reason and when it has called `Update`. -/
structure TLoop where
  l : LState
  now : Int
  fired : Nat
  since : Int
  calls : List (Trig × Int)

/-- When the ticker is created. -/
def tlInit (cfg : PaceCfg) : TLoop := ⟨lInit, cfg.t0, 0, cfg.t0, []⟩

/-- When the ticker fires next. -/
def TLoop.due (cfg : PaceCfg) (s : TLoop) : Int := cfg.t0 + ((s.fired : Int) + 1) * cfg.period

/-- What the call of `Update` does in which the goroutine is. -/
def TLoop.upd (env : Nat → Int → TFetch) (s : TLoop) : TFetch := env (s.calls.length - 1) s.since

/-- The goroutine has nothing to do for the time `d`: it waits at the select, or for the end of the update or of the pause. -/
def NothingToDo (cfg : PaceCfg) (env : Nat → Int → TFetch) (s : TLoop) (d : Nat) : Prop :=
  match s.l.pc with
  | .select => s.l.fch = 0 ∧ s.l.tick = false
  | .updating _ => s.now + d ≤ s.since + (s.upd env).dur
  | .sleeping _ _ => s.now + d ≤ s.since + cfg.delay.toNat
  | _ => False

/-- One step in time.  Time passes only if the goroutine has nothing to do, and not beyond the next tick; the ticker fires when a period is over, and
before the goroutine does something at that time; an update and a pause end when their time is over. -/
inductive TlStep (k : LKind) (ce : Str) (cfg : PaceCfg) (env : Nat → Int → TFetch) (s : TLoop) : TLoop → Prop
  | pass (d : Nat) : 0 < d → NothingToDo cfg env s d → s.now + d ≤ s.due cfg → TlStep k ce cfg env s { s with now := s.now + d }
  | tick (l : LState) : s.now = s.due cfg → lStep k ce s.l .tick = some l → TlStep k ce cfg env s { s with l := l, fired := s.fired + 1 }
  | recv (l : LState) : lStep k ce s.l .recv = some l → TlStep k ce cfg env s { s with l := l }
  | call (trig : Trig) (l : LState) : s.now < s.due cfg → lStep k ce s.l (if trig = .retry then .selRetry else .selTick) = some l →
      TlStep k ce cfg env s { s with l := l, since := s.now, calls := s.calls ++ [(trig, s.now)] }
  | ret (e : Str) (l : LState) : s.now < s.due cfg → s.now = s.since + (s.upd env).dur →
      lStep k ce s.l (if (s.upd env).ok then .updOk else .updFail e) = some l → TlStep k ce cfg env s { s with l := l, since := s.now }
  | send (l : LState) : s.now < s.due cfg → lStep k ce s.l .send = some l → TlStep k ce cfg env s { s with l := l, since := s.now }
  | wake (l : LState) : s.now < s.due cfg → s.now = s.since + cfg.delay.toNat → lStep k ce s.l .wake = some l → TlStep k ce cfg env s { s with l := l }
  | offer (l : LState) : s.now < s.due cfg → lStep k ce s.l .offer = some l → TlStep k ce cfg env s { s with l := l }

/-- What can be reached in time. -/
inductive TlReach (k : LKind) (ce : Str) (cfg : PaceCfg) (env : Nat → Int → TFetch) : TLoop → Prop
  | init : TlReach k ce cfg env (tlInit cfg)
  | step {s s' : TLoop} : TlReach k ce cfg env s → TlStep k ce cfg env s s' → TlReach k ce cfg env s'

end Athenz.Spec
