import Verif.Model.Timing
import Verif.Model.Fetcher

/-! # Specification for C93: the steps of one call of `FetchWithRetry`, with the time that they take -/

namespace Athenz.Spec

/-- What becomes of the request with this number, from 0, that is sent at this time: how long it takes, and how it ends. -/
abbrev Server := Nat → Int → Nat × HttpResult

/-- A `Fetch` with this outcome returns a policy. -/
def Gets (cfg : FetchCfg) (cache : Option Tagged) (keys : KeyProvider) (now : Int) (r : HttpResult) : Bool :=
  match (fetchAnswer cfg cache keys now r).1 with
  | .ok _ => true
  | _ => false

/-- What the server is for somebody who only looks at times and at success. -/
def timesOf (cfg : FetchCfg) (cache : Option Tagged) (keys : KeyProvider) (srv : Server) : TServer :=
  fun i t => ⟨(srv i t).1, Gets cfg cache keys (t + (srv i t).1) (srv i t).2⟩

/-- What call `j` does that has at most `fuel` requests left, of which the next has number `i`: it sends a request, waits for the answer, returns
if it got a policy, and else pauses and goes on; in the end it gives up. -/
def callSteps (cfg : FetchCfg) (cache : Option Tagged) (keys : KeyProvider) (delay : Int) (srv : Server) (j : Nat) : Nat → Nat → Int → List FAct
  | 0, _, _ => [.giveUp j]
  | fuel + 1, i, now =>
    let d := (srv i now).1
    let r := (srv i now).2
    [.send j, .tick d, .answer j r] ++
      if Gets cfg cache keys (now + d) r then []
      else .tick delay.toNat :: callSteps cfg cache keys delay srv j fuel (i + 1) (now + d + delay.toNat)

end Athenz.Spec
