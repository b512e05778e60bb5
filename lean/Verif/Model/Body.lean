import Verif.Model.Pubkeyd
import Verif.Model.Client

/-! # policy/fetcher.go, pubkey/daemon.go, client/exp_rt.go: what is done with the bodies of responses -/

namespace Athenz

/-- policy/fetcher.go:187, pubkey/daemon.go:271, client/exp_rt.go:85.  The body of a response: the bytes not yet read, whether a read behind
them fails (the connection broke, the context ended) instead of reporting the end, and how many times `Close` was called. -/
structure Body where
  left : Str
  broken : Bool
  closes : Nat
deriving DecidableEq, Repr

/-- policy/fetcher.go:99, pubkey/daemon.go:251, client/exp_rt.go:64.  A body as `Do` gives it. -/
def Body.fresh (data : Str) (broken : Bool) : Body := ⟨data, broken, 0⟩

/-- policy/fetcher.go:188, pubkey/daemon.go:276, client/exp_rt.go:85.  `io.Copy(ioutil.Discard, b)`; `false` = it returned an error.  A
closed body cannot be read. -/
def Body.drain (b : Body) : Body × Bool :=
  if 0 < b.closes then (b, false) else ({ b with left := [] }, !b.broken)

/-- policy/fetcher.go:193, pubkey/daemon.go:279, client/exp_rt.go:86.  `Close`; its error is only logged or ignored, it is not modelled. -/
def Body.close (b : Body) : Body := { b with closes := b.closes + 1 }

/-- policy/fetcher.go:125, pubkey/daemon.go:271.  `json.Decoder.Decode` takes `n` bytes: at least those of the value, and what it buffers. -/
def Body.taken (b : Body) (n : Nat) : Body := { b with left := b.left.drop n }

/-- policy/fetcher.go:185-198 `flushAndClose`; `true` = it returned nil, apart from the error of `Close`. -/
def flushAndClose : Option Body → Option Body × Bool
  | none => (none, true)
  | some b =>
    match b.drain with
    | (b', false) => (some b', false)
    | (b', true) => (some b'.close, true)

/-- policy/fetcher.go:99-151.  `Fetch` from the response on: its outcome, and the body when it returns (or panics: the deferred function of
lines 105-109 runs all the same).  `net/http` promises a body that is not nil. -/
def fetchExchange (cfg : FetchCfg) (tp : Option Tagged) (keys : KeyProvider) (now : Int) (status : Nat) (eTag : Str) (b : Body) (n : Nat) :
    (Res SignedPolicy × Option Tagged) × Option Body :=
  let b' := if status = 304 then b else if status ≠ 200 then b else b.taken n
  (fetchAnswer cfg tp keys now (.answer status eTag b.left), (flushAndClose (some b')).1)

/-- pubkey/daemon.go:251-292.  `fetchPubKeyEntries` from the response on: the body when it returns, or panics at line 259. -/
def pubkeyExchange (cfg : PkCfg) (status : Nat) (b : Body) (n : Nat) : Body :=
  if status = 304 then b                                                    -- lines 258-262
  else if status ≠ 200 then b                                               -- lines 265-268
  else match cfg.decode b.left with
    | none => b.taken n                                                     -- lines 271-274
    | some _ => ((b.taken n).drain.1).close                                 -- lines 276-281

/-- pubkey/daemon.go:153-292.  The bodies that the daemon got during a schedule, in the state in which it left them.  `io k` says of the body
number `k` whether it breaks and how many bytes the decoder takes. -/
def pkBodies (cfg : PkCfg) (io : Nat → Bool × Nat) : Nat → List PkAct → List Body
  | _, [] => []
  | k, .answer _ (.answer status _ body) _ :: as =>
    pubkeyExchange cfg status (.fresh body (io k).1) (io k).2 :: pkBodies cfg io (k + 1) as
  | k, _ :: as => pkBodies cfg io k as

/-- policy/fetcher.go:76-175.  The bodies that a fetcher got during a schedule that begins in `s`, in the state in which it left them. -/
def fBodies (cfg : FetchCfg) (io : Nat → Bool × Nat) : Nat → FState → List FAct → List (Option Body)
  | _, _, [] => []
  | k, s, a :: as =>
    match fStep cfg s a with
    | none => []
    | some s' =>
      match a with
      | .answer j (.answer status eTag body) =>
        let tp := match s.calls[j]? with | some ⟨_, .sent _ tp⟩ => tp | _ => none
        (fetchExchange cfg tp s.keys s.now status eTag (.fresh body (io k).1) (io k).2).2 :: fBodies cfg io (k + 1) s' as
      | _ => fBodies cfg io k s' as

/-- client/exp_rt.go:63-88.  The bodies that the loop got from the inner transport, with the number of the call; the last one belongs to the
response that is returned, if one is returned. -/
def rtBodies (cfg : RtCfg) (env : Nat → Attempt) (limit : Int) (io : Nat → Bool) : Nat → Nat → List (Nat × Body)
  | 0, _ => []
  | fuel + 1, cnt =>
    match env cnt with
    | .fail temporary _ now =>
      if temporary = false then []
      else if canRetry now (cfg.dur cnt) limit = false then []
      else rtBodies cfg env limit io fuel (cnt + 1)
    | .resp status body =>
      if retryable status then (cnt, .fresh body (io cnt)) :: rtBodies cfg env limit io fuel (cnt + 1)   -- lines 80-82
      else [(cnt, ((Body.fresh body (io cnt)).drain.1).close)]                                           -- lines 85-87

end Athenz
