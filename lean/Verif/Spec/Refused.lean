import Verif.Spec.Stale

/-! # Specification for C99: why a call is refused -/

namespace Athenz.Spec

/-- The token of the request is not accepted at `t` under these keys, with this error if there are any keys. -/
def TokenFails (cfg : AuthCfg) (t : Int) (keys : Option KeyProvider) (jwkp : Option JwkProvider) (q : AReq) (e : Err) : Prop :=
  match q.mode with
  | .roleToken => ∀ ks, keys = some ks → parseAndValidateRoleToken ks (clock t) q.tok = .err e
  | .accessToken => ∀ ks, jwkp = some ks → parseAndValidateAccessToken { cfg.access with jwkp := ks } (clock t) q.tok q.cert = .err e

/-- Call `i` found, between its beginning and `now`, that the token says `p`. -/
def SawToken (cfg : AuthCfg) (log : List AEvent) (now : Int) (i : Nat) (q : AReq) (p : Principal) : Prop :=
  ∃ tb tv keys jwkp, .begun i tb ∈ log ∧ tb ≤ tv ∧ tv ≤ now ∧ .validated i tv keys jwkp ∈ log ∧ TokenSays cfg tv keys jwkp q p

/-- The reasons, apart from the policies, for which call `i` for the request `q` may be refused with `e`: there is nothing to ask for, the token is
not valid at the moment when the call looks, or the translator refuses. -/
inductive RefusedBefore (cfg : AuthCfg) (log : List AEvent) (now : Int) (i : Nat) (q : AReq) (e : Err) : Prop
  | empty (hp : cfg.disablePolicyd = false) (hq : q.act = [] ∨ q.res = []) (he : e = .invalidParameters)
  | token (tb tv : Int) (keys : Option KeyProvider) (jwkp : Option JwkProvider) (hb : .begun i tb ∈ log) (h1 : tb ≤ tv) (h2 : tv ≤ now)
      (hv : .validated i tv keys jwkp ∈ log) (ht : TokenFails cfg tv keys jwkp q e)
  | translator (p : Principal) (seed : Nat) (t : Nat → Str → Str → Str → Str → Res (Str × Str)) (hp : cfg.disablePolicyd = false)
      (ht : SawToken cfg log now i q p) (hs : .translated i seed ∈ log) (hc : cfg.translator = some t)
      (he : t seed p.domain q.act q.res q.query = .err e)

/-- The policies are the reason: the check that call `i` made, for the domain and the roles of its token, ended with `e`. -/
def RefusedByPolicy (cfg : AuthCfg) (log : List AEvent) (now : Int) (i : Nat) (q : AReq) (e : Err) : Prop :=
  ∃ p seed act res view sched, cfg.disablePolicyd = false ∧ SawToken cfg log now i q p ∧ .translated i seed ∈ log ∧
    Translates cfg seed p.domain q act res ∧ .checked i view sched ∈ log ∧
    CheckReturns cfg.U ⟨p.domain, p.roles, act, cfg.resourcePrefix ++ res⟩ view sched (.err e)

end Athenz.Spec
