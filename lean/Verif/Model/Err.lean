import Verif.Go.Str

/-! # Errors and results -/

namespace Athenz

/-- errors.go:26-52, policy/error.go:19-42, role/error.go:19-27, jwk/error.go:19-24, pubkey/error.go:19-27, internal/url/error.go:5-11.
Error values.  `errors.Wrap` keeps the cause, so wrapping is dropped; the constructors name the causes. -/
inductive Err where
  /-- errors.go:46 -/
  | invalidParameters
  /-- errors.go:49 -/
  | invalidCredentials
  /-- role/error.go:23 -/
  | roleTokenInvalid
  /-- role/error.go:26 -/
  | roleTokenExpired
  /-- policy/error.go:29 -/
  | noMatch
  /-- policy/error.go:32 -/
  | invalidPolicyResource
  /-- policy/error.go:35 -/
  | denyByPolicy
  /-- policy/error.go:41 -/
  | fetchPolicy
  /-- pubkey/error.go -/
  | fetchAthenzPubkey
  /-- internal/url/error.go -/
  | emptyAthenzJwksURL
  /-- internal/url/error.go -/
  | unsupportedScheme
  /-- `ctx.Err()` -/
  | ctx
  /-- `strconv`'s syntax and range errors -/
  | parseInt
  /-- an error made on the spot with `errors.New`/`fmt.Errorf`, or returned by a library; the text only tells which -/
  | other (what : String)
deriving DecidableEq, Repr

/-- policy/fetcher.go:113, policy/signed_policy.go:38 and others.  What a Go call can do: return a value, return an error, or panic (nil
dereference, failed type assertion). -/
inductive Res (α : Type) where
  | ok (a : α)
  | err (e : Err)
  | panic
deriving DecidableEq, Repr

namespace Res

/-- policy/fetcher.go:125-136 and others, `if err != nil { return … }`. -/
def bind {α β : Type} (x : Res α) (f : α → Res β) : Res β :=
  match x with
  | .ok a => f a
  | .err e => .err e
  | .panic => .panic

instance : Monad Res where
  pure := .ok
  bind := Res.bind

end Res

end Athenz
