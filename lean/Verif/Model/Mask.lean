import Verif.Model.Authority

/-! # mask.go and internal/url/util.go -/

namespace Athenz

/-- mask.go:21-23 `maskCacheKey`: `key[len(tok):]`, which panics if the key is shorter. -/
def maskCacheKey (key tok : Str) : Res Str := if tok.length ≤ key.length then .ok (key.drop tok.length) else .panic

/-- mask.go:32. -/
def roleMaskMessage : Str := "mask token error: invalid role token".toList

/-- mask.go:38. -/
def accessMaskMessage : Str := "mask token error: invalid access token".toList

/-- mask.go:25-42 `maskToken`.  The default case is not reached: authorizerd.go:118-125 has no other modes that calls use. -/
def maskToken (m : Mode) (tok : Str) : Str :=
  match m with
  | .roleToken =>
    match Str.cut ";s=".toList tok with
    | some (a, _) => if a.length > 0 then a else roleMaskMessage
    | none => roleMaskMessage
  | .accessToken =>
    match Str.cutLast '.' tok with
    | some (a, _) => if a.length > 0 then a else accessMaskMessage
    | none => accessMaskMessage

/-- internal/url/util.go:33-39 `TrimHTTPScheme`: the expression `^(http|https)://` is replaced by nothing.  It is anchored, so that there is
at most one match. -/
def trimHTTPScheme (u : Str) : Str :=
  if Str.hasPrefix u "http://".toList then u.drop 7
  else if Str.hasPrefix u "https://".toList then u.drop 8
  else u

/-- internal/url/util.go:25-29.  The class `[a-zA-Z]`. -/
def isLetter (c : Char) : Bool := ('a' ≤ c && c ≤ 'z') || ('A' ≤ c && c ≤ 'Z')

/-- The class `[a-zA-Z0-9+-.]` of internal/url/util.go:44; `+-.` is the range from plus to full stop, which has the comma in it. -/
def isSchemeChar (c : Char) : Bool := isLetter c || ('0' ≤ c && c ≤ '9') || ('+' ≤ c && c ≤ '.')

/-- internal/url/util.go:42-48 `HasScheme`: `^[a-zA-Z][a-zA-Z0-9+-.]*://`.  The colon is not in the class, so that there is one way to match
the repetition. -/
def hasScheme (u : Str) : Bool :=
  match u with
  | [] => false
  | c :: cs => isLetter c && Str.hasPrefix (cs.dropWhile isSchemeChar) "://".toList

/-- option.go:59-68, policy/option.go:53-62 and pubkey/option.go:42-51 `WithAthenzURL`: the URL stored. -/
def athenzURL (url : Str) : Res Str :=
  let u := trimHTTPScheme url
  if hasScheme u then .err .unsupportedScheme else .ok u

/-- jwk/option.go:41-53 `WithAthenzJwksURL`: the URL stored. -/
def athenzJwksURL (url : Str) : Res Str :=
  if url = [] then .err .emptyAthenzJwksURL
  else
    let u := trimHTTPScheme url
    if hasScheme u then .err .unsupportedScheme else .ok ("https://".toList ++ u ++ "/oauth2/keys?rfc=true".toList)

/-- policy/fetcher.go:79. -/
def policyURL (u domain : Str) : Str := "https://".toList ++ u ++ "/domain/".toList ++ domain ++ "/signed_policy_data".toList

/-- pubkey/daemon.go:234; `env` is "zts" or "zms". -/
def pubkeyURL (u sysAuthDomain env : Str) : Str := "https://".toList ++ u ++ "/domain/".toList ++ sysAuthDomain ++ "/service/".toList ++ env

end Athenz
