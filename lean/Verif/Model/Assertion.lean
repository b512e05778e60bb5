import Verif.Go.Regexp
import Verif.Model.Err

/-! # policy/assertion.go -/

namespace Athenz

/-- policy/assertion.go:75-91 `isRegexMetaCharacter`. -/
def isRegexMetaCharacter (c : Char) : Bool :=
  c == '^' || c == '$' || c == '.' || c == '|' || c == '[' || c == '+' || c == '\\' || c == '(' || c == ')' || c == '{'

/-- policy/assertion.go:96-107, the loop body of `patternFromGlob`. -/
def globRune (c : Char) : Str :=
  if c = '*' then ['.', '*']
  else if c = '?' then ['.']
  else if isRegexMetaCharacter c then ['\\', c]
  else [c]

/-- policy/assertion.go:93-110 `patternFromGlob`. -/
def patternFromGlob (glob : Str) : Str := '^' :: (glob.flatMap globRune ++ ['$'])

/-- policy/assertion.go:27-37 `Assertion`.  `ActionRegexpString`/`ResourceRegexpString` are the `src` of the expressions. -/
structure Assertion where
  resourceDomain : Str
  actionRegexp : Regexp
  resourceRegexp : Regexp
  /-- `none` = allow -/
  effect : Option Err
  action : Str
  resource : Str
deriving DecidableEq, Repr

/-- policy/assertion.go:40-73 `NewAssertion`. -/
def newAssertion (U : CaseFns) (action resource effect : Str) : Res Assertion :=
  match Str.cut [':'] resource with
  | none => .err .invalidPolicyResource
  | some (dom, res) =>
    match Regexp.compile (patternFromGlob (U.toLower action)) with
    | none => .err (.other "regexp")
    | some ar =>
      match Regexp.compile (patternFromGlob (U.toLower res)) with
      | none => .err (.other "regexp")
      | some rr =>
        .ok { resourceDomain := dom, actionRegexp := ar, resourceRegexp := rr,
              effect := if U.equalFold "deny".toList effect then some .denyByPolicy else none,
              action := action, resource := res }

/-- policy/daemon.go:261-263, the match condition of `CheckPolicyRoles`. -/
def Assertion.matches (U : CaseFns) (a : Assertion) (domain action resource : Str) : Bool :=
  U.equalFold a.resourceDomain domain &&
  a.actionRegexp.matchString (U.toLower action) &&
  a.resourceRegexp.matchString (U.toLower resource)

end Athenz
