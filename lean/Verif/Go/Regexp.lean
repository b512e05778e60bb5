import Verif.Go.Str

/-!
# A fragment of Go's `regexp`

Enough of RE2 syntax to compile every pattern that `patternFromGlob` produces: literals, escaped punctuation, `.`, `*` after a
literal or `.`, `^` and `$`.  `compile` returns `none` for a syntax error and for every construct outside the fragment.
-/

namespace Athenz

namespace Regexp

/-- A single-rune matcher. -/
inductive Atom where
  /-- `.` without the `s` flag: any rune but newline -/
  | any
  /-- a literal rune -/
  | lit (c : Char)
deriving DecidableEq, Repr

/-- One element of a concatenation. -/
inductive Item where
  /-- `^` without the `m` flag: at the beginning of the text -/
  | bol
  /-- `$` without the `m` flag: at the end of the text -/
  | eol
  | one (a : Atom)
  | star (a : Atom)
deriving DecidableEq, Repr

/-- The element just read, not yet emitted because a repetition operator may follow. -/
inductive Prev where
  | none
  | atom (a : Atom)
  | star (a : Atom)
deriving DecidableEq, Repr

def Prev.emit : Prev → List Item
  | .none => []
  | .atom a => [.one a]
  | .star a => [.star a]

/-- A backslash before an ASCII character that is neither letter nor digit makes it literal
(`regexp/syntax/parse.go`, `parseEscape`). -/
def isPunct (c : Char) : Bool := decide (c.toNat < 128) && !c.isAlphanum

/-- Parser state machine: `esc` says that a backslash was just read. -/
def parse : Bool → Prev → Str → Option (List Item)
  | true, _, [] => .none
  | false, prev, [] => some prev.emit
  | true, prev, c :: cs =>
    if isPunct c then (parse false (.atom (.lit c)) cs).map (prev.emit ++ ·) else .none
  | false, prev, c :: cs =>
    if c = '\\' then parse true prev cs
    else if c = '*' then
      match prev with
      | .atom a => parse false (.star a) cs
      | _ => .none
    else if c = '^' then (parse false .none cs).map (prev.emit ++ .bol :: ·)
    else if c = '$' then (parse false .none cs).map (prev.emit ++ .eol :: ·)
    else if c = '.' then (parse false (.atom .any) cs).map (prev.emit ++ ·)
    else if c = '+' ∨ c = '?' ∨ c = '|' ∨ c = '(' ∨ c = ')' ∨ c = '[' ∨ c = '{' then .none
    else (parse false (.atom (.lit c)) cs).map (prev.emit ++ ·)

/-- Does the atom accept the rune? -/
def Atom.ok : Atom → Char → Bool
  | .any, c => c != '\n'
  | .lit d, c => c == d

/-- Match `a*` and then continue with `k`; the flag says whether the position is the beginning of the text. -/
def starLoop (a : Atom) (k : Bool → Str → Bool) : Bool → Str → Bool
  | b, [] => k b []
  | b, c :: cs => k b (c :: cs) || (a.ok c && starLoop a k false cs)

/-- Match a concatenation at the current position. -/
def matchHere : List Item → Bool → Str → Bool
  | [], _, _ => true
  | .bol :: r, b, s => b && matchHere r b s
  | .eol :: r, b, s => s.isEmpty && matchHere r b s
  | .one a :: r, _, s => match s with
    | [] => false
    | c :: cs => a.ok c && matchHere r false cs
  | .star a :: r, b, s => starLoop a (matchHere r) b s

/-- Try all starting positions. -/
def search (m : Bool → Str → Bool) : Bool → Str → Bool
  | b, [] => m b []
  | b, c :: cs => m b (c :: cs) || search m false cs

end Regexp

/-- A compiled `*regexp.Regexp`: its source text and its program. -/
structure Regexp where
  src : Str
  prog : List Regexp.Item
deriving DecidableEq, Repr

namespace Regexp

/-- `regexp.Compile` on the fragment. -/
def compile (p : Str) : Option Regexp := (parse false .none p).map fun prog => ⟨p, prog⟩

/-- `(*Regexp).MatchString`: unanchored search. -/
def matchString (r : Regexp) (s : Str) : Bool := search (matchHere r.prog) true s

end Regexp

end Athenz
