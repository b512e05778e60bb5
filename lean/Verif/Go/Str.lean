/-!
# Go strings

A Go string is modelled as the list of its runes.  All separators that the repository splits at are ASCII, so
rune-wise and byte-wise splitting agree on valid UTF-8.
-/

namespace Athenz

/-- A Go `string`, as a list of runes. -/
abbrev Str := List Char

namespace Str

/-- `strings.SplitN(s, sep, 2)` for a non-empty `sep`: `some (before, after)` if `sep` occurs (Go: a slice of length 2),
`none` if it does not (Go: the slice `[s]`).  Also `strings.Index`, via the length of the first component. -/
def cut (sep : Str) : Str → Option (Str × Str)
  | [] => none
  | c :: cs =>
    if sep.isPrefixOf (c :: cs) then some ([], (c :: cs).drop sep.length)
    else (cut sep cs).map fun p => (c :: p.1, p.2)

/-- `strings.Split(s, sep)` for a one-rune separator. -/
def split (sep : Char) : Str → List Str
  | [] => [[]]
  | c :: cs =>
    if c = sep then [] :: split sep cs
    else match split sep cs with
      | [] => [[c]]          -- not reached: `split` never returns `[]`
      | w :: ws => (c :: w) :: ws

/-- `strings.HasPrefix`. -/
def hasPrefix (s p : Str) : Bool := p.isPrefixOf s

/-- `strings.HasSuffix`. -/
def hasSuffix (s p : Str) : Bool := p.isSuffixOf s

/-- `strings.TrimPrefix`. -/
def trimPrefix (s p : Str) : Str := if p.isPrefixOf s then s.drop p.length else s

/-- Worker of `replaceAll`: `skip` runes of an occurrence that was already replaced remain to be dropped. -/
def replaceGo (old new : Str) : Nat → Str → Str
  | _, [] => []
  | skip + 1, _ :: cs => replaceGo old new skip cs
  | 0, c :: cs =>
    if old.isPrefixOf (c :: cs) then new ++ replaceGo old new (old.length - 1) cs
    else c :: replaceGo old new 0 cs

/-- `strings.ReplaceAll(s, old, new)` for a non-empty `old`: non-overlapping occurrences from left to right. -/
def replaceAll (s old new : Str) : Str := replaceGo old new 0 s

/-- `strings.LastIndex(s, c)` for a one-rune separator, as the pair of what is before and after the last occurrence. -/
def cutLast (sep : Char) : Str → Option (Str × Str)
  | [] => none
  | c :: cs =>
    match cutLast sep cs with
    | some p => some (c :: p.1, p.2)
    | none => if c = sep then some ([], cs) else none

end Str

/-- The case functions of package `unicode` that `strings.ToLower` (`lower`, rune by rune) and `strings.EqualFold` (`fold`, a
canonical representative of the simple-folding orbit) are built on.  Theorems quantify over them. -/
structure CaseFns where
  lower : Char → Char
  fold : Char → Char

namespace CaseFns

/-- `strings.ToLower`. -/
def toLower (U : CaseFns) (s : Str) : Str := s.map U.lower

/-- `strings.EqualFold`. -/
def equalFold (U : CaseFns) (s t : Str) : Bool := s.map U.fold == t.map U.fold

end CaseFns

/-- ASCII case functions, used in the examples. -/
def asciiCase : CaseFns := ⟨Char.toLower, Char.toLower⟩

end Athenz
