import Verif.Go.Str

/-! # What an Athenz glob means -/

namespace Athenz.Spec

/-- `Glob p s`: the whole text `s` matches the glob `p`.  `*` is any run of non-newline characters, `?` is one non-newline
character, everything else stands for itself. -/
inductive Glob : Str → Str → Prop where
  | nil : Glob [] []
  | star {p s t : Str} (h : ∀ c ∈ s, c ≠ '\n') (ht : Glob p t) : Glob ('*' :: p) (s ++ t)
  | quest {p t : Str} {c : Char} (h : c ≠ '\n') (ht : Glob p t) : Glob ('?' :: p) (c :: t)
  | lit {p t : Str} {c : Char} (h1 : c ≠ '*') (h2 : c ≠ '?') (ht : Glob p t) : Glob (c :: p) (c :: t)

end Athenz.Spec
