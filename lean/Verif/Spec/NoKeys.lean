import Verif.Spec.Access

/-! # Tokens that ask for a key -/

namespace Athenz.Spec

/-- The header and the claims can be read, the algorithm is known, and the header says which key: a string `kid`, and a string `jku` or none. -/
def NamesKey (L : JwtLib) (tok : Str) : Prop :=
  ∃ h p s hdr c alg kid, Segments tok h p s ∧ L.header h = some hdr ∧ L.claims p = some c ∧ hdr "alg".toList = some (.str alg) ∧
    signingMethod alg ≠ none ∧ hdr "kid".toList = some (.str kid) ∧ (hdr "jku".toList = none ∨ ∃ url, hdr "jku".toList = some (.str url))

end Athenz.Spec
