import Verif.Spec.Role

/-! # What can be wrong with a role token, and the error that says so -/

namespace Athenz.Spec

/-- `ps` are the pieces of the unsigned part of the token between the semicolons. -/
def TokenPieces (tok : Str) (ps : List Str) : Prop := ∃ u, UnsignedPart tok u ∧ ps ≠ [] ∧ u = Str.join ';' ps ∧ ∀ w ∈ ps, ';' ∉ w

/-- The last expiry among the pairs has not passed. -/
def PairsValid (now : GoTime) (kvs : List (Str × Str)) : Prop := ∃ v i, lastValue "e" kvs = some v ∧ Numeral v i ∧ NotExpired now i

/-- What is wrong with a role token. -/
inductive RoleFault (keys : KeyProvider) (now : GoTime) (tok : Str) : Err → Prop
  | noMarker : (∀ u, ¬ UnsignedPart tok u) → RoleFault keys now tok .roleTokenInvalid
  | noEquals (ps : List Str) (w : Str) : TokenPieces tok ps → w ∈ ps → '=' ∉ w → RoleFault keys now tok .roleTokenInvalid
  | number (ps : List Str) (k v : Str) : TokenPieces tok ps → (k ++ '=' :: v) ∈ ps → k = "e".toList ∨ k = "t".toList → (∀ i, ¬ Numeral v i) →
      RoleFault keys now tok .parseInt
  | expired (u sig : Str) (kvs : List (Str × Str)) : RoleText tok u sig kvs → ¬ PairsValid now kvs → RoleFault keys now tok .roleTokenExpired
  | noKey (u sig : Str) (kvs : List (Str × Str)) : RoleText tok u sig kvs → PairsValid now kvs → keys .zts ((lastValue "k" kvs).getD []) = none →
      RoleFault keys now tok .roleTokenInvalid
  | signature (u sig : Str) (kvs : List (Str × Str)) (ver : Str → Str → Bool) : RoleText tok u sig kvs → PairsValid now kvs →
      keys .zts ((lastValue "k" kvs).getD []) = some ver → ver u (usedSignature kvs sig) = false → RoleFault keys now tok (.other "signature")

end Athenz.Spec
