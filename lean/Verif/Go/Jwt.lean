import Verif.Go.Num
import Verif.Model.Err

/-!
# github.com/golang-jwt/jwt/v4 v4.4.1, the part used by access/processor.go

Recalled from the library source, which is not part of /repo.  Base64, JSON decoding and the cryptographic checks are parameters.
-/

namespace Athenz

/-- A value of an `interface{}` filled by encoding/json: strings and arrays are told apart, everything else is `other`. -/
inductive Json
  | str (s : Str)
  | arr (l : List Json)
  | other

/-- What kind of Go value a key is; a method accepts only keys of its own kind. -/
inductive KeyKind
  | rsaPublic | ecdsaPublic | ed25519Public | bytes | otherKey
deriving DecidableEq, Repr

/-- A verification key. -/
structure JKey where
  kind : KeyKind
  key : Str
deriving DecidableEq, Repr

/-- access/claim.go:60-69 `OAuth2AccessTokenClaim` with access/claim.go:26-28 `BaseClaim` and the embedded `jwt.StandardClaims`. -/
structure Claims where
  authTime : Int
  version : Int
  clientID : Str
  userID : Str
  proxyPrincipal : Str
  scope : List Str
  confirm : Str → Option Json
  audience : Str
  expiresAt : Int
  id : Str
  issuedAt : Int
  issuer : Str
  notBefore : Int
  subject : Str

/-- The parameters: decoding of the first and of the second segment (base64 and JSON), and the cryptographic check of an algorithm. -/
structure JwtLib where
  header : Str → Option (Str → Option Json)
  claims : Str → Option Claims
  crypto : (alg text sig : Str) → JKey → Bool

/-- `GetSigningMethod`: the registered algorithms and the kind of key each accepts.  `none` accepts only a Go constant that no key set
contains. -/
def signingMethod (alg : Str) : Option (Option KeyKind) :=
  if alg ∈ ["RS256".toList, "RS384".toList, "RS512".toList, "PS256".toList, "PS384".toList, "PS512".toList] then some (some .rsaPublic)
  else if alg ∈ ["ES256".toList, "ES384".toList, "ES512".toList] then some (some .ecdsaPublic)
  else if alg ∈ ["HS256".toList, "HS384".toList, "HS512".toList] then some (some .bytes)
  else if alg = "EdDSA".toList then some (some .ed25519Public)
  else if alg = "none".toList then some none
  else none

/-- `SigningMethod.Verify`. -/
def JwtLib.verify (L : JwtLib) (alg : Str) (kind : Option KeyKind) (text sig : Str) (k : JKey) : Bool :=
  decide (kind = some k.kind) && L.crypto alg text sig k

/-- claims.go `verifyExp` for `VerifyExpiresAt(now, true)`: the zero value means absent. -/
def verifyExpiresAt (now exp : Int) : Bool := !(exp == 0) && (GoTime.ofUnix now).before (GoTime.ofUnix exp)

/-- claims.go `verifyIat`, `verifyNbf` for `req = false`: the zero value means absent. -/
def verifyNotFuture (now t : Int) : Bool :=
  t == 0 || (GoTime.ofUnix now).after (GoTime.ofUnix t) || (GoTime.ofUnix now).equal (GoTime.ofUnix t)

/-- `Parser.ParseWithClaims`: three segments, header, claims, algorithm; then the key function; then the validity of the claims and the
signature.  All failures are one error. -/
def JwtLib.parse (L : JwtLib) (valid : Claims → Bool) (keyFunc : (Str → Option Json) → Option JKey) (tok : Str) : Option Claims :=
  match Str.split '.' tok with
  | [h, p, s] =>
    match L.header h, L.claims p with
    | some hdr, some c =>
      match hdr "alg".toList with
      | some (.str alg) =>
        match signingMethod alg with
        | some kind =>
          match keyFunc hdr with
          | some k => if valid c && L.verify alg kind (h ++ '.' :: p) s k then some c else none
          | none => none
        | none => none
      | _ => none
    | _, _ => none
  | _ => none

end Athenz
