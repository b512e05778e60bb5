import Verif.Go.Jwt

/-! # access/processor.go, access/claim.go -/

namespace Athenz

/-- access/processor.go:162-184, authorizerd.go:371-376, 522-529.  The parts of an `x509.Certificate` that the program reads.  `uris` are
the texts of the URIs (`(*url.URL).String`), none of them nil. -/
structure Cert where
  raw : Str
  subjectCN : Str
  issuerCN : Str
  notBefore : GoTime
  uris : List Str
deriving DecidableEq, Repr

/-- jwk/daemon.go:49-50 `Provider`; `none` is the nil key. -/
abbrev JwkProvider := Str → Str → Option JKey

/-- access/processor.go:49-58 `atp`; `thumb` is the base64 text of the SHA-256 sum. -/
structure AtpCfg where
  jwkp : JwkProvider
  mtlsBound : Bool
  goBack : Int
  offset : Int
  verifyClientID : Bool
  authorized : Str → List Str
  lib : JwtLib
  thumb : Str → Str

/-- access/claim.go:31-56 `BaseClaim.Valid`; `now` is what `jwt.TimeFunc` answers. -/
def claimsValid (now : GoTime) (c : Claims) : Bool :=
  verifyExpiresAt now.unix c.expiresAt && verifyNotFuture now.unix c.issuedAt && verifyNotFuture now.unix c.notBefore

/-- access/processor.go:217-235.  The results of `getAsStringFromHeader`. -/
inductive HeaderValue
  | value (s : Str)
  | missing
  | notString

/-- access/processor.go:217-235 `getAsStringFromHeader`; the header pointer is never nil. -/
def getAsStringFromHeader (hdr : Str → Option Json) (key : Str) : HeaderValue :=
  match hdr key with
  | none => .missing
  | some (.str s) => .value s
  | some _ => .notString

/-- access/processor.go:192-213 `keyFunc`. -/
def keyFunc (jwkp : JwkProvider) (hdr : Str → Option Json) : Option JKey :=
  match getAsStringFromHeader hdr "kid".toList with
  | .value kid =>
    match getAsStringFromHeader hdr "jku".toList with
    | .notString => none
    | .missing => jwkp kid []
    | .value url => jwkp kid url
  | _ => none

/-- access/processor.go:101-119 `validateClientID`; true means no error. -/
def validateClientID (cfg : AtpCfg) (cert : Option Cert) (c : Claims) : Bool :=
  match cert with
  | none => false
  | some x => (cfg.authorized x.subjectCN).any fun v => v == c.clientID

/-- access/processor.go:160-189 `validateCertPrincipal`; true means no error. -/
def validateCertPrincipal (cfg : AtpCfg) (x : Cert) (c : Claims) : Bool :=
  if cfg.offset = 0 then false
  else if x.subjectCN = [] then false
  else if c.clientID = [] then false
  else if x.subjectCN ≠ c.clientID then false
  else
    let issued := wrap64 (x.notBefore.unix + cfg.goBack)
    if issued < c.issuedAt then false
    else if issued > wrap64 (c.issuedAt + cfg.offset) then false
    else true

/-- access/processor.go:144-149, the set of proxy principals. -/
def proxySet : List Json → List Str
  | [] => []
  | .str s :: l => s :: proxySet l
  | _ :: l => proxySet l

/-- access/processor.go:121-158 `validateCertificateBoundAccessToken`; true means no error. -/
def validateCertBound (cfg : AtpCfg) (cert : Option Cert) (c : Claims) : Bool :=
  match cert with
  | none => false
  | some x =>
    (match c.confirm "x5t#S256".toList with
      | some (.str t) => cfg.thumb x.raw == t || validateCertPrincipal cfg x c
      | _ => false) ||
    (match c.confirm "proxy-principals#spiffe".toList with
      | some (.arr l) => x.uris.any fun u => (proxySet l).contains u
      | _ => false)

/-- access/processor.go:71-99 `ParseAndValidateOAuth2AccessToken`.  All failures are one error. -/
def parseAndValidateAccessToken (cfg : AtpCfg) (now : GoTime) (tok : Str) (cert : Option Cert) : Res Claims :=
  match cfg.lib.parse (claimsValid now) (keyFunc cfg.jwkp) tok with
  | none => .err (.other "access token")
  | some c =>
    if cfg.verifyClientID && !validateClientID cfg cert c then .err (.other "access token")
    else if cfg.mtlsBound && !validateCertBound cfg cert c then .err (.other "access token")
    else .ok c

end Athenz
