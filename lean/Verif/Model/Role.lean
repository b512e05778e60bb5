import Verif.Go.Num
import Verif.Model.Fetcher

/-! # role/token.go, role/processor.go -/

namespace Athenz

/-- role/token.go:29-44 `Token`. -/
structure RoleToken where
  domain : Str
  roles : List Str
  principal : Str
  timeStamp : GoTime
  expiryTime : GoTime
  keyId : Str
  signature : Str
  unsignedToken : Str
deriving DecidableEq, Repr

/-- role/token.go:47-84 `SetParams`. -/
def RoleToken.setParams (r : RoleToken) (key value : Str) : Res RoleToken :=
  if key = "d".toList then .ok { r with domain := value }
  else if key = "e".toList then
    match parseInt64 value with
    | none => .err .parseInt
    | some i => .ok { r with expiryTime := GoTime.ofUnix i }
  else if key = "k".toList then .ok { r with keyId := value }
  else if key = "p".toList then .ok { r with principal := value }
  else if key = "r".toList then .ok { r with roles := Str.split ',' value }
  else if key = "s".toList then .ok { r with signature := value }
  else if key = "t".toList then
    match parseInt64 value with
    | none => .err .parseInt
    | some i => .ok { r with timeStamp := GoTime.ofUnix i }
  else .ok r

/-- role/processor.go:70-78, the loop over the pairs. -/
def setPairs (rt : RoleToken) : List Str → Res RoleToken
  | [] => .ok rt
  | pair :: rest =>
    match Str.cut ['='] pair with
    | none => .err .roleTokenInvalid
    | some (k, v) =>
      match rt.setParams k v with
      | .ok rt' => setPairs rt' rest
      | .err e => .err e
      | .panic => .panic

/-- role/processor.go:59-81 `parseToken`. -/
def parseRoleToken (tok : Str) : Res RoleToken :=
  match Str.cut ";s=".toList tok with
  | none => .err .roleTokenInvalid
  | some (unsigned, sig) =>
    setPairs { domain := [], roles := [], principal := [], timeStamp := GoTime.zero, expiryTime := GoTime.zero, keyId := [],
               signature := sig, unsignedToken := unsigned } (Str.split ';' unsigned)

/-- role/token.go:87-89 `Expired`; `now` is what `fastime.Now()` answers. -/
def RoleToken.expired (r : RoleToken) (now : GoTime) : Bool := now.after r.expiryTime

/-- role/processor.go:83-92 `validate`. -/
def validateRoleToken (keys : KeyProvider) (now : GoTime) (rt : RoleToken) : Res Unit :=
  if rt.expired now then .err .roleTokenExpired
  else match keys .zts rt.keyId with
    | none => .err .roleTokenInvalid
    | some ver => if ver rt.unsignedToken rt.signature then .ok () else .err (.other "signature")

/-- role/processor.go:47-57 `ParseAndValidateRoleToken`. -/
def parseAndValidateRoleToken (keys : KeyProvider) (now : GoTime) (tok : Str) : Res RoleToken :=
  match parseRoleToken tok with
  | .err e => .err e
  | .panic => .panic
  | .ok rt =>
    match validateRoleToken keys now rt with
    | .ok () => .ok rt
    | .err e => .err e
    | .panic => .panic

end Athenz
