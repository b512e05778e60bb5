import Verif.Model.System
import Verif.Spec.Authority
import Verif.Spec.Fetch
import Verif.Spec.Pubkey
import Verif.Spec.Policy

/-! # Specification: where a grant comes from -/

namespace Athenz
namespace Spec

/-- During `h` the service `e` answered a request of the public key daemon with the complete key list `es`. -/
def KeysServed (cfg : SysCfg) (h : List SysAct) (e : Env) (es : List (Option PubKeyEntry)) : Prop :=
  ∃ j x b o, SysAct.pk (.answer j (.answer 200 x b) o) ∈ h ∧ jobEnv j = e ∧ cfg.pk.decode b = some (some es) ∧ Complete cfg.pk es

/-- `ver` is the key that the service `e` published under the id during `h`. -/
def TrustedKey (cfg : SysCfg) (h : List SysAct) (e : Env) (id : Str) (ver : SigVerifier) : Prop :=
  ∃ es, KeysServed cfg h e es ∧ published cfg.pk es id = some ver

/-- During `h` the policy `sp` came as the answer to a request for the policy of `dom`.  At that moment it had not expired, and the ZTS key
and the ZMS key which it names, both published before, verified its two signatures. -/
def PolicyReceived (cfg : SysCfg) (s0 : Sys) (h : List SysAct) (dom : Str) (sp : SignedPolicy) : Prop :=
  ∃ pre j eTag body post s, h = pre ++ SysAct.fetcher dom (.answer j (.answer 200 eTag body)) :: post ∧ sysRun cfg s0 pre = some s ∧
    cfg.fetch.codec.decode body = some (some sp) ∧
    ∃ d e, sp.data = some d ∧ d.expires = some e ∧ s.auth.now < e ∧
      (∃ ver text, TrustedKey cfg pre .zts sp.keyId ver ∧ cfg.fetch.codec.marshalSigned d = some text ∧ ver text sp.signature = true) ∧
      ∃ ver text, TrustedKey cfg pre .zms d.zmsKeyId ver ∧ cfg.fetch.codec.marshalPolicy d.policyData = some text ∧
        ver text d.zmsSignature = true

/-- `a` is an assertion of a policy received for `dom`. -/
def ReceivedAssertion (cfg : SysCfg) (s0 : Sys) (h : List SysAct) (dom : Str) (a : RawAssertion) : Prop :=
  ∃ sp d, PolicyReceived cfg s0 h dom sp ∧ PolicySays sp d ∧ a ∈ d.policies.flatten

/-- The URL is configured, and `k` is the first key with the id in a set that the JWK daemon got from it. -/
def TrustedJwk (cfg : SysCfg) (s : Sys) (url kid : Str) (k : JKey) : Prop :=
  ConfiguredURL cfg.jwk url ∧ ∃ j set, JwkEvent.fetched j url (some set) ∈ s.jwk.log ∧ KeyIn set kid k

/-- The token is signed with a trusted key: a role token with a published ZTS key, an access token with a key from a configured URL. -/
def SignedToken (cfg : SysCfg) (h : List SysAct) (s : Sys) (q : AReq) : Prop :=
  match q.mode with
  | .roleToken => ∃ unsigned sig kvs ver, RoleText q.tok unsigned sig kvs ∧
      TrustedKey cfg h .zts ((lastValue "k" kvs).getD []) ver ∧ ver unsigned (usedSignature kvs sig) = true
  | .accessToken => ∃ hd p sg hdr k kid url, Segments q.tok hd p sg ∧ cfg.auth.access.lib.header hd = some hdr ∧
      hdr "kid".toList = some (.str kid) ∧
      ((hdr "jku".toList = none ∧ url = cfg.jwk.athenzURL) ∨ ∃ u, hdr "jku".toList = some (.str u) ∧ url = lookupURL cfg.jwk u) ∧
      TrustedJwk cfg s url kid k ∧ Signed cfg.auth.access.lib hdr hd p sg k

/-- At some moment of `h` the token was valid, signed with a key trusted at that moment, and said what the principal reports. -/
def TokenAccepted (cfg : SysCfg) (s0 : Sys) (h : List SysAct) (q : AReq) (p : Principal) : Prop :=
  ∃ pre post s, h = pre ++ post ∧ sysRun cfg s0 pre = some s ∧ SignedToken cfg pre s q ∧
    TokenSays cfg.auth s.auth.now s.auth.keys s.auth.jwkp q p

/-- The authorized roles are roles of the principal, there is one, and for each one an assertion in a received policy allows the translated
action on the prefixed translated resource. -/
def PolicyGrants (cfg : SysCfg) (s0 : Sys) (h : List SysAct) (q : AReq) (p : Principal) : Prop :=
  p.authorizedRoles ≠ [] ∧ ∃ seed act res, Translates cfg.auth seed p.domain q act res ∧
    ∀ role ∈ p.authorizedRoles, role ∈ p.roles ∧ ∃ dom ∈ cfg.domains, ∃ a, ReceivedAssertion cfg s0 h dom a ∧
      Applies cfg.auth.U a p.domain role act (cfg.auth.resourcePrefix ++ res) ∧ ¬ IsDeny cfg.auth.U a

/-- The grant `p` for the request `q` has its origin in a token and, unless policy checks are disabled, policies signed by keys which the
Athenz services published. -/
def Origin (cfg : SysCfg) (s0 : Sys) (h : List SysAct) (q : AReq) (p : Principal) : Prop :=
  TokenAccepted cfg s0 h q p ∧ (cfg.auth.disablePolicyd = false → PolicyGrants cfg s0 h q p)

end Spec
end Athenz
