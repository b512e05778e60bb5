import Verif.Spec.System
import Verif.Spec.SysLive
import Verif.Spec.Rotate
import Verif.Spec.RotateJwk

/-! # Specification: keys that are withdrawn -/

namespace Athenz
namespace Spec

/-- The token is signed with a key that is right: a role token with a key `ver` for which `R id ver`, where `id` is the key id that it names, an
access token with a key `k` for which `J url kid k`, where `url` and `kid` are those that its header names. -/
def SignedBy (cfg : SysCfg) (R : Str → SigVerifier → Prop) (J : Str → Str → JKey → Prop) (q : AReq) : Prop :=
  match q.mode with
  | .roleToken => ∃ unsigned sig kvs ver, RoleText q.tok unsigned sig kvs ∧ R ((lastValue "k" kvs).getD []) ver ∧
      ver unsigned (usedSignature kvs sig) = true
  | .accessToken => ∃ hd p sg hdr k kid url, Segments q.tok hd p sg ∧ cfg.auth.access.lib.header hd = some hdr ∧
      hdr "kid".toList = some (.str kid) ∧
      ((hdr "jku".toList = none ∧ url = cfg.jwk.athenzURL) ∨ ∃ u, hdr "jku".toList = some (.str u) ∧ url = lookupURL cfg.jwk u) ∧
      J url kid k ∧ Signed cfg.auth.access.lib hdr hd p sg k

/-- The daemons hand out only keys that are right. -/
def GivesOnly (cfg : SysCfg) (s : Sys) (R : Str → SigVerifier → Prop) (J : Str → Str → JKey → Prop) : Prop :=
  (∀ id ver, s.pk.provider .zts id = some ver → R id ver) ∧
  ∀ kid jku k, getKey cfg.jwk s.jwk kid jku = some k → J (lookupURL cfg.jwk jku) kid k

/-- They do so after each of the first `n` or more steps of `h`. -/
def OnlyKeys (cfg : SysCfg) (s0 : Sys) (h : List SysAct) (n : Nat) (R : Str → SigVerifier → Prop) (J : Str → Str → JKey → Prop) : Prop :=
  ∀ h1 h2 s1, h = h1 ++ h2 → n ≤ h1.length → sysRun cfg s0 h1 = some s1 → GivesOnly cfg s1 R J

/-- At a moment when the call `j` for the request `q` was running, after the history `h1`, the token was valid under the keys of that moment,
and says what the principal reports. -/
def ValidatedBy (cfg : SysCfg) (s0 : Sys) (h : List SysAct) (j : Nat) (q : AReq) (p : Principal) (h1 : List SysAct) : Prop :=
  ∃ h2 s1 pc, h = h1 ++ h2 ∧ sysRun cfg s0 h1 = some s1 ∧ s1.auth.calls j = some ⟨q, pc⟩ ∧ (∀ r, pc ≠ .done r) ∧
    TokenSays cfg.auth s1.auth.now s1.auth.keys s1.auth.jwkp q p

/-- Fairness of the key daemons: a goroutine that can go on from some time on goes on at some time, and requests end. -/
def KeyFair {cfg : SysCfg} {now : Int} (x : SysExec cfg now) : Prop :=
  (∀ j n, (∀ m, n ≤ m → ∃ a, OfJob j a ∧ (sysStep cfg (x.state m) (.pk a)).isSome) → ∃ m a, n ≤ m ∧ x.act m = .pk a ∧ OfJob j a) ∧
  ∀ j n, (∀ m, n ≤ m → ∃ a, OfJwkJob j a ∧ (sysStep cfg (x.state m) (.jwk a)).isSome) → ∃ m a, n ≤ m ∧ x.act m = .jwk a ∧ OfJwkJob j a

/-- What the public key daemon does in a step. -/
def pkActOf : SysAct → PkAct
  | .pk a => a
  | .tick d => .tick d
  | _ => .tick 0

/-- What the JWK daemon does in a step. -/
def jwkActOf : SysAct → Option JwkAct
  | .jwk a => some a
  | _ => none

end Spec
end Athenz
