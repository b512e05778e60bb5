import Verif.Spec.Options
import Verif.Model.Authority

/-! # Specification: serving requests with what New returned -/

namespace Athenz.Spec

/-- The key providers are those of the daemons that exist; a missing daemon leaves the nil function. -/
def Wired (b : Built) (keys : Option KeyProvider) (jwkp : Option JwkProvider) : Prop :=
  keys.isSome = b.pubkeyd.isSome ∧ jwkp.isSome = b.jwkd.isSome

/-- Key updates do not change this. -/
def WiredAct (b : Built) : AAct → Prop
  | .setKeys ks => ks.isSome = b.pubkeyd.isSome
  | .setJwkp ks => ks.isSome = b.jwkd.isSome
  | _ => True

/-- The translator, if there is one, does not panic itself. -/
def TranslatorFine (b : Built) : Prop := ∀ t, b.set.translator = some t → ∀ seed d a r q, t seed d a r q ≠ .panic

/-- The token kinds that the configuration enables. -/
def ModeEnabled (b : Built) : Mode → Prop
  | .roleToken => b.set.enableRoleToken = true
  | .accessToken => b.set.accessTokenParam.enable = true

/-- Some execution of the authorizer leads to a call, for an enabled kind of token, that ends in a panic. -/
def Crashes (b : Built) : Prop :=
  ∃ (lib : JwtLib) (thumb : Str → Str) (U : CaseFns) (now : Int) (keys : Option KeyProvider) (jwkp : Option JwkProvider) (acts : List AAct)
    (s : AState) (i : Nat) (q : AReq), Wired b keys jwkp ∧ (∀ a ∈ acts, WiredAct b a) ∧
    aRun (b.cfg lib thumb U) (aInit now keys jwkp) acts = some s ∧ ModeEnabled b q.mode ∧ s.calls i = some ⟨q, .done .panic⟩

end Athenz.Spec
