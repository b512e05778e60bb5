import Verif.Spec.NoKeys
import Verif.Props.Authority

/-! # C56: which tokens crash a call without key provider -/

namespace Athenz

open Spec

theorem getAsString_value {hdr : Str → Option Json} {key v : Str} : getAsStringFromHeader hdr key = .value v ↔ hdr key = some (.str v) := by
  unfold getAsStringFromHeader
  split
  · rename_i h; simp [h]
  · rename_i s h; simp [h]
  · rename_i x hx h
    simp only [reduceCtorEq, false_iff]
    intro h'
    rw [h] at h'
    simp only [Option.some.injEq] at h'
    exact hx v h'

theorem getAsString_notString {hdr : Str → Option Json} {key : Str} : getAsStringFromHeader hdr key ≠ .notString ↔
    hdr key = none ∨ ∃ v, hdr key = some (.str v) := by
  unfold getAsStringFromHeader
  split
  · rename_i h; simp [h]
  · rename_i s h; simp [h]
  · rename_i x hx h
    simp only [ne_eq, not_true_eq_false, false_iff, h, reduceCtorEq, false_or, Option.some.injEq, not_exists]
    intro v hv
    exact hx v hv

theorem keyAsked_iff {L : JwtLib} {tok : Str} : keyAsked L tok = true ↔ NamesKey L tok := by
  constructor
  · intro h
    unfold keyAsked at h
    split at h
    · rename_i h0 p0 s0 hs
      split at h
      · rename_i hdr c hh hc
        split at h
        · rename_i alg ha
          simp only [Bool.and_eq_true] at h
          obtain ⟨h1, h2⟩ := h
          split at h2
          · rename_i kid hk
            have h3 : getAsStringFromHeader hdr "jku".toList ≠ .notString := by
              intro he
              rw [he] at h2
              simp at h2
            exact ⟨_, _, _, hdr, c, alg, kid, split_three.mp hs, hh, hc, ha, Option.isSome_iff_ne_none.mp h1, getAsString_value.mp hk, getAsString_notString.mp h3⟩
          · simp at h2
        · simp at h
      · simp at h
    · simp at h
  · rintro ⟨h0, p0, s0, hdr, c, alg, kid, hs, hh, hc, ha, hm, hk, hj⟩
    unfold keyAsked
    rw [split_three.mpr hs]
    simp only [hh, hc, ha, getAsString_value.mpr hk, Bool.and_eq_true]
    refine ⟨Option.isSome_iff_ne_none.mpr hm, ?_⟩
    have h3 := getAsString_notString.mpr hj
    cases h4 : getAsStringFromHeader hdr "jku".toList with
    | notString => exact absurd h4 h3
    | missing => rfl
    | value v => rfl

/-- **C56**, access tokens.  Without a provider of JSON web keys exactly the tokens that name a key crash the check; any other is refused. -/
theorem C56_access_crash (cfg : AuthCfg) (he : cfg.enableAccessToken = true) (now : GoTime) (tok : Str) (cert : Option Cert) :
    (validateAccess cfg none now tok cert = .panic ↔ NamesKey cfg.access.lib tok) ∧ ∀ c, validateAccess cfg none now tok cert ≠ .ok c := by
  simp only [validateAccess, he, if_true]
  rw [← keyAsked_iff]
  cases keyAsked cfg.access.lib tok <;> simp

/-- **C56**, access tokens.  So does every token that some provider lets pass, at any time and with any certificate. -/
theorem C56_access_valid_crash (cfg : AuthCfg) (he : cfg.enableAccessToken = true) (ks : JwkProvider) (now now' : GoTime) (tok : Str)
    (cert cert' : Option Cert) (c : Claims) (h : validateAccess cfg (some ks) now tok cert = .ok c) : validateAccess cfg none now' tok cert' = .panic := by
  refine (C56_access_crash cfg he now' tok cert').1.mpr ?_
  simp only [validateAccess, he, if_true, parseAndValidateAccessToken] at h
  split at h
  · simp at h
  · rename_i c' hp
    unfold JwtLib.parse at hp
    split at hp
    · rename_i h0 p0 s0 hs
      split at hp
      · rename_i hdr c1 hh hc
        split at hp
        · rename_i alg ha
          split at hp
          · rename_i kind hm
            split at hp
            · rename_i k hk
              unfold keyFunc at hk
              split at hk
              · rename_i kid hkid
                refine ⟨_, _, _, hdr, c1, alg, kid, split_three.mp hs, hh, hc, ha, by rw [hm]; simp, getAsString_value.mp hkid, getAsString_notString.mp ?_⟩
                intro h'
                rw [h'] at hk
                simp at hk
              · simp at hk
            · simp at hp
          · simp at hp
        · simp at hp
      · simp at hp
    · simp at hp

/-- **C56**, role tokens.  Without a provider of public keys exactly those tokens crash the check that pass with some keys; any other is
refused. -/
theorem C56_role_crash (cfg : AuthCfg) (he : cfg.enableRoleToken = true) (now : GoTime) (tok : Str) :
    (validateRole cfg none now tok = .panic ↔ ∃ ks rt, validateRole cfg (some ks) now tok = .ok rt) ∧ ∀ rt, validateRole cfg none now tok ≠ .ok rt := by
  simp only [validateRole, he, if_true, parseAndValidateRoleToken]
  cases hp : parseRoleToken tok with
  | err e => simp
  | panic => exact absurd hp parseRoleToken_no_panic
  | ok rt =>
    simp only [validateRoleToken]
    cases hx : rt.expired now with
    | true => simp
    | false =>
      simp only [Bool.false_eq_true, if_false, true_iff]
      exact ⟨⟨fun _ _ => some fun _ _ => true, rt, rfl⟩, by simp⟩

/-- Tokens that crash a call, and tokens that do not. -/
example : NamesKey Ex.atLib "H.P.S".toList ∧ ¬ NamesKey Ex.atLib "H.P".toList ∧
    validateRole Ex.auCfg (some Ex.roleKeys) (clock (Ex.auT 1500)) Ex.roleTok ≠ .panic ∧
    validateRole Ex.auCfg none (clock (Ex.auT 1500)) Ex.roleTok = .panic ∧
    validateRole Ex.auCfg none (clock (Ex.auT 1500)) "e=1;s=S".toList = .err .roleTokenExpired := by
  refine ⟨keyAsked_iff.mp (by decide +kernel), fun h => ?_, ?_, ?_, ?_⟩
  · have := keyAsked_iff.mpr h
    revert this
    decide +kernel
  all_goals decide +kernel

/-- A token that some provider lets pass. -/
example : ∃ c, validateAccess Ex.auCfg (some Ex.atKeys) (clock (Ex.auT 1500)) "H.P.S".toList (some Ex.auCert) = .ok c := by
  cases h : validateAccess Ex.auCfg (some Ex.atKeys) (clock (Ex.auT 1500)) "H.P.S".toList (some Ex.auCert) with
  | ok c => exact ⟨c, rfl⟩
  | err e =>
    have : (match validateAccess Ex.auCfg (some Ex.atKeys) (clock (Ex.auT 1500)) "H.P.S".toList (some Ex.auCert) with | .ok _ => true | _ => false) = true := by
      decide +kernel
    rw [h] at this; simp at this
  | panic =>
    have : (match validateAccess Ex.auCfg (some Ex.atKeys) (clock (Ex.auT 1500)) "H.P.S".toList (some Ex.auCert) with | .ok _ => true | _ => false) = true := by
      decide +kernel
    rw [h] at this; simp at this

end Athenz
