import Verif.Spec.Access
import Verif.Proofs.Str
import Verif.Proofs.Num

/-! Lemmas about access/processor.go. -/

namespace Athenz
open Spec

theorem split_three {tok h p s : Str} : Str.split '.' tok = [h, p, s] ↔ Segments tok h p s := by
  unfold Segments
  constructor
  · intro he
    have hj := Str.join_split '.' tok
    rw [he] at hj
    refine ⟨by rw [← hj]; rfl, ?_, ?_, ?_⟩
    · exact Str.split_no_sep (s := tok) (by rw [he]; simp)
    · exact Str.split_no_sep (s := tok) (by rw [he]; simp)
    · exact Str.split_no_sep (s := tok) (by rw [he]; simp)
  · rintro ⟨rfl, h1, h2, h3⟩
    rw [Str.split_append h1, Str.split_append h2, Str.split_of_not_mem h3]

theorem parse_iff {L : JwtLib} {valid : Claims → Bool} {kf : (Str → Option Json) → Option JKey} {tok : Str} {c : Claims} :
    L.parse valid kf tok = some c ↔
      ∃ h p s hdr k, Segments tok h p s ∧ L.header h = some hdr ∧ L.claims p = some c ∧ kf hdr = some k ∧ Signed L hdr h p s k ∧
        valid c = true := by
  unfold JwtLib.parse Signed
  constructor
  · intro hp
    split at hp
    · rename_i h p s hs
      split at hp
      · rename_i hdr c' hh hc
        split at hp
        · rename_i alg ha
          split at hp
          · rename_i kind hk
            split at hp
            · rename_i k hkf
              split at hp
              · rename_i hv
                simp only [Option.some.injEq] at hp
                subst hp
                simp only [Bool.and_eq_true, JwtLib.verify, decide_eq_true_eq] at hv
                obtain ⟨hv1, hv2, hv3⟩ := hv
                exact ⟨h, p, s, hdr, k, split_three.mp hs, hh, hc, hkf, ⟨alg, ha, by rw [hk, hv2], hv3⟩, hv1⟩
              · simp at hp
            · simp at hp
          · simp at hp
        · simp at hp
      · simp at hp
    · simp at hp
  · rintro ⟨h, p, s, hdr, k, hs, hh, hc, hkf, ⟨alg, ha, hk, hcr⟩, hv⟩
    rw [split_three.mpr hs]
    simp only [hh, hc, ha, hk, hkf, JwtLib.verify, hv, hcr, decide_true, Bool.and_self, if_true]

theorem keyFunc_iff {keys : JwkProvider} {hdr : Str → Option Json} {k : JKey} : keyFunc keys hdr = some k ↔ HeaderKey keys hdr k := by
  unfold keyFunc getAsStringFromHeader HeaderKey
  cases hk : hdr "kid".toList with
  | none => simp
  | some v =>
    cases v with
    | str kid =>
      simp only [Option.some.injEq, Json.str.injEq]
      cases hj : hdr "jku".toList with
      | none =>
        simp only [reduceCtorEq, false_and, exists_false, or_false, true_and]
        constructor
        · intro h; exact ⟨kid, rfl, h⟩
        · rintro ⟨_, rfl, h⟩; exact h
      | some w =>
        cases w with
        | str url =>
          simp only [reduceCtorEq, false_and, false_or, Option.some.injEq, Json.str.injEq]
          constructor
          · intro h; exact ⟨kid, rfl, url, rfl, h⟩
          · rintro ⟨_, rfl, _, rfl, h⟩; exact h
        | arr l => simp
        | other => simp
    | arr l => simp
    | other => simp

theorem unix_clock {now : GoTime} (h : now.IsClock) : now.unix = now.isec - unixToInternal := by
  unfold GoTime.IsClock at h
  unfold GoTime.unix
  refine wrap64_id ?_
  unfold IsInt64 unixToInternal
  omega

theorem unixLimit_eq : unixLimit = 9223371974719179008 := by decide

theorem ofUnix_isec' {i : Int} (hi : IsInt64 i) :
    (GoTime.ofUnix i).isec = if i < unixLimit then i + unixToInternal else i + unixToInternal - 2 ^ 64 := by
  rw [GoTime.ofUnix_isec hi]
  rfl

theorem verifyExpiresAt_iff {now : GoTime} {e : Int} (hn : now.IsClock) (he : IsInt64 e) :
    verifyExpiresAt now.unix e = true ↔ InFuture now.unix e := by
  have hu := unix_clock hn
  have hni : IsInt64 now.unix := by
    unfold GoTime.IsClock at hn; unfold IsInt64 unixToInternal at *; omega
  unfold verifyExpiresAt InFuture GoTime.before GoTime.after
  rw [ofUnix_isec' he, ofUnix_isec' hni]
  have h1 : (GoTime.ofUnix e).nsec = 0 := rfl
  have h2 : (GoTime.ofUnix now.unix).nsec = 0 := rfl
  rw [h1, h2, hu]
  unfold GoTime.IsClock at hn
  unfold IsInt64 at he
  have hl := unixLimit_eq
  have hc : unixToInternal = 62135596800 := rfl
  simp only [Bool.and_eq_true, Bool.not_eq_true', beq_eq_false_iff_ne, Bool.or_eq_true, decide_eq_true_eq, gt_iff_lt, Nat.lt_irrefl, and_false,
    or_false, ne_eq, hl, hc] at *
  split <;> split <;> omega

theorem verifyNotFuture_iff {now : GoTime} {t : Int} (hn : now.IsClock) (ht : IsInt64 t) :
    verifyNotFuture now.unix t = true ↔ NotFutureOrHuge now.unix t := by
  have hu := unix_clock hn
  have hni : IsInt64 now.unix := by
    unfold GoTime.IsClock at hn; unfold IsInt64 unixToInternal at *; omega
  unfold verifyNotFuture NotFutureOrHuge NotFuture GoTime.after GoTime.equal
  rw [ofUnix_isec' ht, ofUnix_isec' hni]
  have h1 : (GoTime.ofUnix t).nsec = 0 := rfl
  have h2 : (GoTime.ofUnix now.unix).nsec = 0 := rfl
  rw [h1, h2, hu]
  unfold GoTime.IsClock at hn
  unfold IsInt64 at ht
  have hl := unixLimit_eq
  have hc : unixToInternal = 62135596800 := rfl
  simp only [Bool.and_eq_true, beq_iff_eq, Bool.or_eq_true, decide_eq_true_eq, gt_iff_lt, Nat.lt_irrefl, and_false,
    or_false, and_true, hl, hc] at *
  split <;> split <;> omega

theorem validateClientID_iff {cfg : AtpCfg} {cert : Option Cert} {c : Claims} :
    validateClientID cfg cert c = true ↔ ∃ x, cert = some x ∧ ClientAllowed cfg.authorized x c := by
  cases cert with
  | none => simp [validateClientID]
  | some x => simp [validateClientID, ClientAllowed]

theorem validateCertPrincipal_iff {cfg : AtpCfg} {x : Cert} {c : Claims} :
    validateCertPrincipal cfg x c = true ↔
      RotationNames cfg.offset x c ∧ InWindow machineAdd cfg.goBack cfg.offset x.notBefore.unix c.issuedAt := by
  unfold validateCertPrincipal RotationNames InWindow machineAdd
  split
  · rename_i h; simp [h]
  · rename_i h
    split
    · rename_i h1; simp [h1]
    · rename_i h1
      split
      · rename_i h2
        simp only [Bool.false_eq_true, false_iff, not_and]
        rintro ⟨_, h3, h4⟩
        exact absurd (h4.trans h2) h3
      · rename_i h2
        split
        · rename_i h3
          simp only [Bool.false_eq_true, false_iff, not_and]
          rintro ⟨_, _, h4⟩
          exact absurd h4 h3
        · rename_i h3
          have h3 : x.subjectCN = c.clientID := Classical.not_not.mp h3
          simp only
          split
          · rename_i h4
            simp only [Bool.false_eq_true, false_iff, not_and]
            intro _ h5; omega
          · rename_i h4
            split
            · rename_i h5
              simp only [Bool.false_eq_true, false_iff, not_and]
              intro _ _ h6; omega
            · rename_i h5
              simp only [true_iff]
              exact ⟨⟨h, h1, h3⟩, by omega, by omega⟩

theorem mem_proxySet {l : List Json} {u : Str} : u ∈ proxySet l ↔ Json.str u ∈ l := by
  induction l with
  | nil => simp [proxySet]
  | cons v l ih =>
    cases v with
    | str s => simp [proxySet, ih]
    | arr l' => simp [proxySet, ih]
    | other => simp [proxySet, ih]

theorem validateCertBound_iff {cfg : AtpCfg} {cert : Option Cert} {c : Claims} :
    validateCertBound cfg cert c = true ↔
      ∃ x, cert = some x ∧ (BoundTo cfg.thumb x c ∨ Rotated machineAdd cfg.goBack cfg.offset x c ∨ ProxyOf x c) := by
  cases cert with
  | none => simp [validateCertBound]
  | some x =>
    simp only [validateCertBound, Bool.or_eq_true, Option.some.injEq, exists_eq_left', ← or_assoc]
    refine or_congr ?_ ?_
    · unfold BoundTo Rotated BoundToSome
      constructor
      · intro h
        split at h
        · rename_i t ht
          rw [Bool.or_eq_true, beq_iff_eq, validateCertPrincipal_iff] at h
          rcases h with h | h
          · left; rw [ht, h]
          · right; exact ⟨⟨t, ht⟩, h⟩
        · simp at h
      · intro h
        rcases h with h | ⟨⟨t, ht⟩, h⟩
        · rw [h]; simp
        · rw [ht]
          simp only [Bool.or_eq_true]
          right; exact validateCertPrincipal_iff.mpr h
    · unfold ProxyOf
      constructor
      · intro h
        split at h
        · rename_i l hl
          simp only [List.any_eq_true, List.contains_eq_mem, decide_eq_true_eq] at h
          obtain ⟨u, h1, h2⟩ := h
          exact ⟨l, u, hl, mem_proxySet.mp h2, h1⟩
        · simp at h
      · rintro ⟨l, u, hl, h1, h2⟩
        rw [hl]
        simp only [List.any_eq_true, List.contains_eq_mem, decide_eq_true_eq]
        exact ⟨u, h2, mem_proxySet.mpr h1⟩

theorem access_iff {cfg : AtpCfg} {now : GoTime} {tok : Str} {cert : Option Cert} {c : Claims} :
    parseAndValidateAccessToken cfg now tok cert = .ok c ↔
      cfg.lib.parse (claimsValid now) (keyFunc cfg.jwkp) tok = some c ∧ Bound cfg cert c := by
  unfold parseAndValidateAccessToken Bound
  cases hp : cfg.lib.parse (claimsValid now) (keyFunc cfg.jwkp) tok with
  | none => simp
  | some c' =>
    simp only [Option.some.injEq]
    rw [← validateClientID_iff, ← validateCertBound_iff]
    constructor
    · intro h
      split at h
      · simp at h
      · rename_i h1
        split at h
        · simp at h
        · rename_i h2
          simp only [Res.ok.injEq] at h
          subst h
          simp only [Bool.and_eq_true, Bool.not_eq_true', not_and, Bool.not_eq_false] at h1 h2
          exact ⟨rfl, h1, h2⟩
    · rintro ⟨rfl, h1, h2⟩
      rw [if_neg, if_neg]
      · simp only [Bool.and_eq_true, Bool.not_eq_true', not_and, Bool.not_eq_false]; exact h2
      · simp only [Bool.and_eq_true, Bool.not_eq_true', not_and, Bool.not_eq_false]; exact h1

end Athenz
