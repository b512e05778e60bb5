import Verif.Spec.RoleFault
import Verif.Props.Role

/-! # C20: the error of ParseAndValidateRoleToken -/

namespace Athenz

open Spec

theorem setParams_err {rt : RoleToken} {k v : Str} {e : Err} (h : rt.setParams k v = .err e) :
    e = .parseInt ∧ (k = "e".toList ∨ k = "t".toList) ∧ parseInt64 v = none := by
  unfold RoleToken.setParams at h
  split at h
  · simp at h
  split at h
  · rename_i hk
    split at h
    · rename_i hp
      exact ⟨by simpa using h.symm, .inl hk, hp⟩
    · simp at h
  split at h
  · simp at h
  split at h
  · simp at h
  split at h
  · simp at h
  split at h
  · simp at h
  split at h
  · rename_i hk
    split at h
    · rename_i hp
      exact ⟨by simpa using h.symm, .inr hk, hp⟩
    · simp at h
  · simp at h

theorem setPairs_err {ps : List Str} : ∀ {rt : RoleToken} {e : Err}, setPairs rt ps = .err e →
    (e = .roleTokenInvalid ∧ ∃ w ∈ ps, '=' ∉ w) ∨
    (e = .parseInt ∧ ∃ k v, (k ++ '=' :: v) ∈ ps ∧ (k = "e".toList ∨ k = "t".toList) ∧ parseInt64 v = none) := by
  induction ps with
  | nil => intro rt e h; simp [setPairs] at h
  | cons p ps ih =>
    intro rt e h
    simp only [setPairs] at h
    split at h
    · rename_i hc
      exact .inl ⟨by simpa using h.symm, p, List.mem_cons_self, Str.cut_singleton_none.mp hc⟩
    · rename_i k v hc
      split at h
      · rcases ih h with ⟨h1, w, h2, h3⟩ | ⟨h1, k, v, h2, h3⟩
        · exact .inl ⟨h1, w, List.mem_cons_of_mem _ h2, h3⟩
        · exact .inr ⟨h1, k, v, List.mem_cons_of_mem _ h2, h3⟩
      · rename_i e' he
        simp only [Res.err.injEq] at h
        subst h
        obtain ⟨h1, h2, h3⟩ := setParams_err he
        exact .inr ⟨h1, k, v, by rw [(Str.cut_singleton_iff.mp hc).1]; exact List.mem_cons_self, h2, h3⟩
      · simp at h

theorem parseRoleToken_err {keys : KeyProvider} {now : GoTime} {tok : Str} {e : Err} (h : parseRoleToken tok = .err e) : RoleFault keys now tok e := by
  unfold parseRoleToken at h
  split at h
  · rename_i hc
    simp only [Res.err.injEq] at h
    subst h
    refine .noMarker ?_
    rintro u ⟨sig, h1, h2⟩
    rw [(Str.cut_eq_some_iff (by decide)).mpr ⟨h1, h2⟩] at hc
    simp at hc
  · rename_i u sig hc
    have hp : TokenPieces tok (Str.split ';' u) :=
      ⟨u, ⟨sig, (Str.cut_eq_some_iff (by decide)).mp hc⟩, Str.split_ne_nil _ _, (Str.join_split _ _).symm, fun w hw => Str.split_no_sep hw⟩
    rcases setPairs_err h with ⟨rfl, w, h1, h2⟩ | ⟨rfl, k, v, h1, h2, h3⟩
    · exact .noEquals _ w hp h1 h2
    · refine .number _ k v hp h1 h2 fun i hi => ?_
      rw [parseInt64_iff.mpr hi] at h3
      simp at h3

/-- **C20**.  The error says what is wrong with the token. -/
theorem C20_error (keys : KeyProvider) (now : GoTime) (hn : ClockOk now) (tok : Str) (e : Err) (h : parseAndValidateRoleToken keys now tok = .err e) :
    RoleFault keys now tok e := by
  unfold parseAndValidateRoleToken at h
  split at h
  · rename_i e' he
    simp only [Res.err.injEq] at h
    subst h
    exact parseRoleToken_err he
  · simp at h
  · rename_i rt hrt
    obtain ⟨u, sig, kvs, ht, hap⟩ := parseRoleToken_ok.mp hrt
    obtain ⟨hf, hu, hs⟩ := (applyPairs_iff ht).mp hap
    have hval : now.after rt.expiryTime = false ↔ PairsValid now kvs := by
      constructor
      · intro hexp
        cases he : lastValue "e" kvs with
        | none =>
          rw [hf.noExpiry he, after_zero hn] at hexp
          simp at hexp
        | some v =>
          obtain ⟨i, hi⟩ := ht.times _ (lastValue_mem he) (.inl rfl)
          rw [hf.expiry v i he hi] at hexp
          exact ⟨v, i, he, hi, (after_ofUnix hn.1 hi.1).mp hexp⟩
      · rintro ⟨v, i, he, hi, hne⟩
        rw [hf.expiry v i he hi]
        exact (after_ofUnix hn.1 hi.1).mpr hne
    unfold validateRoleToken RoleToken.expired at h
    cases ha : now.after rt.expiryTime with
    | true =>
      simp only [ha, if_true, Res.err.injEq] at h
      subst h
      exact .expired u sig kvs ht fun hv => by rw [hval.mpr hv] at ha; simp at ha
    | false =>
      have hv := hval.mp ha
      simp only [ha, Bool.false_eq_true, if_false] at h
      rw [hf.keyId] at h
      cases hk : keys .zts ((lastValue "k" kvs).getD []) with
      | none =>
        simp only [hk, Res.err.injEq] at h
        subst h
        exact .noKey u sig kvs ht hv hk
      | some ver =>
        simp only [hk] at h
        cases hver : ver rt.unsignedToken rt.signature with
        | true => simp [hver] at h
        | false =>
          simp only [hver, Bool.false_eq_true, if_false, Res.err.injEq] at h
          subst h
          exact .signature u sig kvs ver ht hv hk (by rw [← hu, ← hs]; exact hver)

/-- The errors occur. -/
example : parseAndValidateRoleToken Ex.roleKeys Ex.roleNow "d=a".toList = .err .roleTokenInvalid ∧
    parseAndValidateRoleToken Ex.roleKeys Ex.roleNow "d;s=S".toList = .err .roleTokenInvalid ∧
    parseAndValidateRoleToken Ex.roleKeys Ex.roleNow "e=x;s=S".toList = .err .parseInt ∧
    parseAndValidateRoleToken Ex.roleKeys Ex.roleNow "e=1;s=S".toList = .err .roleTokenExpired ∧
    parseAndValidateRoleToken (fun _ _ => none) Ex.roleNow Ex.roleTok = .err .roleTokenInvalid ∧
    parseAndValidateRoleToken (fun _ _ => some fun _ _ => false) Ex.roleNow Ex.roleTok = .err (.other "signature") := by
  refine ⟨?_, ?_, ?_, ?_, ?_, ?_⟩ <;> decide +kernel

end Athenz
