import Verif.Spec.Revoke
import Verif.Proofs.Withdraw
import Verif.Proofs.Rotate
import Verif.Props.SysLive

/-! When the token of a granted call was valid; the key daemons inside the assembled authorizer. -/

namespace Athenz
open Spec

theorem Spec.ValidatedBy.mono {cfg : SysCfg} {s0 : Sys} {h h' : List SysAct} {j : Nat} {q : AReq} {p : Principal} {h1 : List SysAct}
    (hv : ValidatedBy cfg s0 h j q p h1) : ValidatedBy cfg s0 (h ++ h') j q p h1 := by
  obtain ⟨h2, s1, pc, rfl, a1, a2, a3, a4⟩ := hv
  exact ⟨h2 ++ h', s1, pc, by simp, a1, a2, a3, a4⟩

/-- The principal of a call whose token was found valid. -/
def Pc.accepted : Pc → Option Principal
  | .validated p => some p
  | .translated p _ _ => some p
  | .checked p => some p
  | _ => none

structure VInv (cfg : SysCfg) (s0 : Sys) (h : List SysAct) (s : Sys) : Prop where
  mid : ∀ i q pc p, s.auth.calls i = some ⟨q, pc⟩ → pc.accepted = some p → ∃ h1, ValidatedBy cfg s0 h i q p h1
  stored : ∀ j ts k p, .stored j ts k p ∈ s.auth.log → ∃ q, s.auth.calls j = some ⟨q, .done (.ok p)⟩ ∧ k = cacheKey cfg.auth q ∧
    ∃ h1, ValidatedBy cfg s0 h j q p h1

theorem vInv_step {cfg : SysCfg} {now : Int} {h : List SysAct} {s s' : Sys} {a : SysAct} (hi : VInv cfg (sysInit cfg now) h s)
    (hr : sysRun cfg (sysInit cfg now) h = some s) (hs : sysStep cfg s a = some s') : VInv cfg (sysInit cfg now) (h ++ [a]) s' := by
  have mono : ∀ {j q p}, (∃ h1, ValidatedBy cfg (sysInit cfg now) h j q p h1) → ∃ h1, ValidatedBy cfg (sysInit cfg now) (h ++ [a]) j q p h1 :=
    fun ⟨h1, hd⟩ => ⟨h1, hd.mono⟩
  have hmid : ∀ i q pc p, s'.auth.calls i = some ⟨q, pc⟩ → pc.accepted = some p → ∃ h1, ValidatedBy cfg (sysInit cfg now) h i q p h1 := by
    intro i q pc p hc hp
    rcases sysStep_auth hs with ⟨h1, _⟩ | ⟨b, hb, hst, _⟩
    · rw [h1] at hc; exact hi.mid i q pc p hc hp
    · have set : ∀ (j : Nat) (q' : AReq) (pc' : Pc), s'.auth.calls = (fun i => if i = j then some ⟨q', pc'⟩ else s.auth.calls i) →
          (∀ p, pc'.accepted = some p → ∃ h1, ValidatedBy cfg (sysInit cfg now) h j q' p h1) → ∃ h1, ValidatedBy cfg (sysInit cfg now) h i q p h1 := by
        intro j q' pc' he hne
        rw [he] at hc
        simp only at hc
        split at hc
        · rename_i hij
          simp only [Option.some.injEq, Call.mk.injEq] at hc
          obtain ⟨rfl, rfl⟩ := hc
          subst hij
          exact hne p hp
        · exact hi.mid i q pc p hc hp
      have heff := aStep_effect hst
      generalize hg : s'.auth = s2 at heff
      cases heff with
      | call j q' hj => exact set j q' _ (by rw [hg]; rfl) (by simp [Pc.accepted])
      | sub k j q' rest tried hs hj => exact set j q' _ (by rw [hg]; rfl) (by simp [Pc.accepted])
      | bad j q' hj => exact set j q' _ (by rw [hg]; rfl) (by simp [Pc.accepted])
      | hit j q' p hj => exact set j q' _ (by rw [hg]; rfl) (by simp [Pc.accepted])
      | miss j q' hj => exact set j q' _ (by rw [hg]; rfl) (by simp [Pc.accepted])
      | valid j q' p' hj hv =>
        refine set j q' _ (by rw [hg]; rfl) fun p0 hp0 => ?_
        have : p0 = p' := by
          split at hp0 <;> simp [Pc.accepted] at hp0 <;> exact hp0.symm
        subst this
        exact ⟨h, [], s, .miss, by simp, hr, hj, by simp, (validateToken_ok hv).1⟩
      | invalid j q' r hj => exact set j q' _ (by rw [hg]; rfl) (by simp [Pc.accepted])
      | trans j seed q' p' act res hj =>
        refine set j q' _ (by rw [hg]; rfl) fun p0 hp0 => ?_
        exact hi.mid j q' _ p0 hj (by simpa [Pc.accepted] using hp0)
      | transFail j seed q' p r hj => exact set j q' _ (by rw [hg]; rfl) (by simp [Pc.accepted])
      | check j view sched q' p' act res rs hj hcr =>
        refine set j q' _ (by rw [hg]; rfl) fun p0 hp0 => ?_
        simp only [Pc.accepted, Option.some.injEq] at hp0
        subst hp0
        obtain ⟨h1, h2, s1, pc1, e1, e2, e3, e4, e5⟩ := hi.mid j q' _ p' hj rfl
        exact ⟨h1, h2, s1, pc1, e1, e2, e3, e4, tokenSays_roles e5 rs⟩
      | checkFail j view sched q' p act res r hj => exact set j q' _ (by rw [hg]; rfl) (by simp [Pc.accepted])
      | store j q' p hj => exact set j q' _ (by rw [hg]; rfl) (by simp [Pc.accepted])
      | _ => rw [hg] at hc; exact hi.mid i q pc p hc hp
  refine ⟨fun i q pc p hc hp => mono (hmid i q pc p hc hp), fun j ts k p hm => ?_⟩
  rcases (sysStep_log hs).2.1 j ts k p hm with h | ⟨_, q, hq, hq', hk⟩
  · obtain ⟨q, h1, h2, h3⟩ := hi.stored j ts k p h
    obtain ⟨pc, h4, h5⟩ := sysStep_calls hs h1
    obtain rfl := h5 ⟨_, rfl⟩
    exact ⟨q, h4, h2, mono h3⟩
  · exact ⟨q, hq', hk, mono (hi.mid j q _ p hq rfl)⟩

theorem vInv_run {cfg : SysCfg} {now : Int} {h : List SysAct} {s : Sys} (hr : sysRun cfg (sysInit cfg now) h = some s) :
    VInv cfg (sysInit cfg now) h s := by
  refine sysRun_ind (fun h s => VInv cfg (sysInit cfg now) h s) ⟨by simp [sysInit, aInit], by simp [sysInit, aInit]⟩ ?_ h s hr
  intro h s a s' ih hr hs
  exact vInv_step ih hr hs

/-- A token that validates is signed with a key that is handed out. -/
theorem signedBy {cfg : SysCfg} {now : Int} {h : List SysAct} {s : Sys} (hb : SysBase cfg now h s) {R : Str → SigVerifier → Prop}
    {J : Str → Str → JKey → Prop} (hg : GivesOnly cfg s R J) {q : AReq} {p : Principal} {t : Int}
    (ht : TokenSays cfg.auth t s.auth.keys s.auth.jwkp q p) : SignedBy cfg R J q := by
  unfold TokenSays at ht
  unfold SignedBy
  split at ht
  · rename_i hm
    rw [hm]
    obtain ⟨ks, rt, hk, hp, _⟩ := ht
    rw [hb.keys.1] at hk
    simp only [Option.some.injEq] at hk
    subst hk
    obtain ⟨hparse, _, ver, hver, hsig⟩ := accept_iff.mp hp
    obtain ⟨u, sig, kvs, htext, hrt⟩ := parseRoleToken_ok.mp hparse
    obtain ⟨hf, hu, hs⟩ := (applyPairs_iff htext).mp hrt
    refine ⟨u, sig, kvs, ver, htext, ?_, by rw [← hu, ← hs]; exact hsig⟩
    rw [← hf.keyId]
    exact hg.1 _ _ hver
  · rename_i hm
    rw [hm]
    obtain ⟨ks, c, hk, hp, _⟩ := ht
    rw [hb.jwkp] at hk
    simp only [Option.some.injEq] at hk
    subst hk
    obtain ⟨hparse, _⟩ := access_iff.mp hp
    obtain ⟨hd, pl, sg, hdr, k, hseg, hhdr, _, hkf, hsig, _⟩ := parse_iff.mp hparse
    obtain ⟨kid, hkid, hjku⟩ := keyFunc_iff.mp hkf
    rcases hjku with ⟨hj, hkey⟩ | ⟨u, hj, hkey⟩
    · exact ⟨hd, pl, sg, hdr, k, kid, _, hseg, hhdr, hkid, .inl ⟨hj, rfl⟩, by simpa [lookupURL] using hg.2 _ _ _ hkey, hsig⟩
    · exact ⟨hd, pl, sg, hdr, k, kid, _, hseg, hhdr, hkid, .inr ⟨u, hj, rfl⟩, hg.2 _ _ _ hkey, hsig⟩

/-! ### The daemons inside the authorizer -/

/-- The public key daemon in an execution of the authorizer. -/
def pkExecOf {cfg : SysCfg} {now : Int} (x : SysExec cfg now) : PkExec cfg.pk now where
  state n := (x.state n).pk
  act n := pkActOf (x.act n)
  init := by rw [x.init]; rfl
  next n := by
    have hal := ((sysRuns_run (SysExec.run x n)).1.alive (SysExec.alive x n)).1
    obtain ⟨_, he⟩ := sysStep_effect (x.next n)
    have stutter : ∀ s : PkState, s.crashed = false → pkStep cfg.pk s (.tick 0) = some s := by
      intro s hc
      cases s
      simp only at hc
      subst hc
      simp [pkStep]
    generalize x.act n = a at he
    generalize x.state (n + 1) = s' at he
    cases he with
    | tick d => simp [pkActOf, pkStep, hal]
    | pk a pk' ha hp => exact hp
    | _ => exact stutter _ hal

/-- The JWK daemon in an execution of the authorizer. -/
def jwkExecOf {cfg : SysCfg} {now : Int} (x : SysExec cfg now) : JwkExec cfg.jwk where
  state n := (x.state n).jwk
  act n := jwkActOf (x.act n)
  init := by rw [x.init]; rfl
  next n := by
    obtain ⟨_, he⟩ := sysStep_effect (x.next n)
    generalize x.act n = a at he
    generalize x.state (n + 1) = s' at he
    cases he with
    | jwk a jwk' hj => exact hj
    | _ => rfl

theorem pkFairOf {cfg : SysCfg} {now : Int} {x : SysExec cfg now} (hf : KeyFair x) : PkFair (pkExecOf x) := by
  intro j n hen
  obtain ⟨m, a, h1, h2, h3⟩ := hf.1 j n fun m hm => by
    obtain ⟨a, ha, hs⟩ := hen m hm
    refine ⟨a, ha, ?_⟩
    obtain ⟨pk', hs⟩ := Option.isSome_iff_exists.mp hs
    have hs' : pkStep cfg.pk (x.state m).pk a = some pk' := hs
    cases a with
    | tick d => simp [OfJob, jobOf] at ha
    | _ => simp [sysStep, SysExec.alive x m, hs']
  exact ⟨m, h1, by show OfJob j (pkActOf (x.act m)); rw [h2]; exact h3⟩

theorem jwkFairOf {cfg : SysCfg} {now : Int} {x : SysExec cfg now} (hf : KeyFair x) : JwkFair (jwkExecOf x) := by
  intro j n hen
  obtain ⟨m, a, h1, h2, h3⟩ := hf.2 j n fun m hm => by
    obtain ⟨a, ha, hs⟩ := hen m hm
    refine ⟨a, ha, ?_⟩
    obtain ⟨jwk', hs⟩ := Option.isSome_iff_exists.mp hs
    have hs' : jwkStep cfg.jwk (x.state m).jwk a = some jwk' := hs
    simp [sysStep, SysExec.alive x m, hs']
  exact ⟨m, a, h1, by show jwkActOf (x.act m) = _; rw [h2]; rfl, h3⟩

end Athenz
