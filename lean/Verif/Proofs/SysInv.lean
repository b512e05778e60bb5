import Verif.Proofs.System

/-! Invariants of the components put together. -/

namespace Athenz
open Spec

/-! ### Clocks, keys and configuration -/

theorem fStep_env {cfg : FetchCfg} {s s' : FState} {a : FAct} (h : fStep cfg s a = some s') (ha : a.own = true ∨ ∃ r, a = .call r) :
    s'.now = s.now ∧ s'.keys = s.keys := by
  unfold fStep at h
  split at h
  · simp at h
  cases a with
  | tick d => simp [FAct.own] at ha
  | setKeys ks => simp [FAct.own] at ha
  | _ =>
    simp only at h
    repeat' split at h
    all_goals first
      | (simp at h; done)
      | (simp only [Option.some.injEq] at h; subst h; exact ⟨rfl, rfl⟩)

theorem pdStep_domains {U : CaseFns} {s s' : PdState} {a : PdAct} (h : pdStep U s a = some s') : s'.domains = s.domains := by
  unfold pdStep at h
  split at h
  · simp at h
  cases a with
  | _ =>
    simp only at h
    repeat' split at h
    all_goals first
      | (simp at h; done)
      | (simp only [Option.some.injEq] at h; subst h; rfl)

theorem aStep_env {cfg : AuthCfg} {s s' : AState} {a : AAct} (h : aStep cfg s a = some s')
    (ha : a.own = true ∨ ∃ i v sc, a = .check i v sc) : s'.now = s.now ∧ s'.keys = s.keys ∧ s'.jwkp = s.jwkp := by
  cases aStep_effect h with
  | tick d => simp [AAct.own] at ha
  | setKeys ks => simp [AAct.own] at ha
  | setJwkp ks => simp [AAct.own] at ha
  | _ => exact ⟨rfl, rfl, rfl⟩

/-- The part of the history that concerns the public key daemon. -/
def pkPart : SysAct → List PkAct
  | .tick d => [.tick d]
  | .pk a => [a]
  | _ => []

structure SysBase (cfg : SysCfg) (now : Int) (h : List SysAct) (s : Sys) : Prop where
  alive : s.dead = false → s.pk.crashed = false ∧ s.pd.crashed = false ∧ ∀ x, (s.fs x).crashed = false
  clock : s.pk.now = s.auth.now ∧ s.pd.now = s.auth.now ∧ ∀ x, (s.fs x).now = s.auth.now
  keys : s.auth.keys = some s.pk.provider ∧ ∀ x, (s.fs x).keys = s.pk.provider
  jwkp : s.auth.jwkp = some (getKey cfg.jwk s.jwk)
  pk : pkRun cfg.pk (pkInit now) (h.flatMap pkPart) = some s.pk
  jwk : JwkKeysInv s.jwk ∧ JwkStoredInv cfg.jwk s.jwk
  domains : s.pd.domains = cfg.domains
  doms : ∀ ds ∈ s.doms, ∀ x ∈ ds, x ∈ cfg.domains

theorem sysInit_base (cfg : SysCfg) (now : Int) : SysBase cfg now [] (sysInit cfg now) := by
  refine ⟨fun _ => ⟨rfl, rfl, fun _ => rfl⟩, ⟨rfl, rfl, fun _ => rfl⟩, ⟨rfl, fun _ => rfl⟩, rfl, rfl, ⟨?_, ?_⟩, rfl, by simp [sysInit]⟩
  · intro url; rfl
  · exact ⟨by simp [sysInit, jwkInit], by simp [sysInit, jwkInit], by simp [sysInit, jwkInit]⟩

theorem pkStep_now {cfg : PkCfg} {s s' : PkState} {a : PkAct} (h : pkStep cfg s a = some s') (ha : ∀ d, a ≠ .tick d) : s'.now = s.now := by
  have hset : ∀ (s : PkState) e m, (s.setKeys e m).now = s.now := by intro s e m; cases e <;> rfl
  unfold pkStep at h
  split at h
  · simp at h
  cases a with
  | tick d => exact absurd rfl (ha d)
  | _ =>
    simp only at h
    repeat' split at h
    all_goals first
      | (simp at h; done)
      | (simp only [Option.some.injEq] at h; subst h; first | rfl | exact hset _ _ _)

theorem pdStep_now {U : CaseFns} {s s' : PdState} {a : PdAct} (h : pdStep U s a = some s') (ha : ∀ d, a ≠ .tick d) : s'.now = s.now := by
  unfold pdStep at h
  split at h
  · simp at h
  cases a with
  | tick d => exact absurd rfl (ha d)
  | _ =>
    simp only at h
    repeat' split at h
    all_goals first
      | (simp at h; done)
      | (simp only [Option.some.injEq] at h; subst h; rfl)

theorem pdStep_check_crashed {U : CaseFns} {s s' : PdState} {q : CheckReq} (h : pdStep U s (.check q) = some s') :
    s' = { s with checks := s.checks ++ [⟨q, none, q.init (fun _ => none)⟩] } := by
  unfold pdStep at h
  split at h
  · simp at h
  · simp only [Option.some.injEq] at h; exact h.symm

theorem SysBase.step {cfg : SysCfg} {now : Int} {h : List SysAct} {s s' : Sys} {a : SysAct} (hb : SysBase cfg now h s)
    (hs : sysStep cfg s a = some s') : SysBase cfg now (h ++ [a]) s' := by
  obtain ⟨hdead, he⟩ := sysStep_effect hs
  obtain ⟨hpkc, hpdc, hfc⟩ := hb.alive hdead
  have hpart : ∀ b, pkPart b = [] → (h ++ [b]).flatMap pkPart = h.flatMap pkPart := by intro b hb'; simp [hb']
  have hpart' : ∀ b c, pkPart b = [c] → (h ++ [b]).flatMap pkPart = h.flatMap pkPart ++ [c] := by intro b c hb'; simp [hb']
  cases he with
  | tick d =>
    refine ⟨fun _ => ⟨hpkc, hpdc, hfc⟩, ⟨?_, ?_, ?_⟩, hb.keys, hb.jwkp, ?_, hb.jwk, hb.domains, hb.doms⟩
    · simp only [hb.clock.1]
    · simp only [hb.clock.2.1]
    · intro x; simp only [hb.clock.2.2 x]
    · rw [hpart' _ (.tick d) rfl, pkRun_append, hb.pk]
      simp [pkRun, pkStep, hpkc]
  | pk a pk' ha hp =>
    refine ⟨?_, ?_, ⟨rfl, fun _ => rfl⟩, hb.jwkp, ?_, hb.jwk, hb.domains, hb.doms⟩
    · intro hd
      exact ⟨hd, hpdc, hfc⟩
    · have := pkStep_now hp ha
      exact ⟨by simp only [Sys.withKeys]; rw [this]; exact hb.clock.1, hb.clock.2.1, hb.clock.2.2⟩
    · rw [hpart' _ a rfl, pkRun_append, hb.pk]
      simp [pkRun, hp, Sys.withKeys]
  | jwk a jwk' hj =>
    refine ⟨fun _ => ⟨hpkc, hpdc, hfc⟩, hb.clock, hb.keys, rfl, ?_, ⟨jwkKeysInv_step hb.jwk.1 hj, jwkStoredInv_step hb.jwk.2 hj⟩,
      hb.domains, hb.doms⟩
    rw [hpart _ rfl]; exact hb.pk
  | fetcher dom a f ha hf =>
    obtain ⟨h1, h2⟩ := fStep_env hf (.inl ha)
    refine ⟨?_, ⟨hb.clock.1, hb.clock.2.1, ?_⟩, ⟨hb.keys.1, ?_⟩, hb.jwkp, ?_, hb.jwk, hb.domains, hb.doms⟩
    · intro hd
      refine ⟨hpkc, hpdc, fun x => ?_⟩
      simp only
      split
      · exact hd
      · exact hfc x
    · intro x
      simp only
      split
      · rw [h1]; exact hb.clock.2.2 dom
      · exact hb.clock.2.2 x
    · intro x
      simp only
      split
      · rw [h2]; exact hb.keys.2 dom
      · exact hb.keys.2 x
    · rw [hpart _ rfl]; exact hb.pk
  | pd a pd' D F W ha hp hD hF _ =>
    have hF' : ∀ x, (F x).now = (s.fs x).now ∧ (F x).keys = (s.fs x).keys ∧ (F x).crashed = false := by
      intro x
      rcases hF with rfl | ⟨dom, f, hf, rfl⟩
      · exact ⟨rfl, rfl, hfc x⟩
      · simp only
        split
        · rename_i hx
          subst hx
          obtain ⟨h1, h2⟩ := fStep_env hf (.inr ⟨true, rfl⟩)
          refine ⟨h1, h2, ?_⟩
          unfold fStep at hf
          split at hf
          · simp at hf
          · rename_i hcr
            simp only [Option.some.injEq] at hf
            subst hf
            simpa using hcr
        · exact ⟨rfl, rfl, hfc x⟩
    refine ⟨?_, ⟨hb.clock.1, ?_, ?_⟩, ⟨hb.keys.1, ?_⟩, hb.jwkp, ?_, hb.jwk, ?_, ?_⟩
    · intro hd
      exact ⟨hpkc, hd, fun x => (hF' x).2.2⟩
    · simp only
      rw [pdStep_now hp ha]; exact hb.clock.2.1
    · intro x; simp only [(hF' x).1]; exact hb.clock.2.2 x
    · intro x; simp only [(hF' x).2.1]; exact hb.keys.2 x
    · rw [hpart _ rfl]; exact hb.pk
    · simp only
      rw [pdStep_domains hp]; exact hb.domains
    · intro ds hds x hx
      simp only at hds
      rcases hD with rfl | ⟨ds', rfl, h2⟩
      · exact hb.doms ds hds x hx
      · rcases List.mem_append.mp hds with hds | hds
        · exact hb.doms ds hds x hx
        · simp only [List.mem_singleton] at hds
          subst hds
          rcases h2 with rfl | ⟨y, hy, rfl⟩
          · exact hx
          · simp only [List.mem_singleton] at hx
            subst hx
            rw [← hb.domains]; exact hy
  | nilPolicy i j =>
    refine ⟨by simp, hb.clock, hb.keys, hb.jwkp, ?_, hb.jwk, hb.domains, hb.doms⟩
    rw [hpart _ rfl]; exact hb.pk
  | beginCheck i q p act res pd' hc hn hp =>
    have hpd := pdStep_check_crashed hp
    subst hpd
    refine ⟨fun _ => ⟨hpkc, hpdc, hfc⟩, hb.clock, hb.keys, hb.jwkp, ?_, hb.jwk, hb.domains, hb.doms⟩
    rw [hpart _ rfl]; exact hb.pk
  | endCheck i view sched k c r auth' hk hc hl hr hv hst =>
    obtain ⟨h1, h2, h3⟩ := aStep_env hst (.inr ⟨i, view, sched, rfl⟩)
    refine ⟨fun _ => ⟨hpkc, hpdc, hfc⟩, ?_, ?_, ?_, ?_, hb.jwk, hb.domains, hb.doms⟩
    · simp only [h1]; exact hb.clock
    · simp only [h2]; exact hb.keys
    · simp only [h3]; exact hb.jwkp
    · rw [hpart _ rfl]; exact hb.pk
  | auth a auth' ha hst =>
    obtain ⟨h1, h2, h3⟩ := aStep_env hst (.inl ha)
    refine ⟨fun _ => ⟨hpkc, hpdc, hfc⟩, ?_, ?_, ?_, ?_, hb.jwk, hb.domains, hb.doms⟩
    · simp only [h1]; exact hb.clock
    · simp only [h2]; exact hb.keys
    · simp only [h3]; exact hb.jwkp
    · rw [hpart _ rfl]; exact hb.pk

/-! ### Histories only grow -/

theorem KeysServed.mono {cfg : SysCfg} {h h' : List SysAct} {e : Env} {es : List (Option PubKeyEntry)} (hk : KeysServed cfg h e es) :
    KeysServed cfg (h ++ h') e es := by
  obtain ⟨j, x, b, o, h1, h2⟩ := hk
  exact ⟨j, x, b, o, List.mem_append_left _ h1, h2⟩

theorem TrustedKey.mono {cfg : SysCfg} {h h' : List SysAct} {e : Env} {id : Str} {ver : SigVerifier} (hk : TrustedKey cfg h e id ver) :
    TrustedKey cfg (h ++ h') e id ver := by
  obtain ⟨es, h1, h2⟩ := hk
  exact ⟨es, KeysServed.mono h1, h2⟩

theorem PolicyReceived.mono {cfg : SysCfg} {s0 : Sys} {h h' : List SysAct} {dom : Str} {sp : SignedPolicy}
    (hp : PolicyReceived cfg s0 h dom sp) : PolicyReceived cfg s0 (h ++ h') dom sp := by
  obtain ⟨pre, j, t, b, post, s, rfl, h2⟩ := hp
  exact ⟨pre, j, t, b, post ++ h', s, by simp, h2⟩

theorem ReceivedAssertion.mono {cfg : SysCfg} {s0 : Sys} {h h' : List SysAct} {dom : Str} {a : RawAssertion}
    (hp : ReceivedAssertion cfg s0 h dom a) : ReceivedAssertion cfg s0 (h ++ h') dom a := by
  obtain ⟨sp, d, h1, h2⟩ := hp
  exact ⟨sp, d, PolicyReceived.mono h1, h2⟩

theorem TokenAccepted.mono {cfg : SysCfg} {s0 : Sys} {h h' : List SysAct} {q : AReq} {p : Principal}
    (hp : TokenAccepted cfg s0 h q p) : TokenAccepted cfg s0 (h ++ h') q p := by
  obtain ⟨pre, post, s, rfl, h2⟩ := hp
  exact ⟨pre, post ++ h', s, by simp, h2⟩

theorem PolicyGrants.mono {cfg : SysCfg} {s0 : Sys} {h h' : List SysAct} {q : AReq} {p : Principal}
    (hp : PolicyGrants cfg s0 h q p) : PolicyGrants cfg s0 (h ++ h') q p := by
  obtain ⟨h0, seed, act, res, h1, h2⟩ := hp
  refine ⟨h0, seed, act, res, h1, fun role hr => ?_⟩
  obtain ⟨h3, dom, hdom, a, h4, h5⟩ := h2 role hr
  exact ⟨h3, dom, hdom, a, ReceivedAssertion.mono h4, h5⟩

theorem Origin.mono {cfg : SysCfg} {s0 : Sys} {h h' : List SysAct} {q : AReq} {p : Principal}
    (hp : Origin cfg s0 h q p) : Origin cfg s0 (h ++ h') q p :=
  ⟨TokenAccepted.mono hp.1, fun hd => PolicyGrants.mono (hp.2 hd)⟩

/-! ### Keys -/

/-- Every key of the daemon was published. -/
theorem SysBase.trusted {cfg : SysCfg} {now : Int} {h : List SysAct} {s : Sys} (hb : SysBase cfg now h s) {e : Env} {id : Str}
    {ver : SigVerifier} (hv : s.pk.provider e id = some ver) : TrustedKey cfg h e id ver := by
  have hload : (s.pk.keysOf e).load id = some ver := by
    cases e
    · exact hv
    · exact hv
  have hq : KeysQuiet e (pkInit now) := by intro i cm todo; simp [pkInit]
  have hinv := lookInv_run (cfg := cfg.pk) (now := now) (e := e) (h0 := []) (s0 := pkInit now) rfl hq hb.pk
  rcases hinv.value id with h1 | ⟨es, ⟨j, x, b, o, hmem, h2⟩, h3⟩
  · rw [hload] at h1
    cases e <;> simp [pkInit, PkState.keysOf, SMap.load] at h1
  · refine ⟨es, ⟨j, x, b, o, ?_, h2⟩, by rw [← h3]; exact hload⟩
    rw [List.mem_flatMap] at hmem
    obtain ⟨a, ha, hp⟩ := hmem
    cases a with
    | tick d => simp [pkPart] at hp
    | pk a => simp only [pkPart, List.mem_singleton] at hp; subst hp; exact ha
    | _ => simp [pkPart] at hp

/-- Every key that the JWK daemon gives out is in a set got from the URL. -/
theorem SysBase.trustedJwk {cfg : SysCfg} {now : Int} {h : List SysAct} {s : Sys} (hb : SysBase cfg now h s) {kid jku : Str} {k : JKey}
    (hk : getKey cfg.jwk s.jwk kid jku = some k) : TrustedJwk cfg s (lookupURL cfg.jwk jku) kid k := by
  unfold getKey at hk
  split at hk
  · simp at hk
  · have hu : (if jku = [] then cfg.jwk.athenzURL else jku) = lookupURL cfg.jwk jku := rfl
    rw [hu] at hk
    split at hk
    · simp at hk
    · rename_i set hset
      rw [hb.jwk.1] at hset
      obtain ⟨j, hj⟩ := mem_stores.mp (latest_mem hset)
      obtain ⟨h1, h2⟩ := hb.jwk.2.1 j _ set hj
      exact ⟨mem_targets.mp h2, j, set, h1, lookup_iff.mp hk⟩

/-- A token that validates is signed with a trusted key. -/
theorem SysBase.signed {cfg : SysCfg} {now : Int} {h : List SysAct} {s : Sys} (hb : SysBase cfg now h s) {q : AReq} {p : Principal}
    {t : Int} (ht : TokenSays cfg.auth t s.auth.keys s.auth.jwkp q p) : SignedToken cfg h s q := by
  unfold TokenSays at ht
  unfold SignedToken
  split at ht
  · rename_i hm
    rw [hm]
    obtain ⟨ks, rt, hk, hp, _⟩ := ht
    rw [hb.keys.1] at hk
    simp only [Option.some.injEq] at hk
    subst hk
    obtain ⟨hparse, _, ver, hver, hsig⟩ := accept_iff.mp hp
    obtain ⟨u, sig, kvs, htext, hrt⟩ := parseRoleToken_ok.mp hparse
    obtain ⟨hf, hu, hs⟩ := (applyPairs_iff htext).mp hrt
    refine ⟨u, sig, kvs, ver, htext, ?_, by rw [← hu, ← hs]; exact hsig⟩
    rw [← hf.keyId]
    exact hb.trusted hver
  · rename_i hm
    rw [hm]
    obtain ⟨ks, c, hk, hp, _⟩ := ht
    rw [hb.jwkp] at hk
    simp only [Option.some.injEq] at hk
    subst hk
    obtain ⟨hparse, _⟩ := access_iff.mp hp
    obtain ⟨hd, pl, sg, hdr, k, hseg, hhdr, _, hkf, hsig, _⟩ := parse_iff.mp hparse
    obtain ⟨kid, hkid, hjku⟩ := keyFunc_iff.mp hkf
    rcases hjku with ⟨hj, hkey⟩ | ⟨u, hj, hkey⟩
    · exact ⟨hd, pl, sg, hdr, k, kid, _, hseg, hhdr, hkid, .inl ⟨hj, rfl⟩, by simpa [lookupURL] using hb.trustedJwk hkey, hsig⟩
    · exact ⟨hd, pl, sg, hdr, k, kid, _, hseg, hhdr, hkid, .inr ⟨u, hj, rfl⟩, hb.trustedJwk hkey, hsig⟩

end Athenz
