import Verif.Proofs.Withdraw
import Verif.Proofs.AuthSess
import Verif.Props.Change
import Verif.Spec.SystemCert

/-! # C73: how long a withdrawn permission is granted

Results are cached, so that a permission that is withdrawn from the policies is granted for some time.  A grant is allowed by policies that
were in force while a call for the same request was running, and if that was an earlier call, then its result was stored no longer than the
lifetime of cached results before it was used. -/

namespace Athenz
open Spec

/-- `InForce` determines the documents. -/
theorem inForce_unique {cfg : SysCfg} {s0 : Sys} {h : List SysAct} {s : Sys} {docs docs' : List (Option PolicyDoc)}
    (h1 : InForce cfg s0 h s docs) (h2 : InForce cfg s0 h s docs') : docs = docs' := by
  have fetched : ∀ i, Fetched cfg s0 h s i docs → Fetched cfg s0 h s i docs' → docs = docs' := by
    rintro i ⟨hl, hf⟩ ⟨hl', hf'⟩
    refine List.ext_getElem? fun j => ?_
    by_cases hj : j < cfg.domains.length
    · obtain ⟨dom, hdom⟩ := getElem?_of_lt hj
      obtain ⟨sp, d, _, a1, a2, a3, _⟩ := hf j dom hdom
      obtain ⟨sp', d', _, b1, b2, b3, _⟩ := hf' j dom hdom
      rw [a1] at b1
      simp only [Option.some.injEq] at b1
      subst b1
      rw [← docOf_iff, docOf_iff.mpr a2] at b2
      simp only [Res.ok.injEq] at b2
      subst b2
      rw [a3, b3]
    · rw [List.getElem?_eq_none (by omega), List.getElem?_eq_none (by omega)]
  rcases h1 with ⟨rfl, hn⟩ | ⟨i, hi, hf⟩
  · rcases h2 with ⟨rfl, _⟩ | ⟨i, ⟨⟨t, ht, hr⟩, _⟩, _⟩
    · rfl
    · exact absurd hr (hn t (List.mem_of_getElem? ht))
  · rcases h2 with ⟨rfl, hn⟩ | ⟨i', hi', hf'⟩
    · obtain ⟨⟨t, ht, hr⟩, _⟩ := hi
      exact absurd hr (hn t (List.mem_of_getElem? ht))
    · obtain rfl := lastUpdate_unique hi hi'
      exact fetched i hf hf'

/-- At a moment when the call `j` for the request `q` was running, after the history `h1`, the documents `docs` were in force, and they
prescribe the outcome `p`, as far as they are regular for the roles of the token until the end `s` of the history, if the refreshes of expired
entries that began while they were in force got nothing about these roles that they do not say; the token was valid when it was checked. -/
def Spec.DecidedBy (cfg : SysCfg) (now : Int) (h : List SysAct) (s : Sys) (j : Nat) (q : AReq) (p : Principal) (h1 : List SysAct)
    (docs : List (Option PolicyDoc)) : Prop :=
  TokenAccepted cfg (sysInit cfg now) h q p ∧ ∃ h2 s1 pc seed act res, h = h1 ++ h2 ∧ sysRun cfg (sysInit cfg now) h1 = some s1 ∧
    s1.auth.calls j = some ⟨q, pc⟩ ∧ (∀ r, pc ≠ .done r) ∧ InForce cfg (sysInit cfg now) h1 s1 docs ∧ Translates cfg.auth seed p.domain q act res ∧
    ((∀ role ∈ p.roles, RegularAt cfg.auth.U docs now s.auth.now s.auth.now (p.domain ++ ":role.".toList ++ role)) →
      RefreshedWith cfg (sysInit cfg now) h1 s1 h s (fun d => ∀ role ∈ p.roles, SaysAlike docs now s.auth.now (p.domain ++ ":role.".toList ++ role) d) →
      Decision cfg.auth.U (allAssertions docs) ⟨p.domain, p.roles, act, cfg.auth.resourcePrefix ++ res⟩ (.ok p.authorizedRoles))

theorem Spec.DecidedBy.mono {cfg : SysCfg} {now : Int} {h h' : List SysAct} {s s' : Sys} {j : Nat} {q : AReq} {p : Principal} {h1 : List SysAct}
    {docs : List (Option PolicyDoc)} (h0 : 0 ≤ now) (hr : sysRun cfg (sysInit cfg now) h = some s) (hr' : sysRun cfg s h' = some s')
    (hd : DecidedBy cfg now h s j q p h1 docs) : DecidedBy cfg now (h ++ h') s' j q p h1 docs := by
  have ht := sysRun_now hr'
  obtain ⟨h3, h2, s1, pc, seed, act, res, rfl, a1, a2, a3, a4, a5, a6⟩ := hd
  exact ⟨TokenAccepted.mono h3, h2 ++ h', s1, pc, seed, act, res, by simp, a1, a2, a3, a4, a5,
    fun hreg hrw => a6 (fun role hr => (hreg role hr).earlier h0 (Int.le_refl _) ht ht)
      ((hrw.earlier hr hr').imp fun d h role hr => (h role hr).earlier ht (Int.le_refl _))⟩

structure WInv (cfg : SysCfg) (now : Int) (h : List SysAct) (s : Sys) : Prop where
  checked : ∀ i q p, s.auth.calls i = some ⟨q, .checked p⟩ → ∃ h1 docs, DecidedBy cfg now h s i q p h1 docs
  stored : ∀ j ts k p, .stored j ts k p ∈ s.auth.log → ∃ q, s.auth.calls j = some ⟨q, .done (.ok p)⟩ ∧ k = cacheKey cfg.auth q ∧
    ∃ h1 docs, DecidedBy cfg now h s j q p h1 docs

theorem wInv_step {cfg : SysCfg} {now : Int} (h0 : 0 ≤ now) (hpol : cfg.auth.disablePolicyd = false) {h : List SysAct} {s s' : Sys} {a : SysAct}
    (hi : WInv cfg now h s) (hr : sysRun cfg (sysInit cfg now) h = some s) (hs : sysStep cfg s a = some s') :
    WInv cfg now (h ++ [a]) s' := by
  have hone : sysRun cfg s [a] = some s' := by simp [sysRun, hs]
  have mono : ∀ {j q p}, (∃ h1 docs, DecidedBy cfg now h s j q p h1 docs) →
      ∃ h1 docs, DecidedBy cfg now (h ++ [a]) s' j q p h1 docs := fun ⟨h1, docs, hd⟩ => ⟨h1, docs, hd.mono h0 hr hone⟩
  have hchecked : ∀ i q p, s'.auth.calls i = some ⟨q, .checked p⟩ → s.auth.calls i = some ⟨q, .checked p⟩ ∨
      ∃ h1 docs, DecidedBy cfg now (h ++ [a]) s' i q p h1 docs := by
    intro i q p hc
    rcases sysStep_auth hs with ⟨h1, _⟩ | ⟨b, hb, hst, _⟩
    · rw [h1] at hc; exact .inl hc
    · have old : ∀ (j : Nat) (q' : AReq) (pc' : Pc), s'.auth.calls = (fun i => if i = j then some ⟨q', pc'⟩ else s.auth.calls i) →
          (∀ p, pc' ≠ .checked p) → s.auth.calls i = some ⟨q, .checked p⟩ := by
        intro j q' pc' he hne
        rw [he] at hc
        simp only at hc
        split at hc
        · simp only [Option.some.injEq, Call.mk.injEq] at hc
          exact absurd hc.2 (hne p)
        · exact hc
      have heff := aStep_effect hst
      generalize hg : s'.auth = s2 at heff
      cases heff with
      | call j q' hj => exact .inl (old j q' _ (by rw [hg]; rfl) (by simp))
      | sub k j q' rest tried hs hj => exact .inl (old j q' _ (by rw [hg]; rfl) (by simp))
      | bad j q' hj => exact .inl (old j q' _ (by rw [hg]; rfl) (by simp))
      | hit j q' p hj => exact .inl (old j q' _ (by rw [hg]; rfl) (by simp))
      | miss j q' hj => exact .inl (old j q' _ (by rw [hg]; rfl) (by simp))
      | valid j q' p hj => exact .inl (old j q' _ (by rw [hg]; rfl) (by simp [hpol]))
      | invalid j q' r hj => exact .inl (old j q' _ (by rw [hg]; rfl) (by simp))
      | trans j seed q' p act res hj => exact .inl (old j q' _ (by rw [hg]; rfl) (by simp))
      | transFail j seed q' p r hj => exact .inl (old j q' _ (by rw [hg]; rfl) (by simp))
      | checkFail j view sched q' p act res r hj => exact .inl (old j q' _ (by rw [hg]; rfl) (by simp))
      | store j q' p hj => exact .inl (old j q' _ (by rw [hg]; rfl) (by simp))
      | check j view sched q' p' act res rs hj hcr =>
        by_cases hij : i = j
        · subst hij
          rcases hb with hb | ⟨i', view', sched', rfl, hb⟩
          · exfalso
            subst hb
            simp only [sysStep] at hs
            split at hs
            · simp at hs
            · simp at hs
          · simp only [AAct.check.injEq] at hb
            obtain ⟨rfl, rfl, rfl⟩ := hb
            obtain ⟨q0, p0, seed, act0, res0, r, h1, h2, s1, docs, c1, c2, c3, c4, c5, c6, c7, c8, c9⟩ :=
              C68_call_partial cfg now h0 h s s' hr i view sched hs
            rw [hj] at c1
            simp only [Option.some.injEq, Call.mk.injEq, Pc.translated.injEq] at c1
            obtain ⟨rfl, rfl, rfl, rfl⟩ := c1
            rw [hc] at c2
            cases r with
            | ok rs' =>
              simp only [afterCheck, Option.some.injEq, Call.mk.injEq, Pc.checked.injEq] at c2
              obtain ⟨rfl, rfl⟩ := c2
              refine .inr ⟨h1, docs, ?_⟩
              have hrun : sysRun cfg s1 h2 = some s := by rw [c5, sysRun_append, c7] at hr; exact hr
              obtain ⟨q1, pc1, hq1⟩ := beginCheck_call c7 c6
              obtain ⟨pc2, hq2, hdone⟩ := sysRun_calls hrun hq1
              rw [hj] at hq2
              simp only [Option.some.injEq, Call.mk.injEq] at hq2
              obtain ⟨rfl, rfl⟩ := hq2
              have hd : DecidedBy cfg now h s i q { p' with authorizedRoles := rs' } h1 docs := by
                refine ⟨?_, h2, s1, pc1, seed, act, res, c5, c7, hq1, ?_, c8, c4, c9⟩
                · obtain ⟨pre, post, sx, d1, d2, d3, d4⟩ := c3
                  exact ⟨pre, post, sx, d1, d2, d3, d4⟩
                · rintro r rfl
                  exact absurd (hdone ⟨r, rfl⟩) (by simp)
              exact hd.mono h0 hr hone
            | err e => simp [afterCheck] at c2
            | panic => simp [afterCheck] at c2
        · refine .inl ?_
          rw [hg] at hc
          simpa [AState.note, AState.setPc, hij] using hc
      | opened k r act res hk => rw [hg] at hc; exact .inl hc
      | finFails k e rest tried hk => rw [hg] at hc; exact .inl hc
      | fin k c rest i' tried q' r hk hj => rw [hg] at hc; exact .inl hc
      | tick d => rw [hg] at hc; exact .inl hc
      | setKeys ks => rw [hg] at hc; exact .inl hc
      | setJwkp ks => rw [hg] at hc; exact .inl hc
      | sweep sel => rw [hg] at hc; exact .inl hc
      | clear => rw [hg] at hc; exact .inl hc
  refine ⟨fun i q p hc => ?_, fun j ts k p hm => ?_⟩
  · rcases hchecked i q p hc with h | h
    · exact mono (hi.checked i q p h)
    · exact h
  · rcases (sysStep_log hs).2.1 j ts k p hm with h | ⟨_, q, hq, hq', hk⟩
    · obtain ⟨q, h1, h2, h3⟩ := hi.stored j ts k p h
      obtain ⟨pc, h4, h5⟩ := sysStep_calls hs h1
      obtain rfl := h5 ⟨_, rfl⟩
      exact ⟨q, h4, h2, mono h3⟩
    · exact ⟨q, hq', hk, mono (hi.checked j q p hq)⟩

theorem wInv_run {cfg : SysCfg} {now : Int} (h0 : 0 ≤ now) (hpol : cfg.auth.disablePolicyd = false) {h : List SysAct} {s : Sys}
    (hr : sysRun cfg (sysInit cfg now) h = some s) : WInv cfg now h s := by
  refine sysRun_ind (fun h s => WInv cfg now h s) ⟨by simp [sysInit, aInit], by simp [sysInit, aInit]⟩ ?_ h s hr
  intro h s a s' ih hr hs
  exact wInv_step h0 hpol ih hr hs

/-- **C73**.  A granted call was decided by policies that were in force while it was running, or it took the result of another call for the
same cache key, stored no longer than the lifetime of cached results before, which was decided by policies in force while that call was
running. -/
theorem C73_grant_partial (cfg : SysCfg) (now : Int) (h0 : 0 ≤ now) (hpol : cfg.auth.disablePolicyd = false) (h : List SysAct) (s : Sys)
    (hr : sysRun cfg (sysInit cfg now) h = some s) (i : Nat) (q : AReq) (p : Principal)
    (hc : s.auth.calls i = some ⟨q, .done (.ok p)⟩) :
    (∃ h1 docs, DecidedBy cfg now h s i q p h1 docs) ∨
    ∃ j q' tb th ts h1 docs, .begun i tb ∈ s.auth.log ∧ tb ≤ th ∧ .hit i th ∈ s.auth.log ∧ .stored j ts (cacheKey cfg.auth q) p ∈ s.auth.log ∧
      Fresh cfg.auth.cacheExp ts th ∧ s.auth.calls j = some ⟨q', .done (.ok p)⟩ ∧ cacheKey cfg.auth q' = cacheKey cfg.auth q ∧
      DecidedBy cfg now h s j q' p h1 docs := by
  have hw := wInv_run h0 hpol hr
  obtain ⟨acts, ha⟩ := (sysRuns_run hr).2.auth
  rcases (aInv_run h0 ha).pcs i q _ hc with ⟨ts, hst⟩ | ⟨th, j, ts, h1, h2, h3, _, ⟨tb, h5, h6⟩, _⟩
  · obtain ⟨q', g1, _, g3⟩ := hw.stored i ts _ p hst
    rw [hc] at g1
    simp only [Option.some.injEq, Call.mk.injEq, and_true] at g1
    subst g1
    exact .inl g3
  · obtain ⟨q', g1, g2, x, docs, g3⟩ := hw.stored j ts _ p h2
    exact .inr ⟨j, q', tb, th, ts, x, docs, h5, h6, h1, h2, h3, g1, g2.symm, g3⟩

/-- The full statement of C73: from the end of `pre` on, only the policies `docs` are in force.  A call that begins when the lifetime of
cached results has passed since then is granted only what they allow, unless one of them has expired. -/
def C73_statement : Prop :=
  ∀ (cfg : SysCfg) (now : Int) (pre mid post : List SysAct) (s0 s1 s : Sys) (docs : List (Option PolicyDoc)) (i : Nat) (q : AReq) (p : Principal),
    0 ≤ now → cfg.auth.disablePolicyd = false → 0 < cfg.auth.cacheExp → (∀ n f, .pd (.hook n f) ∉ pre ++ mid ++ post) →
    sysRun cfg (sysInit cfg now) pre = some s0 → sysRun cfg s0 mid = some s1 → sysRun cfg s1 post = some s →
    s.auth.now + cfg.auth.cacheExp < 2 ^ 63 → OnlyInForce cfg (sysInit cfg now) (pre ++ mid ++ post) pre.length docs →
    s0.auth.now + cfg.auth.cacheExp < s1.auth.now → s1.auth.calls i = none → s.auth.calls i = some ⟨q, .done (.ok p)⟩ →
    (∀ d, some d ∈ docs → s.auth.now < d.expires ∧ d.expires + s.auth.now < 2 ^ 63) →
    ∃ q' seed act res, cacheKey cfg.auth q' = cacheKey cfg.auth q ∧ Translates cfg.auth seed p.domain q' act res ∧
      (∃ role ∈ p.roles, Allowed cfg.auth.U (allAssertions docs) p.domain role act (cfg.auth.resourcePrefix ++ res)) ∧
      ¬ ∃ role ∈ p.roles, Denied cfg.auth.U (allAssertions docs) p.domain role act (cfg.auth.resourcePrefix ++ res)

/-- **C73**.  From the end of `pre` on, only the policies `docs` are in force; at the end of `mid` all calls that had begun in `pre` have
returned; when `late` ends, more time than the lifetime of cached results has passed since.  Then a call that begins later is granted only what
the policies allow, if they are regular for its roles and the refreshes of expired entries that began while they were in force got nothing about
these roles that they do not say.  Missing: without the condition on the calls it is false (`C73_refuted`); policies that are not regular (C68), and
policies that were refreshed with others (C13). -/
theorem C73_withdrawn_partial (cfg : SysCfg) (now : Int) (h0 : 0 ≤ now) (hpol : cfg.auth.disablePolicyd = false) (hexp : 0 < cfg.auth.cacheExp)
    (pre mid late post : List SysAct) (s0 s1 s2 s : Sys) (docs : List (Option PolicyDoc))
    (hr0 : sysRun cfg (sysInit cfg now) pre = some s0) (hr1 : sysRun cfg s0 mid = some s1) (hr2 : sysRun cfg s1 late = some s2)
    (hr : sysRun cfg s2 post = some s) (hbig : s.auth.now + cfg.auth.cacheExp < 2 ^ 63)
    (honly : OnlyInForce cfg (sysInit cfg now) (pre ++ mid ++ late ++ post) pre.length docs)
    (hdone : ∀ j q pc, s0.auth.calls j = some ⟨q, pc⟩ → ∃ r, s1.auth.calls j = some ⟨q, .done r⟩)
    (hlate : s1.auth.now + cfg.auth.cacheExp < s2.auth.now) (i : Nat) (q : AReq) (p : Principal) (hnew : s2.auth.calls i = none)
    (hc : s.auth.calls i = some ⟨q, .done (.ok p)⟩)
    (hreg : ∀ role ∈ p.roles, RegularAt cfg.auth.U docs now s.auth.now s.auth.now (p.domain ++ ":role.".toList ++ role))
    (hrw : RefreshedSince cfg (sysInit cfg now) (pre ++ mid ++ late ++ post) s pre.length
      (fun d => ∀ role ∈ p.roles, SaysAlike docs now s.auth.now (p.domain ++ ":role.".toList ++ role) d)) :
    ∃ q' seed act res, cacheKey cfg.auth q' = cacheKey cfg.auth q ∧ TokenAccepted cfg (sysInit cfg now) (pre ++ mid ++ late ++ post) q' p ∧
      Translates cfg.auth seed p.domain q' act res ∧
      Decision cfg.auth.U (allAssertions docs) ⟨p.domain, p.roles, act, cfg.auth.resourcePrefix ++ res⟩ (.ok p.authorizedRoles) := by
  have hrun1 : sysRun cfg (sysInit cfg now) (pre ++ mid) = some s1 := by rw [sysRun_append, hr0]; exact hr1
  have hrun2 : sysRun cfg (sysInit cfg now) (pre ++ mid ++ late) = some s2 := by rw [sysRun_append, hrun1]; exact hr2
  have hrun : sysRun cfg (sysInit cfg now) (pre ++ mid ++ late ++ post) = some s := by rw [sysRun_append, hrun2]; exact hr
  have hr02 : sysRun cfg s0 (mid ++ late) = some s2 := by rw [sysRun_append, hr1]; exact hr2
  -- the documents that decided about a call which did not exist at the end of `pre`
  have key : ∀ j q' h1 docs', s0.auth.calls j = none → cacheKey cfg.auth q' = cacheKey cfg.auth q →
      DecidedBy cfg now (pre ++ mid ++ late ++ post) s j q' p h1 docs' →
      ∃ q' seed act res, cacheKey cfg.auth q' = cacheKey cfg.auth q ∧ TokenAccepted cfg (sysInit cfg now) (pre ++ mid ++ late ++ post) q' p ∧
        Translates cfg.auth seed p.domain q' act res ∧
        Decision cfg.auth.U (allAssertions docs) ⟨p.domain, p.roles, act, cfg.auth.resourcePrefix ++ res⟩ (.ok p.authorizedRoles) := by
    intro j q' h1 docs' hj hk hd
    obtain ⟨htok, h2, sx, pc, seed, act, res, he, hx, hjx, _, hin, htr, hdec⟩ := hd
    have hlen : pre.length ≤ h1.length := by
      refine Classical.byContradiction fun hlt => ?_
      obtain ⟨z, hz⟩ : ∃ z, pre = h1 ++ z := by
        refine ⟨pre.drop h1.length, ?_⟩
        have : pre.take h1.length = h1 := by
          have := congrArg (List.take h1.length) he
          rw [List.append_assoc, List.append_assoc, List.take_append_of_le_length (by omega), List.take_append_of_le_length (Nat.le_refl _)] at this
          simpa using this
        conv => lhs; rw [← List.take_append_drop h1.length pre, this]
      rw [hz, sysRun_append, hx] at hr0
      obtain ⟨pc', h3, _⟩ := sysRun_calls hr0 hjx
      rw [hj] at h3; simp at h3
    obtain rfl := honly h1 h2 sx docs' he hlen hx hin
    exact ⟨q', seed, act, res, hk, htok, htr, hdec hreg (hrw h1 h2 sx he hlen hx)⟩
  have hi0 : s0.auth.calls i = none := by
    cases hi : s0.auth.calls i with
    | none => rfl
    | some c =>
      obtain ⟨q0, pc⟩ := c
      obtain ⟨pc', h3, _⟩ := sysRun_calls hr02 hi
      rw [hnew] at h3; simp at h3
  rcases C73_grant_partial cfg now h0 hpol _ s hrun i q p hc with ⟨h1, docs', hd⟩ |
    ⟨j, q', tb, th, ts, h1, docs', hb, hle, _, hst, hfr, hcj, hk, hd⟩
  · exact key i q h1 docs' hi0 rfl hd
  · -- the call began late, so the result was stored after `mid`
    have htb : s2.auth.now ≤ tb := by
      have : ∀ (l : List SysAct) (sa : Sys), sysRun cfg s2 l = some sa → ∀ t, AEvent.begun i t ∈ sa.auth.log → s2.auth.now ≤ t := by
        intro l sa
        refine sysRun_ind (fun _ sa => ∀ t, AEvent.begun i t ∈ sa.auth.log → s2.auth.now ≤ t) ?_ ?_ l sa
        · intro t hm
          obtain ⟨acts, ha⟩ := (sysRuns_run hrun2).2.auth
          exact absurd hm ((bInv_run ha).none_ i t hnew)
        · intro l sa a sb ih hra hs t hm
          rcases (sysStep_log hs).2.2 i t hm with h | ⟨h, _⟩
          · exact ih t h
          · rw [h]; exact sysRun_now hra
      exact this post s hr tb hb
    have hts : s1.auth.now < ts := by
      have h1 := (log_past hrun).1 _ _ _ _ hst
      have := hfr.2 hexp (by omega)
      omega
    have hj0 : s0.auth.calls j = none := by
      cases hj : s0.auth.calls j with
      | none => rfl
      | some c =>
        obtain ⟨qj, pcj⟩ := c
        obtain ⟨r, h3⟩ := hdone j qj pcj hj
        have hr1s : sysRun cfg s1 (late ++ post) = some s := by rw [sysRun_append, hr2]; exact hr
        have := (log_past hrun1).1 _ _ _ _ (sysRun_stored hr1s h3 hst)
        omega
    exact key j q' h1 docs' hj0 hk hd

/-- Calls that a session makes are made after it began. -/
theorem sess_calls {cfg : SysCfg} {s2 s : Sys} {post : List SysAct} (hr : sysRun cfg s2 post = some s) {k : Nat} (hk : s2.auth.sess k = none) :
    ∀ x, s.auth.sess k = some x → (∀ j, x.cur = some j → s2.auth.calls j = none) ∧ ∀ c j r, (c, some j, r) ∈ x.tried → s2.auth.calls j = none := by
  refine sysRun_ind (fun _ s => ∀ x, s.auth.sess k = some x → (∀ j, x.cur = some j → s2.auth.calls j = none) ∧
    ∀ c j r, (c, some j, r) ∈ x.tried → s2.auth.calls j = none) (by intro x hx; rw [hk] at hx; simp at hx) ?_ post s hr
  intro l sa a sb ih hra hs x hx
  have hold : ∀ j, sa.auth.calls j = none → s2.auth.calls j = none := by
    intro j hj
    cases h : s2.auth.calls j with
    | none => rfl
    | some c =>
      obtain ⟨q, pc⟩ := c
      obtain ⟨pc', h1, _⟩ := sysRun_calls hra h
      rw [hj] at h1; simp at h1
  rcases sysStep_auth hs with ⟨_, _, h1, _⟩ | ⟨b, _, hst, _⟩
  · rw [h1] at hx; exact ih x hx
  · have heff := aStep_effect hst
    generalize hg : sb.auth = sx at heff hx
    cases heff with
    | opened k' r act res hk' =>
      simp only [AState.note, AState.setSess] at hx
      split at hx
      · simp only [Option.some.injEq] at hx
        subst hx
        exact ⟨by simp, by simp⟩
      · exact ih x hx
    | sub k' i q rest tried hk' hi =>
      simp only [AState.note, AState.setSess, AState.setPc] at hx
      split at hx
      · rename_i hkk
        subst hkk
        simp only [Option.some.injEq] at hx
        subst hx
        refine ⟨?_, (ih _ hk').2⟩
        intro j hj
        simp only [Option.some.injEq] at hj
        subst hj
        exact hold _ hi
      · exact ih x hx
    | finFails k' e rest tried hk' =>
      simp only [AState.setSess] at hx
      split at hx
      · rename_i hkk
        subst hkk
        simp only [Option.some.injEq] at hx
        subst hx
        refine ⟨by simp [Sess.next], ?_⟩
        intro c j r hm
        simp only [Sess.next, List.mem_append, List.mem_singleton, Prod.mk.injEq, reduceCtorEq, false_and, and_false, or_false] at hm
        exact (ih _ hk').2 c j r hm
      · exact ih x hx
    | fin k' c rest i tried q r hk' hi =>
      simp only [AState.setSess] at hx
      split at hx
      · rename_i hkk
        subst hkk
        simp only [Option.some.injEq] at hx
        subst hx
        refine ⟨by simp [Sess.next], ?_⟩
        intro c' j r' hm
        simp only [Sess.next, List.mem_append, List.mem_singleton, Prod.mk.injEq, Option.some.injEq] at hm
        rcases hm with hm | ⟨_, rfl, _⟩
        · exact (ih _ hk').2 c' j r' hm
        · exact (ih _ hk').1 j rfl
      · exact ih x hx
    | _ => exact ih x hx

/-- **C73**, `Verify` and `Authorize`.  Missing: as above. -/
theorem C73_session_partial (cfg : SysCfg) (now : Int) (h0 : 0 ≤ now) (hpol : cfg.auth.disablePolicyd = false) (hexp : 0 < cfg.auth.cacheExp)
    (pre mid late post : List SysAct) (s0 s1 s2 s : Sys) (docs : List (Option PolicyDoc))
    (hr0 : sysRun cfg (sysInit cfg now) pre = some s0) (hr1 : sysRun cfg s0 mid = some s1) (hr2 : sysRun cfg s1 late = some s2)
    (hr : sysRun cfg s2 post = some s) (hbig : s.auth.now + cfg.auth.cacheExp < 2 ^ 63)
    (honly : OnlyInForce cfg (sysInit cfg now) (pre ++ mid ++ late ++ post) pre.length docs)
    (hdone : ∀ j q pc, s0.auth.calls j = some ⟨q, pc⟩ → ∃ r, s1.auth.calls j = some ⟨q, .done r⟩)
    (hlate : s1.auth.now + cfg.auth.cacheExp < s2.auth.now) (k : Nat) (x : Sess) (p : Principal) (hnew : s2.auth.sess k = none)
    (hx : s.auth.sess k = some x) (hd : x.result = some (.ok p))
    (hreg : ∀ role ∈ p.roles, RegularAt cfg.auth.U docs now s.auth.now s.auth.now (p.domain ++ ":role.".toList ++ role))
    (hrw : RefreshedSince cfg (sysInit cfg now) (pre ++ mid ++ late ++ post) s pre.length
      (fun d => ∀ role ∈ p.roles, SaysAlike docs now s.auth.now (p.domain ++ ":role.".toList ++ role) d)) :
    ∃ r act0 res0 q q' seed act res, .opened k r act0 res0 ∈ s.auth.log ∧ .token q ∈ authorizers cfg.auth r act0 res0 ∧
      cacheKey cfg.auth q' = cacheKey cfg.auth q ∧ TokenAccepted cfg (sysInit cfg now) (pre ++ mid ++ late ++ post) q' p ∧
      Translates cfg.auth seed p.domain q' act res ∧
      Decision cfg.auth.U (allAssertions docs) ⟨p.domain, p.roles, act, cfg.auth.resourcePrefix ++ res⟩ (.ok p.authorizedRoles) := by
  have hrun : sysRun cfg (sysInit cfg now) (pre ++ mid ++ late ++ post) = some s := by
    rw [sysRun_append, sysRun_append, sysRun_append, hr0]
    simp only [Option.bind_some, hr1, hr2, hr]
  obtain ⟨acts, ha⟩ := (sysRuns_run hrun).2.auth
  have hi := sInv_run ha
  obtain ⟨r, act0, res0, ho⟩ := hi.sess k x hx
  obtain ⟨x', hx', hok⟩ := hi.opened k r act0 res0 ho
  rw [hx] at hx'
  simp only [Option.some.injEq] at hx'
  subst hx'
  have hcomb := hok.comb
  rw [hd] at hcomb
  obtain ⟨pr, c, io, rest, g1, _, g3⟩ := hcomb
  have hm : (c, io, Res.ok p) ∈ x.tried := by rw [g1]; simp
  cases c with
  | fails e => have := (hok.fails e io _ hm).2; simp at this
  | token q =>
    obtain ⟨j, rfl, hj⟩ := hok.token q io _ hm
    have hj2 := (sess_calls hr hnew x hx).2 _ j _ hm
    obtain ⟨q', seed, act, res, h1, h2, h3, h4⟩ := C73_withdrawn_partial cfg now h0 hpol hexp pre mid late post s0 s1 s2 s docs hr0 hr1 hr2 hr hbig
      honly hdone hlate j q p hj2 hj hreg hrw
    exact ⟨r, act0, res0, q, q', seed, act, res, ho, by rw [g3]; simp, h1, h2, h3, h4⟩

/-- Only finitely many calls have begun. -/
theorem calls_finite {cfg : SysCfg} {s0 s : Sys} {h : List SysAct} (h0 : ∃ B, ∀ i, B ≤ i → s0.auth.calls i = none) (hr : sysRun cfg s0 h = some s) :
    ∃ B, ∀ i, B ≤ i → s.auth.calls i = none := by
  refine sysRun_ind (fun _ s => ∃ B, ∀ i, B ≤ i → s.auth.calls i = none) h0 ?_ h s hr
  rintro h s a s' ⟨B, hB⟩ _ hs
  rcases sysStep_auth hs with ⟨h1, _⟩ | ⟨b, _, hst, _⟩
  · exact ⟨B, by rw [h1]; exact hB⟩
  · have set : ∀ (j : Nat) (c : Call), s'.auth.calls = (fun i => if i = j then some c else s.auth.calls i) →
        ∃ B, ∀ i, B ≤ i → s'.auth.calls i = none := by
      intro j c he
      refine ⟨max B (j + 1), fun i hi => ?_⟩
      rw [he]
      simp only [if_neg (show i ≠ j by omega)]
      exact hB i (by omega)
    have heff : s'.auth.calls = s.auth.calls ∨ ∃ j c, s'.auth.calls = (fun i => if i = j then some c else s.auth.calls i) := by
      have := aStep_effect hst
      generalize s'.auth = sx at this
      cases this <;> first
        | exact .inl rfl
        | exact .inr ⟨_, _, rfl⟩
    rcases heff with he | ⟨j, c, he⟩
    · exact ⟨B, by rw [he]; exact hB⟩
    · exact set j c he

/-- **C73**.  When the servers give the new policies `D` from some moment on, `Update` is called again and again and what can go on goes on,
there is a moment such that a call which begins when the lifetime of cached results has passed since then is granted only what `D` allows, even if
the policies are refreshed.  Missing: policies that are not regular for the roles of the token (C68). -/
theorem C73_takes_effect_partial (cfg : SysCfg) (now : Int) (h0 : 0 ≤ now) (hpol : cfg.auth.disablePolicyd = false) (hexp : 0 < cfg.auth.cacheExp)
    (hR : 0 ≤ cfg.fetch.retryAttempts) (x : SysExec cfg now) (hsf : SysFair x) (hf : UpdFair x) (hfore : Foretold x) (N : Nat) (D : List PolicyDoc)
    (hD : NewPolicies x N D) (hagain : ∀ n, ∃ m fetch, n ≤ m ∧ x.act m = .pd (.update fetch)) :
    ∃ M0 M, N ≤ M0 ∧ M0 ≤ M ∧ ∀ n m i q p, M ≤ n → n ≤ m → (x.state M).auth.now + cfg.auth.cacheExp < (x.state n).auth.now →
      (x.state n).auth.calls i = none → (x.state m).auth.calls i = some ⟨q, .done (.ok p)⟩ → (x.state m).auth.now + cfg.auth.cacheExp < 2 ^ 63 →
      (∀ role ∈ p.roles, RegularAt cfg.auth.U (D.map some) now (x.state m).auth.now (x.state m).auth.now (p.domain ++ ":role.".toList ++ role)) →
      ∃ q' seed act res, cacheKey cfg.auth q' = cacheKey cfg.auth q ∧ TokenAccepted cfg (sysInit cfg now) (x.hist m) q' p ∧
        Translates cfg.auth seed p.domain q' act res ∧
        Decision cfg.auth.U (allAssertions (D.map some)) ⟨p.domain, p.roles, act, cfg.auth.resourcePrefix ++ res⟩ (.ok p.authorizedRoles) := by
  obtain ⟨M0, hM0, hin⟩ := yields_takes_effect cfg now x hf hfore N D (hD.yields hR) hagain
  obtain ⟨B, hB⟩ := calls_finite (s0 := sysInit cfg now) ⟨0, fun _ _ => rfl⟩ (SysExec.run x M0)
  have hall : ∀ k, ∃ M, M0 ≤ M ∧ ∀ i q pc, i < k → (x.state M0).auth.calls i = some ⟨q, pc⟩ → ∃ r, (x.state M).auth.calls i = some ⟨q, .done r⟩ := by
    intro k
    induction k with
    | zero => exact ⟨M0, Nat.le_refl _, fun i q pc hi => by omega⟩
    | succ k ih =>
      obtain ⟨M, hM, h1⟩ := ih
      cases hk : (x.state M0).auth.calls k with
      | none =>
        refine ⟨M, hM, fun i q pc hi hc => ?_⟩
        by_cases hik : i = k
        · subst hik; rw [hk] at hc; simp at hc
        · exact h1 i q pc (by omega) hc
      | some c =>
        obtain ⟨qk, pck⟩ := c
        obtain ⟨M', r, hM', hr'⟩ := C69_call_returns cfg now x hsf M0 k qk pck hk
        have stay : ∀ {a b : Nat} {i q r}, a ≤ b → (x.state a).auth.calls i = some ⟨q, .done r⟩ → (x.state b).auth.calls i = some ⟨q, .done r⟩ := by
          intro a b i q r hab hc
          obtain ⟨pc', h2, h3⟩ := sysRun_calls (SysExec.runFrom x hab) hc
          rw [h2, h3 ⟨r, rfl⟩]
        refine ⟨max M M', by omega, fun i q pc hi hc => ?_⟩
        by_cases hik : i = k
        · subst hik
          rw [hk] at hc
          simp only [Option.some.injEq, Call.mk.injEq] at hc
          obtain ⟨rfl, rfl⟩ := hc
          exact ⟨r, stay (by omega) hr'⟩
        · obtain ⟨r, h2⟩ := h1 i q pc (by omega) hc
          exact ⟨r, stay (by omega) h2⟩
  obtain ⟨M, hM, hdone⟩ := hall B
  refine ⟨M0, M, hM0, hM, fun n m i q p hn hm hlate hnew hc hbig hreg => ?_⟩
  obtain ⟨d1, rfl⟩ := Nat.le.dest hM
  obtain ⟨d2, rfl⟩ := Nat.le.dest hn
  obtain ⟨d3, rfl⟩ := Nat.le.dest hm
  have hh : x.hist (M0 + d1 + d2 + d3) = x.hist M0 ++ (List.range d1).map (fun i => x.act (M0 + i)) ++
      (List.range d2).map (fun i => x.act (M0 + d1 + i)) ++ (List.range d3).map (fun i => x.act (M0 + d1 + d2 + i)) := by
    rw [SysExec.hist_add, SysExec.hist_add, SysExec.hist_add]
  have hrun : ∀ a d, sysRun cfg (x.state a) ((List.range d).map (fun i => x.act (a + i))) = some (x.state (a + d)) := by
    intro a d
    have := SysExec.runFrom x (Nat.le_add_right a d)
    rwa [Nat.add_sub_cancel_left] at this
  have split : ∀ {h1 h2 : List SysAct}, x.hist (M0 + d1 + d2 + d3) = h1 ++ h2 → h1 = x.hist h1.length := by
    intro h1 h2 he
    have := congrArg (List.take h1.length) he
    rw [List.take_append_of_le_length (Nat.le_refl _), List.take_length] at this
    have hle : h1.length ≤ M0 + d1 + d2 + d3 := by
      have := congrArg List.length he
      simp only [SysExec.hist, List.length_map, List.length_range, List.length_append] at this
      omega
    rw [← this]
    simp only [SysExec.hist, ← List.map_take, List.take_range, List.length_map, List.length_range]
  rw [hh]
  refine C73_withdrawn_partial cfg now h0 hpol hexp _ _ _ _ (x.state M0) (x.state (M0 + d1)) (x.state (M0 + d1 + d2)) (x.state (M0 + d1 + d2 + d3)) (D.map some)
    (SysExec.run x M0) (hrun M0 d1) (hrun _ d2) (hrun _ d3) hbig ?_ ?_
    hlate i q p hnew hc hreg ?_
  · intro h1 h2 s1 docs he hlen hr1 hdocs
    rw [← hh] at he
    have e1 := split he
    rw [e1, SysExec.run x] at hr1
    obtain rfl := Option.some.inj hr1
    rw [e1] at hdocs
    have hl2 : (x.hist h1.length).length = h1.length := by simp [SysExec.hist]
    simp only [hl2] at hdocs
    exact (hin h1.length (by simpa [SysExec.hist] using hlen)).1.2 docs hdocs
  · intro j q pc hj
    by_cases hjB : j < B
    · exact hdone j q pc hjB hj
    · rw [hB j (by omega)] at hj; simp at hj
  · rw [← hh]
    intro h1 h2 s1 he hlen hr1
    have e1 := split he
    rw [e1, SysExec.run x] at hr1
    obtain rfl := Option.some.inj hr1
    have := yields_alike (hD.yields hR) (m := M0 + d1 + d2 + d3) (hin h1.length (by simpa [SysExec.hist] using hlen)).2.2
      (K := fun k => ∃ role ∈ p.roles, k = p.domain ++ ":role.".toList ++ role) (by rintro _ ⟨role, hr, rfl⟩; exact hreg role hr)
    rw [e1]
    simpa [SysExec.hist] using this.imp fun d h role hr => h _ ⟨role, hr, rfl⟩

/-! ## Examples, and the result of a slow call -/

namespace Ex

/-- No hook runs, and after each of the first `n` or more steps the documents `docs` are the live ones. -/
def wdOnlyB (cfg : SysCfg) (now : Int) (acts : List SysAct) (n : Nat) (docs : List (Option PolicyDoc)) : Bool :=
  acts.all (fun a => match a with | .pd (.hook _ _) => false | _ => true) &&
  (List.range (acts.length + 1)).all fun k => decide (k < n) ||
    match sysRun cfg (sysInit cfg now) (acts.take k) with
    | none => true
    | some s => decide (s.pd.liveDocs = docs)

theorem wdOnly {cfg : SysCfg} {now : Int} {acts : List SysAct} {n : Nat} {docs : List (Option PolicyDoc)}
    (h : wdOnlyB cfg now acts n docs = true) : (∀ n f, .pd (.hook n f) ∉ acts) ∧ OnlyInForce cfg (sysInit cfg now) acts n docs := by
  simp only [wdOnlyB, Bool.and_eq_true, List.all_eq_true] at h
  obtain ⟨h1, h2⟩ := h
  have hnh : ∀ n f, .pd (.hook n f) ∉ acts := fun n f hm => absurd (h1 _ hm) (by simp)
  refine ⟨hnh, fun p q s1 docs' hp hlen hr hin => ?_⟩
  have hle : p.length < acts.length + 1 := by rw [hp, List.length_append]; omega
  have ht : acts.take p.length = p := by rw [hp]; simp
  have := h2 _ (List.mem_range.mpr hle)
  rw [ht, hr] at this
  simp only [Bool.or_eq_true, decide_eq_true_eq] at this
  rcases this with h | h
  · omega
  · rw [← h]
    exact inForce_unique hin (C68_in_force cfg now p s1 (fun n f hm => hnh n f (by rw [hp]; simp [hm])) hr)

/-- The old policy allows the request of call 0; before its result is stored, the new policy comes into force. -/
def wdPre : List SysAct :=
  chPre ++ (.auth (.call 0 syReq) :: (syCall 0).dropLast) ++ (List.range 8).map (chStep 1)

/-- More than the minute passes for which results are kept. -/
def wdMid : List SysAct := [.tick 61000000000]

/-- Call 0 stores its result, and the same request is made again. -/
def wdPost : List SysAct := [.auth (.store 0), .auth (.call 1 syReq), .auth (.get 1)]

theorem exists_three {cfg : SysCfg} {s : Sys} {a b c : List SysAct} {P : Sys → Sys → Sys → Bool}
    (h : (match sysRun cfg s a with
      | none => false
      | some s0 => match sysRun cfg s0 b with
        | none => false
        | some s1 => match sysRun cfg s1 c with
          | none => false
          | some s2 => P s0 s1 s2) = true) :
    ∃ s0 s1 s2, sysRun cfg s a = some s0 ∧ sysRun cfg s0 b = some s1 ∧ sysRun cfg s1 c = some s2 ∧ P s0 s1 s2 = true := by
  split at h
  · simp at h
  · rename_i s0 h0
    split at h
    · simp at h
    · rename_i s1 h1
      split at h
      · simp at h
      · rename_i s2 h2
        exact ⟨s0, s1, s2, h0, h1, h2, h⟩

end Ex

/-- **C73** is false for the code: the lifetime of a result is counted from the moment it is stored, not from the moment the policies were
asked.  A call that takes its time between the two hands out, for the full lifetime from then on, what the policies do not allow any more. -/
theorem C73_refuted : ¬ C73_statement := by
  intro hst
  obtain ⟨s0, s1, s, hr0, hr1, hr, hp⟩ := Ex.exists_three (cfg := Ex.chCfg) (s := sysInit Ex.chCfg (Ex.auT 1500)) (a := Ex.wdPre) (b := Ex.wdMid) (c := Ex.wdPost)
    (P := fun s0 s1 s => decide (s0.auth.now = Ex.auT 1500) && decide (s1.auth.now = Ex.auT 1561) && decide (s.auth.now = Ex.auT 1561) &&
      (s1.auth.calls 1).isNone && decide (Ex.doneOk s.auth 1 Ex.syReq = some Ex.syPrincipal)) (by decide +kernel)
  simp only [Bool.and_eq_true, decide_eq_true_eq, Option.isNone_iff_eq_none] at hp
  obtain ⟨⟨⟨⟨h0, h1⟩, h2⟩, hn⟩, hd⟩ := hp
  obtain ⟨hnh, honly⟩ := Ex.wdOnly (cfg := Ex.chCfg) (now := Ex.auT 1500) (acts := Ex.wdPre ++ Ex.wdMid ++ Ex.wdPost) (n := Ex.wdPre.length)
    (docs := [some Ex.chDoc]) (by decide +kernel)
  obtain ⟨_, _, _, _, _, _, ⟨role, _, a, ha, _⟩, _⟩ := hst Ex.chCfg (Ex.auT 1500) Ex.wdPre Ex.wdMid Ex.wdPost s0 s1 s [some Ex.chDoc] 1 Ex.syReq Ex.syPrincipal
    (by decide) rfl (by decide) hnh hr0 hr1 hr (by rw [h2]; decide) honly (by rw [h0, h1]; decide) hn (Ex.doneOk_iff hd) (by
      intro d hd
      simp only [List.mem_singleton, Option.some.injEq] at hd
      subst hd
      rw [h2]
      decide)
  simp [allAssertions, Ex.chDoc] at ha

namespace Ex

/-- The policy is loaded and call 0 is granted, the lifetime of its result passes, and call 1 is granted. -/
def wdAgain : List SysAct := chPre ++ (.auth (.call 0 syReq) :: syCall 0)

theorem wdRegular (role : Str) {t : Int} (ht : t = auT 1561) : RegularAt asciiCase [some frDoc] (auT 1500) t t role := by
  subst ht
  refine .inr ⟨0, frDoc, ⟨rfl, ?_, .inr (by decide)⟩, ?_⟩
  · intro j d hj hd
    match j with
    | 0 => exact absurd rfl hj
    | n + 1 => simp at hd
  · intro a ha hr
    simp [frDoc] at ha
    subst ha
    refine ⟨fun b hb _ => by simp [frDoc] at hb; subst hb; exact ⟨rfl, rfl, rfl⟩, fun hd => absurd hd (by decide)⟩

end Ex

/-- An execution to which `C73_withdrawn_partial` applies: a first call has left its result in the cache, which is not used any more. -/
example : ∃ s0 s2 s, sysRun Ex.chCfg (sysInit Ex.chCfg (Ex.auT 1500)) Ex.wdAgain = some s0 ∧ sysRun Ex.chCfg s0 [] = some s0 ∧
    sysRun Ex.chCfg s0 Ex.wdMid = some s2 ∧ sysRun Ex.chCfg s2 (.auth (.call 1 Ex.syReq) :: Ex.syCall 1) = some s ∧
    s.auth.now + Ex.chCfg.auth.cacheExp < 2 ^ 63 ∧
    RefreshedSince Ex.chCfg (sysInit Ex.chCfg (Ex.auT 1500)) (Ex.wdAgain ++ [] ++ Ex.wdMid ++ (.auth (.call 1 Ex.syReq) :: Ex.syCall 1)) s Ex.wdAgain.length
      (fun d => ∀ role ∈ Ex.syPrincipal.roles, SaysAlike [some Ex.frDoc] (Ex.auT 1500) s.auth.now (Ex.syPrincipal.domain ++ ":role.".toList ++ role) d) ∧
    OnlyInForce Ex.chCfg (sysInit Ex.chCfg (Ex.auT 1500)) (Ex.wdAgain ++ [] ++ Ex.wdMid ++ (.auth (.call 1 Ex.syReq) :: Ex.syCall 1)) Ex.wdAgain.length [some Ex.frDoc] ∧
    s0.auth.calls 0 = some ⟨Ex.syReq, .done (.ok Ex.syPrincipal)⟩ ∧ s0.auth.now + Ex.chCfg.auth.cacheExp < s2.auth.now ∧ s2.auth.calls 1 = none ∧
    s.auth.calls 1 = some ⟨Ex.syReq, .done (.ok Ex.syPrincipal)⟩ ∧
    ∀ role ∈ Ex.syPrincipal.roles, RegularAt asciiCase [some Ex.frDoc] (Ex.auT 1500) s.auth.now s.auth.now (Ex.syPrincipal.domain ++ ":role.".toList ++ role) := by
  obtain ⟨s0, s2, s, hr0, hr2, hr, hp⟩ := Ex.exists_three (cfg := Ex.chCfg) (s := sysInit Ex.chCfg (Ex.auT 1500)) (a := Ex.wdAgain) (b := Ex.wdMid)
    (c := .auth (.call 1 Ex.syReq) :: Ex.syCall 1)
    (P := fun s0 s2 s => decide (s0.auth.now = Ex.auT 1500) && decide (s2.auth.now = Ex.auT 1561) && decide (s.auth.now = Ex.auT 1561) &&
      (s2.auth.calls 1).isNone && decide (Ex.doneOk s0.auth 0 Ex.syReq = some Ex.syPrincipal) &&
      decide (Ex.doneOk s.auth 1 Ex.syReq = some Ex.syPrincipal)) (by decide +kernel)
  simp only [Bool.and_eq_true, decide_eq_true_eq, Option.isNone_iff_eq_none] at hp
  obtain ⟨⟨⟨⟨⟨h0, h1⟩, h2⟩, hn⟩, hd0⟩, hd⟩ := hp
  obtain ⟨hnh, honly⟩ := Ex.wdOnly (cfg := Ex.chCfg) (now := Ex.auT 1500) (n := Ex.wdAgain.length)
    (acts := Ex.wdAgain ++ [] ++ Ex.wdMid ++ (.auth (.call 1 Ex.syReq) :: Ex.syCall 1)) (docs := [some Ex.frDoc]) (by decide +kernel)
  exact ⟨s0, s2, s, hr0, rfl, hr2, hr, by rw [h2]; decide, (NotRefreshedSince.of_noHook hnh).with, honly, Ex.doneOk_iff hd0, by rw [h0, h1]; decide, hn, Ex.doneOk_iff hd,
    fun role _ => Ex.wdRegular _ h2⟩

/-- The same for `Authorize`, as `C73_session_partial` has it. -/
example : ∃ s0 s2 s x, sysRun Ex.chCfg (sysInit Ex.chCfg (Ex.auT 1500)) (Ex.syKeys ++ Ex.syJwk ++ Ex.syLoad Ex.chDom ++ (.auth (.call 0 Ex.syReq) :: Ex.syCall 0)) = some s0 ∧
    sysRun Ex.chCfg s0 Ex.wdMid = some s2 ∧
    sysRun Ex.chCfg s2 ([.auth (.opened 7 Ex.auHttp "read".toList "/x".toList), .auth (.fin 7), .auth (.sub 7 1)] ++ Ex.syCall 1 ++ [.auth (.fin 7)]) = some s ∧
    s0.auth.now + Ex.chCfg.auth.cacheExp < s2.auth.now ∧ s2.auth.sess 7 = none ∧ s.auth.sess 7 = some x ∧ x.result = some (.ok Ex.auPrincipal) := by
  obtain ⟨s0, s2, s, hr0, hr2, hr, hp⟩ := Ex.exists_three (cfg := Ex.chCfg) (s := sysInit Ex.chCfg (Ex.auT 1500))
    (a := Ex.syKeys ++ Ex.syJwk ++ Ex.syLoad Ex.chDom ++ (.auth (.call 0 Ex.syReq) :: Ex.syCall 0)) (b := Ex.wdMid)
    (c := [.auth (.opened 7 Ex.auHttp "read".toList "/x".toList), .auth (.fin 7), .auth (.sub 7 1)] ++ Ex.syCall 1 ++ [.auth (.fin 7)])
    (P := fun s0 s2 s => decide (s0.auth.now = Ex.auT 1500) && decide (s2.auth.now = Ex.auT 1561) && (s2.auth.sess 7).isNone &&
      (match s.auth.sess 7 with | some x => decide (x.result = some (.ok Ex.auPrincipal)) | none => false)) (by decide +kernel)
  simp only [Bool.and_eq_true, decide_eq_true_eq, Option.isNone_iff_eq_none] at hp
  obtain ⟨⟨⟨h0, h1⟩, hn⟩, hd⟩ := hp
  cases hx : s.auth.sess 7 with
  | none => simp [hx] at hd
  | some x =>
    simp only [hx, decide_eq_true_eq] at hd
    exact ⟨s0, s2, s, x, hr0, hr2, hr, by rw [h0, h1]; decide, hn, hx, hd⟩

/-- A call that takes the result of another one, as in the second case of `C73_grant_partial`. -/
example : ∃ s, sysRun Ex.chCfg (sysInit Ex.chCfg (Ex.auT 1500)) (Ex.wdAgain ++ [.tick 59000000000, .auth (.call 1 Ex.syReq), .auth (.get 1)]) = some s ∧
    s.auth.calls 1 = some ⟨Ex.syReq, .done (.ok Ex.syPrincipal)⟩ ∧ .hit 1 (Ex.auT 1559) ∈ s.auth.log := by
  obtain ⟨s, hs, hp⟩ := Ex.exists_of_map (o := sysRun Ex.chCfg (sysInit Ex.chCfg (Ex.auT 1500)) (Ex.wdAgain ++ [.tick 59000000000, .auth (.call 1 Ex.syReq), .auth (.get 1)]))
    (p := fun s => decide (Ex.doneOk s.auth 1 Ex.syReq = some Ex.syPrincipal) && s.auth.log.any (fun e => match e with | .hit i t => decide (i = 1 ∧ t = Ex.auT 1559) | _ => false))
    (by decide +kernel)
  simp only [Bool.and_eq_true, decide_eq_true_eq, List.any_eq_true] at hp
  obtain ⟨h1, e, he, h2⟩ := hp
  refine ⟨s, hs, Ex.doneOk_iff h1, ?_⟩
  cases e <;> simp_all

/-- An execution to which `C73_takes_effect_partial` applies. -/
example : 0 < Ex.chCfg.auth.cacheExp ∧ 0 ≤ Ex.chCfg.fetch.retryAttempts ∧ SysFair Ex.chExec ∧ UpdFair Ex.chExec ∧ Foretold Ex.chExec ∧
    NewPolicies Ex.chExec Ex.chLen [Ex.chDoc] ∧ ∀ n, ∃ m fetch, n ≤ m ∧ Ex.chExec.act m = .pd (.update fetch) :=
  ⟨by decide, by decide, Ex.chSysFair, Ex.chFair, Ex.chForetold, Ex.chNew, Ex.chAgain⟩

end Athenz
