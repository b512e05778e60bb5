import Verif.Proofs.SysInv

/-! Where policies, checks and grants come from. -/

namespace Athenz
open Spec

/-! ### Fetchers -/

/-- Every policy in the fetcher satisfies `P`. -/
structure FHolds (P : SignedPolicy → Prop) (s : FState) : Prop where
  cache : ∀ t, s.cache = some t → P t.sp
  sent : ∀ (n : Nat) (retry : Bool) (i : Int) (t : Tagged), s.calls[n]? = some ⟨retry, .sent i (some t)⟩ → P t.sp
  ret : ∀ (n : Nat) (retry : Bool) (sp : SignedPolicy) (e : Option Err), s.calls[n]? = some ⟨retry, .ret (some sp) e⟩ → P sp

theorem FHolds.mono {P Q : SignedPolicy → Prop} {s : FState} (h : FHolds P s) (hpq : ∀ sp, P sp → Q sp) : FHolds Q s :=
  ⟨fun t ht => hpq _ (h.cache t ht), fun n r i t ht => hpq _ (h.sent n r i t ht), fun n r sp e ht => hpq _ (h.ret n r sp e ht)⟩

theorem FHolds.env {P : SignedPolicy → Prop} {s : FState} (h : FHolds P s) (n : Int) (k : KeyProvider) :
    FHolds P { s with now := n, keys := k } := ⟨h.cache, h.sent, h.ret⟩

theorem FHolds.step {cfg : FetchCfg} {P : SignedPolicy → Prop} {s s' : FState} {a : FAct} (h : FHolds P s)
    (hs : fStep cfg s a = some s') (hnew : ∀ eTag sp, Download cfg s a eTag sp → P sp) : FHolds P s' := by
  unfold fStep at hs
  split at hs
  · simp at hs
  cases a with
  | tick d => simp only [Option.some.injEq] at hs; subst hs; exact ⟨h.cache, h.sent, h.ret⟩
  | setKeys ks => simp only [Option.some.injEq] at hs; subst hs; exact ⟨h.cache, h.sent, h.ret⟩
  | call retry =>
    simp only [Option.some.injEq] at hs; subst hs
    refine ⟨h.cache, ?_, ?_⟩
    · intro n r i t hn
      rcases getElem?_append_cases hn with hn | ⟨_, hn⟩
      · exact h.sent n r i t hn
      · simp at hn
    · intro n r sp e hn
      rcases getElem?_append_cases hn with hn | ⟨_, hn⟩
      · exact h.ret n r sp e hn
      · simp at hn
  | send j =>
    simp only at hs
    split at hs
    · rename_i retry i le hj
      split at hs
      · simp at hs
      · simp only [Option.some.injEq] at hs; subst hs
        refine ⟨h.cache, ?_, ?_⟩
        · intro n r i' t hn
          rcases getElem?_set_cases' hn with ⟨_, hn⟩ | ⟨_, hn⟩
          · simp only [FetchCall.mk.injEq, FetchPc.sent.injEq] at hn
            exact h.cache t hn.2.2.symm
          · exact h.sent n r i' t hn
        · intro n r sp e hn
          rcases getElem?_set_cases' hn with ⟨_, hn⟩ | ⟨_, hn⟩
          · simp at hn
          · exact h.ret n r sp e hn
    · simp at hs
  | answer j r =>
    simp only at hs
    split at hs
    · rename_i retry i tp hj
      -- the call goes on without a policy
      have move : ∀ pc, (∀ i t, pc ≠ FetchPc.sent i (some t)) → (∀ sp e, pc ≠ FetchPc.ret (some sp) e) →
          FHolds P { s with calls := s.calls.set j ⟨retry, pc⟩ } := by
        intro pc h1 h2
        refine ⟨h.cache, ?_, ?_⟩
        · intro n r i' t hn
          rcases getElem?_set_cases' hn with ⟨_, hn⟩ | ⟨_, hn⟩
          · simp only [FetchCall.mk.injEq] at hn
            exact absurd hn.2.symm (h1 i' t)
          · exact h.sent n r i' t hn
        · intro n r sp e hn
          rcases getElem?_set_cases' hn with ⟨_, hn⟩ | ⟨_, hn⟩
          · simp only [FetchCall.mk.injEq] at hn
            exact absurd hn.2.symm (h2 sp e)
          · exact h.ret n r sp e hn
      have good : ∀ (sp : SignedPolicy) (c : Option Tagged), P sp → (∀ t, c = some t → P t.sp) →
          FHolds P { s with calls := s.calls.set j ⟨retry, .ret (some sp) none⟩, cache := c } := by
        intro sp c hsp hc
        refine ⟨hc, ?_, ?_⟩
        · intro n r i' t hn
          rcases getElem?_set_cases' hn with ⟨_, hn⟩ | ⟨_, hn⟩
          · simp at hn
          · exact h.sent n r i' t hn
        · intro n r sp' e hn
          rcases getElem?_set_cases' hn with ⟨_, hn⟩ | ⟨_, hn⟩
          · simp only [FetchCall.mk.injEq, FetchPc.ret.injEq, Option.some.injEq] at hn
            rw [hn.2.1]; exact hsp
          · exact h.ret n r sp' e hn
      rcases fetchAnswer_cases cfg tp s.keys s.now r with ⟨e, he, _⟩ | ⟨he, _⟩ | ⟨t, e, b, hr, htp, he⟩ | ⟨t, b, sp, d, e, hr, hdec, hver, _, _, he⟩
      · simp only [he] at hs
        split at hs
        · simp only [Option.some.injEq] at hs; subst hs; exact move _ (by simp) (by simp)
        · simp only [Option.some.injEq] at hs; subst hs; exact move _ (by simp) (by simp)
      · simp only [he, Option.some.injEq] at hs; subst hs; exact ⟨h.cache, h.sent, h.ret⟩
      · simp only [he, Option.some.injEq] at hs; subst hs; subst htp
        exact good _ _ (h.sent j retry i t hj) h.cache
      · simp only [he, Option.some.injEq] at hs; subst hs
        have hsp : P sp := by
          refine hnew t sp ⟨j, b, by rw [hr], ⟨_, i, tp, hj, rfl⟩, hdec, hver⟩
        refine good _ _ hsp ?_
        intro t' ht'
        simp only [Option.some.injEq] at ht'
        subst ht'
        exact hsp
    · simp at hs
  | giveUp j =>
    simp only at hs
    split at hs
    · rename_i i le hj
      split at hs
      · simp at hs
      · simp only [Option.some.injEq] at hs; subst hs
        refine ⟨h.cache, ?_, ?_⟩
        · intro n r i' t hn
          rcases getElem?_set_cases' hn with ⟨_, hn⟩ | ⟨_, hn⟩
          · simp at hn
          · exact h.sent n r i' t hn
        · intro n r sp e hn
          rcases getElem?_set_cases' hn with ⟨_, hn⟩ | ⟨_, hn⟩
          · simp only [FetchCall.mk.injEq, FetchPc.ret.injEq] at hn
            have hc := hn.2.1.symm
            cases hca : s.cache with
            | none => rw [hca] at hc; simp at hc
            | some t =>
              rw [hca] at hc
              simp only [Option.map_some, Option.some.injEq] at hc
              rw [← hc]
              exact h.cache t hca
          · exact h.ret n r sp e hn
    · simp at hs

/-! ### The whole -/

/-- What is known about a call. -/
def CallOrigin (cfg : SysCfg) (s0 : Sys) (h : List SysAct) (q : AReq) : Pc → Prop
  | .start => True
  | .miss => True
  | .validated p => TokenAccepted cfg s0 h q p
  | .translated p act res => TokenAccepted cfg s0 h q p ∧ ∃ seed, Translates cfg.auth seed p.domain q act res
  | .checked p => Origin cfg s0 h q p
  | .done _ => True

theorem CallOrigin.mono {cfg : SysCfg} {s0 : Sys} {h h' : List SysAct} {q : AReq} {pc : Pc} (hc : CallOrigin cfg s0 h q pc) :
    CallOrigin cfg s0 (h ++ h') q pc := by
  cases pc with
  | start => trivial
  | miss => trivial
  | validated p => exact TokenAccepted.mono hc
  | translated p act res => exact ⟨TokenAccepted.mono hc.1, hc.2⟩
  | checked p => exact Origin.mono hc
  | done r => trivial

/-- Some call got the grant `p` for a request with the cache key `k`, which has its origin in signed documents. -/
def GrantOrigin (cfg : SysCfg) (s0 : Sys) (h : List SysAct) (s : AState) (k : Str) (p : Principal) : Prop :=
  ∃ j q, s.calls j = some ⟨q, .done (.ok p)⟩ ∧ cacheKey cfg.auth q = k ∧ Origin cfg s0 h q p

/-- The check for which a call waits is the right one. -/
def CheckLinked (cfg : SysCfg) (c : Chk) : Option Call → Prop
  | some ⟨_, .translated p act res⟩ => c.q = ⟨p.domain, p.roles, act, cfg.auth.resourcePrefix ++ res⟩
  | some ⟨_, .checked _⟩ => True
  | some ⟨_, .done _⟩ => True
  | _ => False

/-- What is known about calls, cache and sessions. -/
structure AuthOrigin (cfg : SysCfg) (s0 : Sys) (h : List SysAct) (s : AState) : Prop where
  calls : ∀ i q pc, s.calls i = some ⟨q, pc⟩ → CallOrigin cfg s0 h q pc
  granted : ∀ i q p, s.calls i = some ⟨q, .done (.ok p)⟩ → GrantOrigin cfg s0 h s (cacheKey cfg.auth q) p
  cache : ∀ k e, s.cache k = some e → GrantOrigin cfg s0 h s k e.val
  sess : ∀ k x p, s.sess k = some x → x.result = some (.ok p) → ∃ i q, s.calls i = some ⟨q, .done (.ok p)⟩

structure SysOrigin (cfg : SysCfg) (s0 : Sys) (h : List SysAct) (s : Sys) : Prop where
  fs : ∀ dom, FHolds (PolicyReceived cfg s0 h dom) (s.fs dom)
  pd : ∃ A, (∀ a ∈ A, ∃ dom ∈ cfg.domains, ReceivedAssertion cfg s0 h dom a) ∧ PdGood cfg.auth.U A s.pd
  auth : AuthOrigin cfg s0 h s.auth
  links : ∀ i k, s.checkOf i = some k → ∃ c, s.pd.checks[k]? = some c ∧ CheckLinked cfg c (s.auth.calls i)

theorem sysInit_origin (cfg : SysCfg) (now : Int) : SysOrigin cfg (sysInit cfg now) [] (sysInit cfg now) := by
  refine ⟨fun dom => ⟨by simp [sysInit, fInit], by simp [sysInit, fInit], by simp [sysInit, fInit]⟩,
    ⟨[], by simp, pdInit_good _ _ _⟩, ⟨by simp [sysInit, aInit], by simp [sysInit, aInit], by simp [sysInit, aInit, Gache.empty], by simp [sysInit, aInit]⟩,
    by simp [sysInit]⟩

/-- The checks of the daemon keep their number and their question. -/
theorem pdStep_checks {U : CaseFns} {s s' : PdState} {a : PdAct} (h : pdStep U s a = some s') {k : Nat} {c : Chk}
    (hc : s.checks[k]? = some c) : ∃ c', s'.checks[k]? = some c' ∧ c'.q = c.q := by
  have hset : ∀ (k' : Nat) (c0 c' : Chk), s.checks[k']? = some c0 → c'.q = c0.q →
      ∃ c'', (s.checks.set k' c')[k]? = some c'' ∧ c''.q = c.q := by
    intro k' c0 c' h0 hq
    by_cases hk : k' = k
    · subst hk
      rw [hc] at h0
      simp only [Option.some.injEq] at h0
      subst h0
      exact ⟨c', by rw [List.getElem?_set_self (lt_of_getElem? hc)], hq⟩
    · exact ⟨c, by rw [List.getElem?_set_ne hk]; exact hc, rfl⟩
  unfold pdStep at h
  split at h
  · simp at h
  cases a with
  | check q =>
    simp only [Option.some.injEq] at h; subst h
    exact ⟨c, by simp only; rw [List.getElem?_append_left (lt_of_getElem? hc)]; exact hc, rfl⟩
  | load k' =>
    simp only at h
    split at h
    · simp at h
    · rename_i c0 h0
      split at h
      · simp at h
      · simp only [Option.some.injEq] at h; subst h
        exact hset k' c0 _ h0 rfl
  | chk k' a =>
    simp only at h
    split at h
    · simp at h
    · rename_i c0 h0
      split at h
      · simp at h
      · split at h
        · simp at h
        · split at h
          · simp at h
          · simp only [Option.some.injEq] at h; subst h
            exact hset k' c0 _ h0 rfl
  | _ =>
    simp only at h
    repeat' split at h
    all_goals first
      | (simp at h; done)
      | (simp only [Option.some.injEq] at h; subst h; exact ⟨c, hc, rfl⟩)

/-- What a returned check of the daemon means. -/
theorem PdGood.grant {U : CaseFns} {A : List RawAssertion} {s : PdState} (h : PdGood U A s) {c : Chk} (hc : c ∈ s.checks)
    (hl : c.loaded.isSome) {rs : List Str} (hr : c.cs.coll = .ret (.ok rs)) :
    rs ≠ [] ∧ ∀ role ∈ rs, role ∈ c.q.roles ∧ ∃ a ∈ A, Applies U a c.q.domain role c.q.action c.q.resource ∧ ¬ IsDeny U a := by
  obtain ⟨v0, cs, hv0, hrun, hm⟩ := h.checks c hc hl
  obtain ⟨h1, h2, _⟩ := C04_changing_cache U c.q _ v0 hv0 cs hm rs ⟨_, hrun, hr⟩
  refine ⟨h1, fun role hrole => ?_⟩
  obtain ⟨h3, v, hsv, hdec⟩ := h2 role hrole
  exact ⟨h3, verdict_allow_sound (hsv _) ((decides_iff ..).mp hdec)⟩

theorem AuthOrigin.mono {cfg : SysCfg} {s0 : Sys} {h h' : List SysAct} {s : AState} (ha : AuthOrigin cfg s0 h s) :
    AuthOrigin cfg s0 (h ++ h') s :=
  ⟨fun i q pc hc => (ha.calls i q pc hc).mono,
   fun i q p hc => let ⟨j, q', h1, h2, h3⟩ := ha.granted i q p hc; ⟨j, q', h1, h2, Origin.mono h3⟩,
   fun k e hk => let ⟨j, q', h1, h2, h3⟩ := ha.cache k e hk; ⟨j, q', h1, h2, Origin.mono h3⟩, ha.sess⟩

/-- Clock, keys and log do not matter. -/
theorem AuthOrigin.env {cfg : SysCfg} {s0 : Sys} {h : List SysAct} {s : AState} (ha : AuthOrigin cfg s0 h s) (n : Int)
    (k : Option KeyProvider) (j : Option JwkProvider) (l : List AEvent) :
    AuthOrigin cfg s0 h { s with now := n, keys := k, jwkp := j, log := l } := ⟨ha.calls, ha.granted, ha.cache, ha.sess⟩

/-- A call moves on from a state that is not a grant. -/
theorem AuthOrigin.setPc {cfg : SysCfg} {s0 : Sys} {h : List SysAct} {s : AState} (ha : AuthOrigin cfg s0 h s) {i : Nat} {q : AReq} {pc : Pc}
    (hold : ∀ q' p, s.calls i ≠ some ⟨q', .done (.ok p)⟩) (hpc : CallOrigin cfg s0 h q pc)
    (hok : ∀ p, pc = .done (.ok p) → Origin cfg s0 h q p ∨ GrantOrigin cfg s0 h s (cacheKey cfg.auth q) p) :
    AuthOrigin cfg s0 h (s.setPc i q pc) := by
  have hkeep : ∀ j q' p, s.calls j = some ⟨q', .done (.ok p)⟩ → (s.setPc i q pc).calls j = some ⟨q', .done (.ok p)⟩ := by
    intro j q' p hj
    simp only [AState.setPc]
    split
    · rename_i he
      subst he
      exact absurd hj (hold q' p)
    · exact hj
  have hgr : ∀ {k p}, GrantOrigin cfg s0 h s k p → GrantOrigin cfg s0 h (s.setPc i q pc) k p :=
    fun ⟨j, q', h1, h2⟩ => ⟨j, q', hkeep j q' _ h1, h2⟩
  refine ⟨?_, ?_, fun k e hk => hgr (ha.cache k e hk), ?_⟩
  · intro i' q' pc' hc
    simp only [AState.setPc] at hc
    split at hc
    · simp only [Option.some.injEq, Call.mk.injEq] at hc
      obtain ⟨rfl, rfl⟩ := hc
      exact hpc
    · exact ha.calls i' q' pc' hc
  · intro i' q' p hc
    by_cases hi : i' = i
    · subst hi
      have hc' := hc
      simp only [AState.setPc, if_true, Option.some.injEq, Call.mk.injEq] at hc'
      obtain ⟨rfl, rfl⟩ := hc'
      rcases hok p rfl with h1 | h1
      · exact ⟨i', q, hc, rfl, h1⟩
      · exact hgr h1
    · simp only [AState.setPc, if_neg hi] at hc
      exact hgr (ha.granted i' q' p hc)
  · intro k x p hk hx
    obtain ⟨i', q', hi'⟩ := ha.sess k x p hk hx
    exact ⟨i', q', hkeep i' q' p hi'⟩

theorem AuthOrigin.note {cfg : SysCfg} {s0 : Sys} {h : List SysAct} {s : AState} (ha : AuthOrigin cfg s0 h s) (e : AEvent) :
    AuthOrigin cfg s0 h (s.note e) := ha.env _ _ _ _

theorem AuthOrigin.setSess {cfg : SysCfg} {s0 : Sys} {h : List SysAct} {s : AState} (ha : AuthOrigin cfg s0 h s) {k : Nat} {x : Sess}
    (hx : ∀ p, x.result = some (.ok p) → ∃ i q, s.calls i = some ⟨q, .done (.ok p)⟩) : AuthOrigin cfg s0 h (s.setSess k x) := by
  refine ⟨ha.calls, ha.granted, ha.cache, ?_⟩
  intro k' x' p hk hr
  simp only [AState.setSess] at hk
  split at hk
  · simp only [Option.some.injEq] at hk
    subst hk
    exact hx p hr
  · exact ha.sess k' x' p hk hr

theorem AuthOrigin.step {cfg : SysCfg} {s0 : Sys} {h : List SysAct} {s s' : AState} {a : AAct} (ha : AuthOrigin cfg s0 h s)
    (hs : aStep cfg.auth s a = some s')
    (htok : ∀ q p, TokenSays cfg.auth s.now s.keys s.jwkp q p → TokenAccepted cfg s0 h q p)
    (hchk : ∀ i view sched q p act res rs, a = .check i view sched → s.calls i = some ⟨q, .translated p act res⟩ →
      checkResult cfg.auth.U ⟨p.domain, p.roles, act, cfg.auth.resourcePrefix ++ res⟩ view sched = some (.ok rs) →
      rs ≠ [] ∧ ∀ role ∈ rs, role ∈ p.roles ∧ ∃ dom ∈ cfg.domains, ∃ x, ReceivedAssertion cfg s0 h dom x ∧
        Applies cfg.auth.U x p.domain role act (cfg.auth.resourcePrefix ++ res) ∧ ¬ IsDeny cfg.auth.U x) :
    AuthOrigin cfg s0 h s' := by
  cases aStep_effect hs with
  | call i q hc => exact (ha.setPc (pc := .start) (by simp [hc]) trivial (by simp)).note _
  | bad i q hc he => exact ha.setPc (by simp [hc]) trivial (by simp)
  | hit i q p hc he hg =>
    refine (ha.setPc (pc := .done (.ok p)) (by simp [hc]) trivial ?_).note _
    unfold Gache.get at hg
    split at hg
    · simp at hg
    · rename_i e hk
      split at hg
      · simp only [Option.some.injEq] at hg
        intro p' hp'
        simp only [Pc.done.injEq, Res.ok.injEq] at hp'
        subst hp'
        rw [← hg]
        exact .inr (ha.cache _ e hk)
      · simp at hg
  | miss i q hc he hg => exact ha.setPc (by simp [hc]) trivial (by simp)
  | valid i q p hc hv =>
    have ht := htok q p (validateToken_ok hv).1
    split
    · rename_i hd
      exact (ha.note _).setPc (by simp [AState.note, hc]) ⟨ht, fun h0 => by simp [hd] at h0⟩ (by simp)
    · exact (ha.note _).setPc (by simp [AState.note, hc]) ht (by simp)
  | invalid i q r hc hv hr =>
    refine (ha.note _).setPc (pc := .done r) (by simp [AState.note, hc]) trivial ?_
    intro p' hp'
    simp only [Pc.done.injEq] at hp'
    exact absurd hp' (hr p')
  | trans i seed q p act res hc ht =>
    refine (ha.note _).setPc (by simp [AState.note, hc]) ⟨ha.calls i q _ hc, seed, ?_⟩ (by simp)
    unfold translate at ht
    unfold Translates
    cases htr : cfg.auth.translator with
    | none =>
      rw [htr] at ht
      simp only [Res.ok.injEq, Prod.mk.injEq] at ht
      exact ⟨fun _ => ⟨ht.1.symm, ht.2.symm⟩, by simp⟩
    | some t =>
      rw [htr] at ht
      refine ⟨by simp, ?_⟩
      intro t' ht'
      simp only [Option.some.injEq] at ht'
      subst ht'
      exact ht
  | transFail i seed q p r hc hf hr =>
    refine (ha.note _).setPc (pc := .done r) (by simp [AState.note, hc]) trivial ?_
    intro p' hp'
    simp only [Pc.done.injEq] at hp'
    exact absurd hp' (hr p')
  | check i view sched q p act res rs hc hcr =>
    obtain ⟨h1, seed, h2⟩ := ha.calls i q _ hc
    obtain ⟨h3, h4⟩ := hchk i view sched q p act res rs rfl hc hcr
    exact (ha.note _).setPc (by simp [AState.note, hc]) ⟨h1, fun _ => ⟨h3, seed, act, res, h2, h4⟩⟩ (by simp)
  | checkFail i view sched q p act res r hc hf hr =>
    refine (ha.note _).setPc (pc := .done r) (by simp [AState.note, hc]) trivial ?_
    intro p' hp'
    simp only [Pc.done.injEq] at hp'
    exact absurd hp' (hr p')
  | store i q p hc =>
    have ho : Origin cfg s0 h q p := ha.calls i q _ hc
    have h1 : AuthOrigin cfg s0 h (s.setPc i q (.done (.ok p))) := ha.setPc (by simp [hc]) trivial (by
      intro p' hp'
      simp only [Pc.done.injEq, Res.ok.injEq] at hp'
      subst hp'
      exact .inl ho)
    have h2 : AuthOrigin cfg s0 h { s.setPc i q (.done (.ok p)) with cache := s.cache.set s.now (cacheKey cfg.auth q) p cfg.auth.cacheExp } := by
      refine ⟨h1.calls, h1.granted, ?_, h1.sess⟩
      intro k e hk
      simp only [Gache.set] at hk
      split at hk
      · rename_i hk'
        simp only [Option.some.injEq] at hk
        subst hk
        exact ⟨i, q, by simp [AState.setPc], hk'.symm, ho⟩
      · exact h1.cache k e hk
    exact h2.note _
  | opened k r act res hk =>
    refine (ha.setSess ?_).note _
    intro p hp
    simp only at hp
    split at hp <;> simp at hp
  | sub k i q rest tried hk hc =>
    refine AuthOrigin.note ((ha.setPc (pc := .start) (by simp [hc]) trivial (by simp)).setSess ?_) _
    intro p hp
    simp at hp
  | finFails k e rest tried hk =>
    refine ha.setSess ?_
    intro p hp
    simp only [Sess.next] at hp
    split at hp <;> simp at hp
  | fin k c rest i tried q r hk hc =>
    refine ha.setSess ?_
    intro p hp
    cases r with
    | ok p' =>
      simp only [Sess.next, Option.some.injEq, Res.ok.injEq] at hp
      subst hp
      exact ⟨i, q, hc⟩
    | err e =>
      simp only [Sess.next] at hp
      split at hp <;> simp at hp
    | panic => simp [Sess.next] at hp
  | tick d => exact ha.env _ _ _ _
  | setKeys ks => exact ha.env _ _ _ _
  | setJwkp ks => exact ha.env _ _ _ _
  | sweep sel =>
    refine ⟨ha.calls, ha.granted, ?_, ha.sess⟩
    intro k e hk
    simp only [Gache.sweep] at hk
    split at hk
    · simp at hk
    · rename_i e' hk'
      simp only [Option.ite_none_left_eq_some, Option.some.injEq] at hk
      rw [← hk.2]
      exact ha.cache k e' hk'
  | clear => exact ⟨ha.calls, ha.granted, by simp [Gache.empty], ha.sess⟩


/-- The calls that wait for a check only go on when it returns. -/
theorem CheckLinked.step {cfg : SysCfg} {s s' : AState} {a : AAct} {c : Chk} {i : Nat} (hl : CheckLinked cfg c (s.calls i))
    (hs : aStep cfg.auth s a = some s') : CheckLinked cfg c (s'.calls i) := by
  have hset : ∀ (i' : Nat) (q : AReq) (pc : Pc), (i = i' → CheckLinked cfg c (some ⟨q, pc⟩)) → CheckLinked cfg c ((s.setPc i' q pc).calls i) := by
    intro i' q pc h
    simp only [AState.setPc]
    split
    · rename_i he; exact h he
    · exact hl
  cases aStep_effect hs with
  | call i' q hc => exact hset i' q _ (by rintro rfl; rw [hc] at hl; exact hl.elim)
  | bad i' q hc he => exact hset i' q _ (by rintro rfl; rw [hc] at hl; exact hl.elim)
  | hit i' q p hc he hg => exact hset i' q _ (by rintro rfl; rw [hc] at hl; exact hl.elim)
  | miss i' q hc he hg => exact hset i' q _ (by rintro rfl; rw [hc] at hl; exact hl.elim)
  | valid i' q p hc hv => exact hset i' q _ (by rintro rfl; rw [hc] at hl; exact hl.elim)
  | invalid i' q r hc hv hr => exact hset i' q _ (by rintro rfl; rw [hc] at hl; exact hl.elim)
  | trans i' seed q p act res hc ht => exact hset i' q _ (by rintro rfl; rw [hc] at hl; exact hl.elim)
  | transFail i' seed q p r hc hf hr => exact hset i' q _ (by rintro rfl; rw [hc] at hl; exact hl.elim)
  | check i' view sched q p act res rs hc hcr => exact hset i' q _ (fun _ => trivial)
  | checkFail i' view sched q p act res r hc hf hr => exact hset i' q _ (fun _ => trivial)
  | store i' q p hc => exact hset i' q _ (fun _ => trivial)
  | sub k i' q rest tried hk hc => exact hset i' q _ (by rintro rfl; rw [hc] at hl; exact hl.elim)
  | opened k r act res hk => exact hl
  | finFails k e rest tried hk => exact hl
  | fin k c rest i' tried q r hk hc => exact hl
  | tick d => exact hl
  | setKeys ks => exact hl
  | setJwkp ks => exact hl
  | sweep sel => exact hl
  | clear => exact hl

theorem SysOrigin.step {cfg : SysCfg} {now : Int} {h : List SysAct} {s s' : Sys} {a : SysAct}
    (hrun : sysRun cfg (sysInit cfg now) h = some s) (hb : SysBase cfg now h s) (ho : SysOrigin cfg (sysInit cfg now) h s)
    (hs : sysStep cfg s a = some s') : SysOrigin cfg (sysInit cfg now) (h ++ [a]) s' := by
  obtain ⟨_, he⟩ := sysStep_effect hs
  have hfs : ∀ dom, FHolds (PolicyReceived cfg (sysInit cfg now) (h ++ [a]) dom) (s.fs dom) :=
    fun dom => (ho.fs dom).mono fun _ hp => PolicyReceived.mono hp
  have hpd : ∃ A, (∀ x ∈ A, ∃ dom ∈ cfg.domains, ReceivedAssertion cfg (sysInit cfg now) (h ++ [a]) dom x) ∧ PdGood cfg.auth.U A s.pd := by
    obtain ⟨A, hA, hg⟩ := ho.pd
    refine ⟨A, fun x hx => ?_, hg⟩
    obtain ⟨dom, hd, hr⟩ := hA x hx
    exact ⟨dom, hd, ReceivedAssertion.mono hr⟩
  have hau : AuthOrigin cfg (sysInit cfg now) (h ++ [a]) s.auth := ho.auth.mono
  have htok : ∀ q p, TokenSays cfg.auth s.auth.now s.auth.keys s.auth.jwkp q p → TokenAccepted cfg (sysInit cfg now) (h ++ [a]) q p :=
    fun q p ht => ⟨h, [a], s, rfl, hrun, hb.signed ht, ht⟩
  -- steps of the policy daemon
  have hlink : ∀ {pd' : PdState} {b : PdAct}, pdStep cfg.auth.U s.pd b = some pd' →
      ∀ i k, s.checkOf i = some k → ∃ c, pd'.checks[k]? = some c ∧ CheckLinked cfg c (s.auth.calls i) := by
    intro pd' b hp i k hk
    obtain ⟨c, hc, hl⟩ := ho.links i k hk
    obtain ⟨c', hc', hq⟩ := pdStep_checks hp hc
    refine ⟨c', hc', ?_⟩
    unfold CheckLinked at hl ⊢
    split at hl
    · rw [hq]; exact hl
    · trivial
    · trivial
    · exact hl.elim
  cases he with
  | tick d => exact ⟨fun dom => (hfs dom).env _ _, by
      obtain ⟨A, hA, hg⟩ := hpd
      exact ⟨A, hA, hg.objs, hg.tasks, hg.checks⟩, hau.env _ _ _ _, ho.links⟩
  | pk a pk' ha hp => exact ⟨fun dom => (hfs dom).env _ _, hpd, hau.env _ _ _ _, ho.links⟩
  | jwk a jwk' hj => exact ⟨hfs, hpd, hau.env _ _ _ _, ho.links⟩
  | fetcher dom a f ha hf =>
    refine ⟨fun x => ?_, hpd, hau, ho.links⟩
    simp only
    split
    · rename_i hx
      subst hx
      refine (hfs x).step hf ?_
      rintro eTag sp ⟨j, body, rfl, _, hdec, d, e, h1, h2, h3, ⟨v1, t1, h4, h5⟩, v2, t2, h6, h7⟩
      rw [hb.clock.2.2] at h3
      rw [hb.keys.2] at h4 h6
      exact ⟨h, j, eTag, body, [], s, rfl, hrun, hdec, d, e, h1, h2, h3, ⟨v1, t1, hb.trusted h4, h5⟩, v2, t2, hb.trusted h6, h7⟩
    · exact hfs x
  | pd a pd' D F W ha hp hD hF hbr =>
    refine ⟨fun x => ?_, ?_, hau, hlink hp⟩
    · simp only
      rcases hF with rfl | ⟨dom, f, hf, rfl⟩
      · exact hfs x
      · simp only
        split
        · rename_i hx
          subst hx
          refine (hfs x).step hf ?_
          rintro eTag sp ⟨j, body, h1, _⟩
          simp at h1
        · exact hfs x
    · obtain ⟨A, hA, hg⟩ := hpd
      by_cases hbring : ∃ d, a.Brings s.pd d
      · obtain ⟨d, hd⟩ := hbring
        obtain ⟨i, j, dom, n, retry, sp, e, h1, h2, h3⟩ := hbr d hd
        refine ⟨A ++ d.policies.flatten, ?_, (hg.mono (fun x hx => List.mem_append_left _ hx)).step hp ?_⟩
        · intro x hx
          rcases List.mem_append.mp hx with hx | hx
          · exact hA x hx
          · refine ⟨dom, ?_, sp, d, (hfs dom).ret n retry sp e h2, h3, hx⟩
            unfold Sys.domOf at h1
            cases hi : s.doms[i]? with
            | none => rw [hi] at h1; simp at h1
            | some ds =>
              rw [hi] at h1
              exact hb.doms ds (List.mem_of_getElem? hi) dom (List.mem_of_getElem? h1)
        · intro d' hd' x hx
          have : d' = d := by
            obtain ⟨i1, j1, o1, t1, e1, e2, e3⟩ := hd
            obtain ⟨i2, j2, o2, t2, e4, e5, e6⟩ := hd'
            rw [e1] at e4
            simp only [PdAct.task.injEq, UpdAct.job.injEq] at e4
            obtain ⟨rfl, rfl, rfl⟩ := e4
            rw [e2] at e5
            simp only [Option.some.injEq] at e5
            subst e5
            rw [e3] at e6
            simp only [Option.some.injEq, Job.fetching.injEq] at e6
            exact e6.symm
          subst this
          exact List.mem_append_right _ hx
      · exact ⟨A, hA, hg.step hp (fun d hd => absurd ⟨d, hd⟩ hbring)⟩
  | nilPolicy i j => exact ⟨hfs, hpd, hau, ho.links⟩
  | beginCheck i q p act res pd' hc hn hp =>
    refine ⟨hfs, ?_, hau, ?_⟩
    · obtain ⟨A, hA, hg⟩ := hpd
      refine ⟨A, hA, hg.step hp ?_⟩
      rintro d ⟨i1, j1, o1, t1, e1, _⟩
      simp at e1
    · intro i' k hk
      simp only at hk
      split at hk
      · rename_i hi
        subst hi
        simp only [Option.some.injEq] at hk
        subst hk
        have hpd' := pdStep_check_crashed hp
        subst hpd'
        refine ⟨_, List.getElem?_concat_length, ?_⟩
        simp only [hc, CheckLinked]
      · exact hlink hp i' k hk
  | endCheck i view sched k c r auth' hk hc hl hr hv hst =>
    have : AuthOrigin cfg (sysInit cfg now) (h ++ [.endCheck i view sched]) auth' := by
      refine hau.step hst htok ?_
      intro i' view' sched' q p act res rs hact hcall hcr
      simp only [AAct.check.injEq] at hact
      obtain ⟨rfl, rfl, rfl⟩ := hact
      obtain ⟨c', hc', hlk⟩ := ho.links i k hk
      rw [hc] at hc'
      simp only [Option.some.injEq] at hc'
      subst hc'
      rw [hcall] at hlk
      simp only [CheckLinked] at hlk
      rw [hlk, hcr] at hv
      simp only [Option.some.injEq] at hv
      subst hv
      obtain ⟨A, hA, hg⟩ := hpd
      obtain ⟨h1, h2⟩ := hg.grant (List.mem_of_getElem? hc) hl hr
      refine ⟨h1, fun role hrole => ?_⟩
      obtain ⟨h3, x, hx, h4⟩ := h2 role hrole
      obtain ⟨dom, hdom, hrec⟩ := hA x hx
      rw [hlk] at h3 h4
      exact ⟨h3, dom, hdom, x, hrec, h4⟩
    refine ⟨hfs, hpd, this, ?_⟩
    intro i' k' hk'
    obtain ⟨c', hc', hlk⟩ := ho.links i' k' hk'
    exact ⟨c', hc', hlk.step hst⟩
  | auth a auth' ha hst =>
    have : AuthOrigin cfg (sysInit cfg now) (h ++ [.auth a]) auth' := by
      refine hau.step hst htok ?_
      rintro i view sched q p act res rs rfl
      simp [AAct.own] at ha
    refine ⟨hfs, hpd, this, ?_⟩
    intro i' k' hk'
    obtain ⟨c', hc', hlk⟩ := ho.links i' k' hk'
    exact ⟨c', hc', hlk.step hst⟩

/-- What holds after every history. -/
theorem sysOrigin_run {cfg : SysCfg} {now : Int} {h : List SysAct} {s : Sys}
    (hr : sysRun cfg (sysInit cfg now) h = some s) : SysBase cfg now h s ∧ SysOrigin cfg (sysInit cfg now) h s :=
  sysRun_ind (fun h s => SysBase cfg now h s ∧ SysOrigin cfg (sysInit cfg now) h s) ⟨sysInit_base cfg now, sysInit_origin cfg now⟩
    (fun _ _ _ _ hp hrun hs => ⟨hp.1.step hs, hp.2.step hrun hp.1 hs⟩) h s hr

end Athenz
