import Verif.Spec.Authority
import Verif.Proofs.Role
import Verif.Proofs.Access

/-! Lemmas about authorizerd.go. -/

namespace Athenz
open Spec

theorem checkResult_iff {U : CaseFns} {q : CheckReq} {view : PolicyView} {sched : List CheckAct} {r : Res (List Str)} :
    checkResult U q view sched = some r ↔ CheckReturns U q view sched r := by
  unfold checkResult CheckReturns
  constructor
  · intro h
    split at h
    · rename_i s hs
      split at h
      · rename_i r' hr
        simp only [Option.some.injEq] at h
        subst h; exact ⟨s, hs, hr⟩
      · simp at h
    · simp at h
  · rintro ⟨s, hs, hr⟩
    simp only [hs, hr]

/-- Not a success. -/
def Res.NotOk {α : Type} (r : Res α) : Prop := ∀ a, r ≠ .ok a

/-- The same failure, as a result of another type. -/
def Res.fail {α β : Type} : Res α → Option (Res β)
  | .ok _ => none
  | .err e => some (.err e)
  | .panic => some .panic

/-- What a step does. -/
inductive AEffect (cfg : AuthCfg) (s : AState) : AAct → AState → Prop
  | call (i q) (h : s.calls i = none) : AEffect cfg s (.call i q) ((s.setPc i q .start).note (.begun i s.now))
  | bad (i q) (h : s.calls i = some ⟨q, .start⟩) (he : cfg.disablePolicyd = false ∧ (q.act = [] ∨ q.res = [])) :
      AEffect cfg s (.get i) (s.setPc i q (.done (.err .invalidParameters)))
  | hit (i q p) (h : s.calls i = some ⟨q, .start⟩) (he : ¬ (cfg.disablePolicyd = false ∧ (q.act = [] ∨ q.res = [])))
      (hg : s.cache.get s.now (cacheKey cfg q) = some p) :
      AEffect cfg s (.get i) ((s.setPc i q (.done (.ok p))).note (.hit i s.now))
  | miss (i q) (h : s.calls i = some ⟨q, .start⟩) (he : ¬ (cfg.disablePolicyd = false ∧ (q.act = [] ∨ q.res = [])))
      (hg : s.cache.get s.now (cacheKey cfg q) = none) : AEffect cfg s (.get i) (s.setPc i q .miss)
  | valid (i q p) (h : s.calls i = some ⟨q, .miss⟩) (hv : validateToken cfg s.keys s.jwkp (clock s.now) q = .ok p) :
      AEffect cfg s (.validate i)
        ((s.note (.validated i s.now s.keys s.jwkp)).setPc i q (if cfg.disablePolicyd then .checked p else .validated p))
  | invalid (i q r) (h : s.calls i = some ⟨q, .miss⟩) (hv : validateToken cfg s.keys s.jwkp (clock s.now) q = r) (hr : r.NotOk) :
      AEffect cfg s (.validate i) ((s.note (.validated i s.now s.keys s.jwkp)).setPc i q (.done r))
  | trans (i seed q p act res) (h : s.calls i = some ⟨q, .validated p⟩) (ht : translate cfg seed p.domain q = .ok (act, res)) :
      AEffect cfg s (.translate i seed) ((s.note (.translated i seed)).setPc i q (.translated p act res))
  | transFail (i seed q p) (r : Res Principal) (h : s.calls i = some ⟨q, .validated p⟩) (hf : (translate cfg seed p.domain q).fail = some r)
      (hr : r.NotOk) :
      AEffect cfg s (.translate i seed) ((s.note (.translated i seed)).setPc i q (.done r))
  | check (i view sched q p act res rs) (h : s.calls i = some ⟨q, .translated p act res⟩)
      (hc : checkResult cfg.U ⟨p.domain, p.roles, act, cfg.resourcePrefix ++ res⟩ view sched = some (.ok rs)) :
      AEffect cfg s (.check i view sched) ((s.note (.checked i view sched)).setPc i q (.checked { p with authorizedRoles := rs }))
  | checkFail (i view sched q p act res) (r : Res Principal) (h : s.calls i = some ⟨q, .translated p act res⟩)
      (hf : (checkResult cfg.U ⟨p.domain, p.roles, act, cfg.resourcePrefix ++ res⟩ view sched).bind Res.fail = some r) (hr : r.NotOk) :
      AEffect cfg s (.check i view sched) ((s.note (.checked i view sched)).setPc i q (.done r))
  | store (i q p) (h : s.calls i = some ⟨q, .checked p⟩) :
      AEffect cfg s (.store i)
        (({ s with cache := s.cache.set s.now (cacheKey cfg q) p cfg.cacheExp }.setPc i q (.done (.ok p))).note
          (.stored i s.now (cacheKey cfg q) p))
  | opened (k r act res) (h : s.sess k = none) :
      AEffect cfg s (.opened k r act res)
        ((s.setSess k
          { todo := authorizers cfg r act res, cur := none, tried := [],
            result := if authorizers cfg r act res = [] then some (.err .invalidCredentials) else none }).note (.opened k r act res))
  | sub (k i q rest tried) (hs : s.sess k = some ⟨.token q :: rest, none, none, tried⟩) (h : s.calls i = none) :
      AEffect cfg s (.sub k i)
        (((s.setPc i q .start).setSess k ⟨.token q :: rest, some i, none, tried⟩).note (.begun i s.now))
  | finFails (k e rest tried) (hs : s.sess k = some ⟨.fails e :: rest, none, none, tried⟩) :
      AEffect cfg s (.fin k) (s.setSess k (Sess.next ⟨.fails e :: rest, none, none, tried⟩ (.fails e) rest none (.err e)))
  | fin (k c rest i tried q r) (hs : s.sess k = some ⟨c :: rest, some i, none, tried⟩) (h : s.calls i = some ⟨q, .done r⟩) :
      AEffect cfg s (.fin k) (s.setSess k (Sess.next ⟨c :: rest, some i, none, tried⟩ c rest (some i) r))
  | tick (d) : AEffect cfg s (.tick d) { s with now := s.now + d }
  | setKeys (ks) : AEffect cfg s (.setKeys ks) { s with keys := ks }
  | setJwkp (ks) : AEffect cfg s (.setJwkp ks) { s with jwkp := ks }
  | sweep (sel) : AEffect cfg s (.sweep sel) { s with cache := s.cache.sweep s.now sel }
  | clear : AEffect cfg s .clear { s with cache := Gache.empty }

theorem aStep_effect {cfg : AuthCfg} {s s' : AState} {a : AAct} (h : aStep cfg s a = some s') : AEffect cfg s a s' := by
  cases a with
  | call i q =>
    simp only [aStep] at h
    split at h
    · rename_i hc
      simp only [Option.some.injEq] at h; subst h; exact .call i q hc
    · simp at h
  | get i =>
    simp only [aStep] at h
    split at h
    · rename_i q hc
      split at h
      · rename_i he
        simp only [Option.some.injEq] at h; subst h; exact .bad i q hc he
      · rename_i he
        split at h
        · rename_i p hg
          simp only [Option.some.injEq] at h; subst h; exact .hit i q p hc he hg
        · rename_i hg
          simp only [Option.some.injEq] at h; subst h; exact .miss i q hc he hg
    · simp at h
  | validate i =>
    simp only [aStep] at h
    split at h
    · rename_i q hc
      split at h
      · rename_i p hv
        simp only [Option.some.injEq] at h; subst h; exact .valid i q p hc hv
      · rename_i e hv
        simp only [Option.some.injEq] at h; subst h; exact .invalid i q (.err e) hc hv (by intro a; simp)
      · rename_i hv
        simp only [Option.some.injEq] at h; subst h; exact .invalid i q .panic hc hv (by intro a; simp)
    · simp at h
  | translate i seed =>
    simp only [aStep] at h
    split at h
    · rename_i q p hc
      split at h
      · rename_i ar ht
        simp only [Option.some.injEq] at h; subst h; exact .trans i seed q p ar.1 ar.2 hc ht
      · rename_i e hv
        simp only [Option.some.injEq] at h; subst h; exact .transFail i seed q p (.err e) hc (by rw [hv]; rfl) (by intro a; simp)
      · rename_i hv
        simp only [Option.some.injEq] at h; subst h; exact .transFail i seed q p .panic hc (by rw [hv]; rfl) (by intro a; simp)
    · simp at h
  | check i view sched =>
    simp only [aStep] at h
    split at h
    · rename_i q p act res hc
      split at h
      · rename_i rs ht
        simp only [Option.some.injEq] at h; subst h; exact .check i view sched q p act res rs hc ht
      · rename_i e hv
        simp only [Option.some.injEq] at h; subst h; exact .checkFail i view sched q p act res (.err e) hc (by rw [hv]; rfl) (by intro a; simp)
      · rename_i hv
        simp only [Option.some.injEq] at h; subst h; exact .checkFail i view sched q p act res .panic hc (by rw [hv]; rfl) (by intro a; simp)
      · simp at h
    · simp at h
  | store i =>
    simp only [aStep] at h
    split at h
    · rename_i q p hc
      simp only [Option.some.injEq] at h; subst h; exact .store i q p hc
    · simp at h
  | opened k r act res =>
    simp only [aStep] at h
    split at h
    · rename_i hc
      simp only [Option.some.injEq] at h; subst h; exact .opened k r act res hc
    · simp at h
  | sub k i =>
    simp only [aStep] at h
    split at h
    · rename_i q rest tried hs hc
      simp only [Option.some.injEq] at h; subst h; exact .sub k i q rest tried hs hc
    · simp at h
  | fin k =>
    simp only [aStep] at h
    split at h
    · rename_i e rest tried hs
      simp only [Option.some.injEq] at h; subst h; exact .finFails k e rest tried hs
    · rename_i c rest i tried hs
      split at h
      · rename_i q r hc
        simp only [Option.some.injEq] at h; subst h; exact .fin k c rest i tried q r hs hc
      · simp at h
    · simp at h
  | tick d => simp only [aStep, Option.some.injEq] at h; subst h; exact .tick d
  | setKeys ks => simp only [aStep, Option.some.injEq] at h; subst h; exact .setKeys ks
  | setJwkp ks => simp only [aStep, Option.some.injEq] at h; subst h; exact .setJwkp ks
  | sweep sel => simp only [aStep, Option.some.injEq] at h; subst h; exact .sweep sel
  | clear => simp only [aStep, Option.some.injEq] at h; subst h; exact .clear

theorem aRun_ind {cfg : AuthCfg} {P : AState → Prop} (hstep : ∀ s a s', P s → aStep cfg s a = some s' → P s') {s s' : AState}
    {acts : List AAct} (h0 : P s) (h : aRun cfg s acts = some s') : P s' := by
  induction acts generalizing s with
  | nil => simp only [aRun, Option.some.injEq] at h; exact h ▸ h0
  | cons a as ih =>
    simp only [aRun] at h
    split at h
    · rename_i s1 hs1
      exact ih (hstep s a s1 h0 hs1) h
    · simp at h

theorem aRun_append {cfg : AuthCfg} {s s' : AState} {l l' : List AAct} :
    aRun cfg s (l ++ l') = some s' ↔ ∃ s1, aRun cfg s l = some s1 ∧ aRun cfg s1 l' = some s' := by
  induction l generalizing s with
  | nil => simp [aRun]
  | cons a l ih =>
    simp only [List.cons_append, aRun]
    split
    · exact ih
    · simp

/-! ### Tokens -/

theorem validateToken_ok {cfg : AuthCfg} {keys : Option KeyProvider} {jwkp : Option JwkProvider} {t : Int} {q : AReq} {p : Principal}
    (h : validateToken cfg keys jwkp (clock t) q = .ok p) : TokenSays cfg t keys jwkp q p ∧ p.authorizedRoles = [] := by
  unfold validateToken at h
  unfold TokenSays
  cases hm : q.mode with
  | roleToken =>
    simp only [hm] at h ⊢
    split at h
    · rename_i rt hv
      simp only [Res.ok.injEq] at h
      subst h
      unfold validateRole at hv
      split at hv
      · split at hv
        · rename_i ks
          exact ⟨⟨ks, rt, rfl, hv, rfl, rfl, rfl, rfl, rfl, rfl⟩, rfl⟩
        · split at hv
          · split at hv <;> simp at hv
          · simp at hv
          · simp at hv
      · simp at hv
    · simp at h
    · simp at h
  | accessToken =>
    simp only [hm] at h ⊢
    split at h
    · rename_i c hv
      simp only [Res.ok.injEq] at h
      subst h
      unfold validateAccess at hv
      split at hv
      · split at hv
        · rename_i ks
          exact ⟨⟨ks, c, rfl, hv, rfl, rfl, rfl, rfl, rfl, rfl⟩, rfl⟩
        · split at hv <;> simp at hv
      · simp at hv
    · simp at h
    · simp at h

theorem translate_ok {cfg : AuthCfg} {seed : Nat} {domain act res : Str} {q : AReq}
    (h : translate cfg seed domain q = .ok (act, res)) : Translates cfg seed domain q act res := by
  unfold translate at h
  unfold Translates
  split at h
  · rename_i hn
    simp only [Res.ok.injEq, Prod.mk.injEq] at h
    rw [hn]
    refine ⟨fun _ => ⟨h.1.symm, h.2.symm⟩, fun t ht => by simp at ht⟩
  · rename_i t ht
    rw [ht]
    refine ⟨fun h => by simp at h, fun t' ht' => ?_⟩
    simp only [Option.some.injEq] at ht'
    rw [← ht']; exact h

theorem tokenSays_roles {cfg : AuthCfg} {t : Int} {keys : Option KeyProvider} {jwkp : Option JwkProvider} {q : AReq} {p : Principal}
    (h : TokenSays cfg t keys jwkp q p) (rs : List Str) : TokenSays cfg t keys jwkp q { p with authorizedRoles := rs } := by
  unfold TokenSays at h ⊢
  split at h <;> exact h

/-! ### The invariant -/

/-- The token was validated in this call. -/
structure TokenEv (cfg : AuthCfg) (log : List AEvent) (now : Int) (i : Nat) (q : AReq) (p : Principal) : Prop where
  ev : ∃ tb tv keys jwkp, .begun i tb ∈ log ∧ tb ≤ tv ∧ tv ≤ now ∧ .validated i tv keys jwkp ∈ log ∧ TokenSays cfg tv keys jwkp q p
  args : cfg.disablePolicyd = false → q.act ≠ [] ∧ q.res ≠ []

/-- The call returned what another one had stored. -/
def HitEv (cfg : AuthCfg) (log : List AEvent) (now : Int) (i : Nat) (q : AReq) (p : Principal) : Prop :=
  ∃ th j ts, .hit i th ∈ log ∧ .stored j ts (cacheKey cfg q) p ∈ log ∧ Fresh cfg.cacheExp ts th ∧ th ≤ now ∧
    (∃ tb, .begun i tb ∈ log ∧ tb ≤ th) ∧ (cfg.disablePolicyd = false → q.act ≠ [] ∧ q.res ≠ [])

/-- What is known about a call by how far it is. -/
def PcOk (cfg : AuthCfg) (log : List AEvent) (now : Int) (i : Nat) (q : AReq) : Pc → Prop
  | .start => ∃ tb, .begun i tb ∈ log ∧ tb ≤ now
  | .miss => (∃ tb, .begun i tb ∈ log ∧ tb ≤ now) ∧ (cfg.disablePolicyd = false → q.act ≠ [] ∧ q.res ≠ [])
  | .validated p => TokenEv cfg log now i q p ∧ cfg.disablePolicyd = false
  | .translated p act res => TokenEv cfg log now i q p ∧ cfg.disablePolicyd = false ∧
      ∃ seed, .translated i seed ∈ log ∧ Translates cfg seed p.domain q act res
  | .checked p => ∃ tb tv, FullCheck cfg log i q p tb tv ∧ tv ≤ now
  | .done (.ok p) => (∃ ts, .stored i ts (cacheKey cfg q) p ∈ log) ∨ HitEv cfg log now i q p
  | .done _ => True

theorem Spec.FullCheck.mono {cfg : AuthCfg} {log log' : List AEvent} {i : Nat} {q : AReq} {p : Principal} {tb tv : Int}
    (h : FullCheck cfg log i q p tb tv) (hl : ∀ e ∈ log, e ∈ log') : FullCheck cfg log' i q p tb tv := by
  obtain ⟨h1, h2, ⟨ks, jw, h3, h4⟩, h5, h6⟩ := h
  refine ⟨hl _ h1, h2, ⟨ks, jw, hl _ h3, h4⟩, fun hd => ?_, h6⟩
  obtain ⟨ha, hr, seed, view, sched, h7, h8, h9⟩ := h5 hd
  exact ⟨ha, hr, seed, view, sched, hl _ h7, hl _ h8, h9⟩

theorem TokenEv.mono {cfg : AuthCfg} {log log' : List AEvent} {now now' : Int} {i : Nat} {q : AReq} {p : Principal}
    (h : TokenEv cfg log now i q p) (hl : ∀ e ∈ log, e ∈ log') (hn : now ≤ now') : TokenEv cfg log' now' i q p := by
  obtain ⟨⟨tb, tv, ks, jw, h1, h2, h3, h4, h5⟩, h6⟩ := h
  exact ⟨⟨tb, tv, ks, jw, hl _ h1, h2, by omega, hl _ h4, h5⟩, h6⟩

theorem PcOk.mono {cfg : AuthCfg} {log log' : List AEvent} {now now' : Int} {i : Nat} {q : AReq} {pc : Pc}
    (h : PcOk cfg log now i q pc) (hl : ∀ e ∈ log, e ∈ log') (hn : now ≤ now') : PcOk cfg log' now' i q pc := by
  cases pc with
  | start =>
    obtain ⟨tb, h1, h2⟩ := h
    exact ⟨tb, hl _ h1, by omega⟩
  | miss =>
    obtain ⟨⟨tb, h1, h2⟩, h3⟩ := h
    exact ⟨⟨tb, hl _ h1, by omega⟩, h3⟩
  | validated p => exact ⟨h.1.mono hl hn, h.2⟩
  | translated p act res =>
    obtain ⟨h1, h2, seed, h3, h4⟩ := h
    exact ⟨h1.mono hl hn, h2, seed, hl _ h3, h4⟩
  | checked p =>
    obtain ⟨tb, tv, h1, h2⟩ := h
    exact ⟨tb, tv, h1.mono hl, by omega⟩
  | done r =>
    cases r with
    | ok p =>
      rcases h with ⟨ts, h⟩ | ⟨th, j, ts, h1, h2, h3, h4, ⟨tb, h5, h6⟩, h7⟩
      · exact .inl ⟨ts, hl _ h⟩
      · exact .inr ⟨th, j, ts, hl _ h1, hl _ h2, h3, by omega, ⟨tb, hl _ h5, h6⟩, h7⟩
    | err e => trivial
    | panic => trivial

/-- The stored expiry of an entry stored at `t`. -/
def storedExpiry (cacheExp t : Int) : Int := if cacheExp > 0 then wrap64 (t + cacheExp) else cacheExp

structure AInv (cfg : AuthCfg) (s : AState) : Prop where
  time : 0 ≤ s.now
  cache : ∀ k e, s.cache k = some e → ∃ j t, .stored j t k e.val ∈ s.log ∧ e.expire = storedExpiry cfg.cacheExp t
  stored : ∀ j t k p, .stored j t k p ∈ s.log →
    0 ≤ t ∧ t ≤ s.now ∧ ∃ q, s.calls j = some ⟨q, .done (.ok p)⟩ ∧ k = cacheKey cfg q ∧ ∃ tb tv, FullCheck cfg s.log j q p tb tv ∧ tv ≤ t
  pcs : ∀ i q pc, s.calls i = some ⟨q, pc⟩ → PcOk cfg s.log s.now i q pc

theorem fresh_of_valid {V : Type} {cacheExp ts th : Int} {e : GEntry V} (he : e.expire = storedExpiry cacheExp ts) (h0 : 0 ≤ ts) (hle : ts ≤ th)
    (hv : Gache.valid th e = true) : Fresh cacheExp ts th := by
  refine ⟨hle, fun hp ho => ?_⟩
  unfold storedExpiry at he
  rw [if_pos hp] at he
  have hw : wrap64 (ts + cacheExp) = ts + cacheExp := by unfold wrap64; omega
  simp only [Gache.valid, he, hw, Bool.or_eq_true, decide_eq_true_eq] at hv
  omega

theorem Gache.get_some {V : Type} {g : Gache V} {now : Int} {k : Str} {v : V} (h : g.get now k = some v) :
    ∃ e, g k = some e ∧ e.val = v ∧ Gache.valid now e = true := by
  unfold Gache.get at h
  split at h
  · simp at h
  · rename_i e he
    split at h
    · rename_i hv
      exact ⟨e, he, by simpa using h, hv⟩
    · simp at h

/-- The common part of the steps that only move one call forward: new events that are no stores, a call that had not succeeded. -/
theorem AInv.move {cfg : AuthCfg} {s s' : AState} (hi : AInv cfg s) (i : Nat) (q : AReq) (pc : Pc) (new : List AEvent)
    (hlog : s'.log = s.log ++ new) (hnew : ∀ j t k p, AEvent.stored j t k p ∉ new) (hnow : s'.now = s.now) (hcache : s'.cache = s.cache)
    (hcalls : ∀ j, s'.calls j = if j = i then some ⟨q, pc⟩ else s.calls j)
    (hnot : ∀ q p, s.calls i ≠ some ⟨q, .done (.ok p)⟩) (hpc : PcOk cfg s'.log s'.now i q pc) : AInv cfg s' := by
  have hsub : ∀ e ∈ s.log, e ∈ s'.log := fun e he => by rw [hlog]; exact List.mem_append_left _ he
  refine ⟨by rw [hnow]; exact hi.time, ?_, ?_, ?_⟩
  · intro k e hk
    rw [hcache] at hk
    obtain ⟨j, t, h1, h2⟩ := hi.cache k e hk
    exact ⟨j, t, hsub _ h1, h2⟩
  · intro j t k p hm
    rw [hlog] at hm
    rcases List.mem_append.mp hm with hm | hm
    · obtain ⟨h0, h1, q', h2, h3, tb, tv, h4, h5⟩ := hi.stored j t k p hm
      refine ⟨h0, by rw [hnow]; exact h1, q', ?_, h3, tb, tv, h4.mono hsub, h5⟩
      rw [hcalls]
      split
      · rename_i hj
        subst hj; exact absurd h2 (hnot _ _)
      · exact h2
    · exact absurd hm (hnew _ _ _ _)
  · intro j q' pc' hj
    rw [hcalls] at hj
    split at hj
    · rename_i hji
      simp only [Option.some.injEq, Call.mk.injEq] at hj
      obtain ⟨rfl, rfl⟩ := hj
      subst hji
      exact hpc
    · exact (hi.pcs j q' pc' hj).mono hsub (by rw [hnow]; omega)

theorem PcOk.notOk {cfg : AuthCfg} {log : List AEvent} {now : Int} {i : Nat} {q : AReq} {r : Res Principal} (h : r.NotOk) :
    PcOk cfg log now i q (.done r) := by
  cases r with
  | ok p => exact absurd rfl (h p)
  | err e => trivial
  | panic => trivial

theorem aInv_step {cfg : AuthCfg} {s s' : AState} {a : AAct} (hi : AInv cfg s) (h : aStep cfg s a = some s') : AInv cfg s' := by
  cases aStep_effect h with
  | call i q hc =>
    exact hi.move i q .start [.begun i s.now] rfl (by simp) rfl rfl (fun _ => rfl) (by simp [hc])
      ⟨s.now, by simp [AState.note], Int.le_refl _⟩
  | bad i q hc he =>
    exact hi.move i q _ [] (by simp [AState.setPc]) (by simp) rfl rfl (fun _ => rfl) (by simp [hc]) trivial
  | hit i q p hc he hg =>
    obtain ⟨e, h1, h2, h3⟩ := Gache.get_some hg
    obtain ⟨j, t, h4, h5⟩ := hi.cache _ _ h1
    rw [h2] at h4
    obtain ⟨h6, h7, _⟩ := hi.stored _ _ _ _ h4
    obtain ⟨tb, hb, hbn⟩ := hi.pcs i q _ hc
    refine hi.move i q _ [.hit i s.now] rfl (by simp) rfl rfl (fun _ => rfl) (by simp [hc]) (.inr ⟨s.now, j, t, ?_, ?_, ?_, Int.le_refl _, ⟨tb, ?_, hbn⟩, ?_⟩)
    · simp [AState.note]
    · exact List.mem_append_left _ h4
    · exact fresh_of_valid h5 h6 h7 h3
    · exact List.mem_append_left _ hb
    · intro hd
      exact ⟨fun ha => he ⟨hd, .inl ha⟩, fun ha => he ⟨hd, .inr ha⟩⟩
  | miss i q hc he hg =>
    exact hi.move i q .miss [] (by simp [AState.setPc]) (by simp) rfl rfl (fun _ => rfl) (by simp [hc])
      ⟨hi.pcs i q _ hc, fun hd => ⟨fun ha => he ⟨hd, .inl ha⟩, fun ha => he ⟨hd, .inr ha⟩⟩⟩
  | valid i q p hc hv =>
    obtain ⟨⟨tb, hb, hbn⟩, hargs⟩ := hi.pcs i q _ hc
    obtain ⟨hts, har⟩ := validateToken_ok hv
    have hlog : (s.log ++ [AEvent.validated i s.now s.keys s.jwkp] : List AEvent) =
      ((s.note (.validated i s.now s.keys s.jwkp)).setPc i q (if cfg.disablePolicyd then .checked p else .validated p)).log := rfl
    refine hi.move i q _ [.validated i s.now s.keys s.jwkp] rfl (by simp) rfl rfl (fun _ => rfl) (by simp [hc]) ?_
    rw [← hlog]
    by_cases hd : cfg.disablePolicyd = true
    · rw [if_pos hd]
      exact ⟨tb, s.now, ⟨List.mem_append_left _ hb, hbn, ⟨_, _, by simp, hts⟩, fun h => by simp [hd] at h, fun _ => har⟩, Int.le_refl _⟩
    · rw [if_neg hd]
      exact ⟨⟨⟨tb, s.now, _, _, List.mem_append_left _ hb, hbn, Int.le_refl _, by simp, hts⟩, hargs⟩, by simpa using hd⟩
  | invalid i q r hc hv hr =>
    exact hi.move i q _ [.validated i s.now s.keys s.jwkp] rfl (by simp) rfl rfl (fun _ => rfl) (by simp [hc]) (PcOk.notOk hr)
  | trans i seed q p act res hc ht =>
    obtain ⟨h1, h2⟩ := hi.pcs i q _ hc
    refine hi.move i q _ [.translated i seed] rfl (by simp) rfl rfl (fun _ => rfl) (by simp [hc]) ⟨?_, h2, seed, ?_, translate_ok ht⟩
    · exact h1.mono (fun e he => List.mem_append_left _ he) (Int.le_refl _)
    · simp [AState.note, AState.setPc]
  | transFail i seed q p r hc hf hr =>
    exact hi.move i q _ [.translated i seed] rfl (by simp) rfl rfl (fun _ => rfl) (by simp [hc]) (PcOk.notOk hr)
  | check i view sched q p act res rs hc hck =>
    obtain ⟨⟨⟨tb, tv, ks, jw, h1, h2, h3, h4, h5⟩, h6⟩, h7, seed, h8, h9⟩ := hi.pcs i q _ hc
    refine hi.move i q _ [.checked i view sched] rfl (by simp) rfl rfl (fun _ => rfl) (by simp [hc]) ⟨tb, tv, ⟨?_, h2, ⟨ks, jw, ?_, ?_⟩, ?_, ?_⟩, h3⟩
    · exact List.mem_append_left _ h1
    · exact List.mem_append_left _ h4
    · exact tokenSays_roles h5 rs
    · intro hd
      refine ⟨(h6 hd).1, (h6 hd).2, seed, view, sched, List.mem_append_left _ h8, ?_, act, res, h9, checkResult_iff.mp hck⟩
      simp [AState.note, AState.setPc]
    · intro hd; simp [h7] at hd
  | checkFail i view sched q p act res r hc hf hr =>
    exact hi.move i q _ [.checked i view sched] rfl (by simp) rfl rfl (fun _ => rfl) (by simp [hc]) (PcOk.notOk hr)
  | store i q p hc =>
    obtain ⟨tb, tv, hf, htv⟩ := hi.pcs i q _ hc
    have hsub : ∀ e ∈ s.log, e ∈ s.log ++ [AEvent.stored i s.now (cacheKey cfg q) p] := fun e he => List.mem_append_left _ he
    refine ⟨hi.time, ?_, ?_, ?_⟩
    · intro k e hk
      simp only [AState.note, AState.setPc, Gache.set] at hk ⊢
      split at hk
      · rename_i hkk
        simp only [Option.some.injEq] at hk
        subst hk
        exact ⟨i, s.now, by simp [hkk], rfl⟩
      · obtain ⟨j, t, h1, h2⟩ := hi.cache k e hk
        exact ⟨j, t, hsub _ h1, h2⟩
    · intro j t k p' hm
      simp only [AState.note, AState.setPc] at hm ⊢
      rcases List.mem_append.mp hm with hm | hm
      · obtain ⟨h0, h1, q', h2, h3, tb', tv', h4, h5⟩ := hi.stored j t k p' hm
        refine ⟨h0, h1, q', ?_, h3, tb', tv', h4.mono hsub, h5⟩
        split
        · rename_i hj
          subst hj; rw [hc] at h2; simp at h2
        · exact h2
      · simp only [List.mem_singleton, AEvent.stored.injEq] at hm
        obtain ⟨rfl, rfl, rfl, rfl⟩ := hm
        exact ⟨hi.time, Int.le_refl _, q, by simp, rfl, tb, tv, hf.mono hsub, htv⟩
    · intro j q' pc' hj
      simp only [AState.note, AState.setPc] at hj ⊢
      split at hj
      · rename_i hji
        simp only [Option.some.injEq, Call.mk.injEq] at hj
        obtain ⟨rfl, rfl⟩ := hj
        subst hji
        exact .inl ⟨s.now, by simp⟩
      · exact (hi.pcs j q' pc' hj).mono hsub (Int.le_refl _)
  | opened k r act res hs =>
    have hsub : ∀ e ∈ s.log, e ∈ s.log ++ [AEvent.opened k r act res] := fun e he => List.mem_append_left _ he
    refine ⟨hi.time, ?_, ?_, fun j q' pc' hj => (hi.pcs j q' pc' hj).mono hsub (Int.le_refl _)⟩
    · intro k e hk
      obtain ⟨j, t, h1, h2⟩ := hi.cache k e hk
      exact ⟨j, t, hsub _ h1, h2⟩
    · intro j t k' p hm
      simp only [AState.note, AState.setSess] at hm ⊢
      rcases List.mem_append.mp hm with hm | hm
      · obtain ⟨h0, h1, q', h2, h3, tb, tv, h4, h5⟩ := hi.stored j t k' p hm
        exact ⟨h0, h1, q', h2, h3, tb, tv, h4.mono hsub, h5⟩
      · simp at hm
  | sub k i q rest tried hs hc =>
    exact hi.move i q .start [.begun i s.now] rfl (by simp) rfl rfl (fun _ => rfl) (by simp [hc])
      ⟨s.now, by simp [AState.note], Int.le_refl _⟩
  | finFails k e rest tried hs => exact ⟨hi.time, hi.cache, hi.stored, hi.pcs⟩
  | fin k c rest i tried q r hs hc => exact ⟨hi.time, hi.cache, hi.stored, hi.pcs⟩
  | tick d =>
    refine ⟨by have := hi.time; show 0 ≤ s.now + d; omega, hi.cache, ?_, fun j q' pc' hj => (hi.pcs j q' pc' hj).mono (fun _ he => he) (by show s.now ≤ s.now + d; omega)⟩
    intro j t k p hm
    obtain ⟨h0, h1, h2⟩ := hi.stored j t k p hm
    exact ⟨h0, by show t ≤ s.now + d; omega, h2⟩
  | setKeys ks => exact ⟨hi.time, hi.cache, hi.stored, hi.pcs⟩
  | setJwkp ks => exact ⟨hi.time, hi.cache, hi.stored, hi.pcs⟩
  | sweep sel =>
    refine ⟨hi.time, ?_, hi.stored, hi.pcs⟩
    intro k e hk
    apply hi.cache
    simp only [Gache.sweep] at hk
    split at hk
    · simp at hk
    · rename_i e' he'
      split at hk
      · simp at hk
      · rw [he']; exact hk
  | clear =>
    refine ⟨hi.time, ?_, hi.stored, hi.pcs⟩
    intro k e hk
    simp [Gache.empty] at hk

theorem aInv_init {cfg : AuthCfg} {now : Int} (h : 0 ≤ now) (keys : Option KeyProvider) (jwkp : Option JwkProvider) : AInv cfg (aInit now keys jwkp) := by
  refine ⟨h, ?_, ?_, ?_⟩ <;> simp [aInit, Gache.empty]

theorem aInv_run {cfg : AuthCfg} {now : Int} (h : 0 ≤ now) {keys : Option KeyProvider} {jwkp : Option JwkProvider} {acts : List AAct} {s : AState}
    (hr : aRun cfg (aInit now keys jwkp) acts = some s) : AInv cfg s :=
  aRun_ind (fun _ _ _ hi hs => aInv_step hi hs) (aInv_init h keys jwkp) hr

end Athenz
