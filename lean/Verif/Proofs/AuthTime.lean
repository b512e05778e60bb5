import Verif.Proofs.AuthSess
import Verif.Proofs.Access
import Verif.Props.Check

/-! When calls begin, how they go on, and the expiry of tokens. -/

namespace Athenz
open Spec

/-! ### The clock -/

theorem clock_isClock {t : Int} (h0 : 0 ≤ t) (h1 : t < 2 ^ 63) : (clock t).IsClock := by
  unfold GoTime.IsClock clock unixToInternal
  simp only
  omega

theorem unixNanos_clock (t : Int) : unixNanos (clock t) = t := by
  unfold unixNanos clock
  simp only
  omega

theorem clock_ok {t : Int} (h0 : 0 ≤ t) (h1 : t < 2 ^ 63) : ClockOk (clock t) := by
  refine ⟨clock_isClock h0 h1, ?_⟩
  unfold clock unixToInternal
  simp only
  omega

theorem clock_unix {t : Int} (h0 : 0 ≤ t) (h1 : t < 2 ^ 63) : (clock t).unix = t / 1000000000 := by
  rw [unix_clock (clock_isClock h0 h1)]
  unfold clock
  simp only
  omega

/-- A token that is valid at `t` states an expiry that is not before `t`, and the principal reports it. -/
theorem tokenSays_expiry {cfg : AuthCfg} (hw : WfClaims cfg.access.lib) {t : Int} {keys : Option KeyProvider} {jwkp : Option JwkProvider} {q : AReq}
    {p : Principal} (h0 : 0 ≤ t) (h1 : t < 2 ^ 63) (h : TokenSays cfg t keys jwkp q p) :
    ExpiryOf cfg q p.expiryTime ∧ t ≤ p.expiryTime * 1000000000 := by
  unfold TokenSays at h
  unfold ExpiryOf
  cases hm : q.mode with
  | roleToken =>
    simp only [hm] at h ⊢
    obtain ⟨ks, rt, _, hp, _, _, _, _, he, _⟩ := h
    obtain ⟨hp, hexp, _⟩ := accept_iff.mp hp
    obtain ⟨u, sig, kvs, ht, hrt⟩ := parseRoleToken_ok.mp hp
    obtain ⟨hf, _, _⟩ := (applyPairs_iff ht).mp hrt
    cases hv : lastValue "e" kvs with
    | none =>
      rw [hf.noExpiry hv, after_zero (clock_ok h0 h1)] at hexp
      simp at hexp
    | some v =>
      obtain ⟨i, hi⟩ := ht.times _ (lastValue_mem hv) (.inl rfl)
      rw [hf.expiry v i hv hi] at hexp he
      have hne := (after_ofUnix (clock_isClock h0 h1) hi.1).mp hexp
      have hi' : p.expiryTime = i := by
        rw [he]
        have := hi.1
        unfold IsInt64 at this
        unfold GoTime.unix GoTime.ofUnix wrap64 unixToInternal
        simp only
        omega
      rw [hi']
      refine ⟨⟨u, sig, kvs, v, ht, hv, hi⟩, ?_⟩
      have := hne.2
      rw [unixNanos_clock] at this
      exact this
  | accessToken =>
    simp only [hm] at h ⊢
    obtain ⟨ks, c, _, hp, _, _, _, _, he, _⟩ := h
    obtain ⟨hh, hp', s, hdr, k, h1', h2, h3, h4, h5, h6⟩ := parse_iff.mp (access_iff.mp hp).1
    refine ⟨⟨hh, hp', s, c, h1', h3, he.symm⟩, ?_⟩
    obtain ⟨w1, w2, w3⟩ := hw _ _ h3
    unfold claimsValid at h6
    simp only [Bool.and_eq_true] at h6
    have h7 := (verifyExpiresAt_iff (clock_isClock h0 h1) w1).mp h6.1.1
    have h8 := h7.2.1
    rw [clock_unix h0 h1] at h8
    rw [he]
    omega

/-! ### Calls begin once -/

structure BInv (s : AState) : Prop where
  none_ : ∀ i tb, s.calls i = none → AEvent.begun i tb ∉ s.log
  uniq : ∀ i tb tb', AEvent.begun i tb ∈ s.log → AEvent.begun i tb' ∈ s.log → tb = tb'

theorem BInv.other {s s' : AState} (hi : BInv s) (hl : ∀ i tb, AEvent.begun i tb ∈ s'.log ↔ AEvent.begun i tb ∈ s.log)
    (hc : ∀ i, s'.calls i = none → s.calls i = none) : BInv s' :=
  ⟨fun i tb h hm => hi.none_ i tb (hc i h) ((hl i tb).mp hm), fun i tb tb' h h' => hi.uniq i tb tb' ((hl _ _).mp h) ((hl _ _).mp h')⟩

theorem BInv.begin {s s' : AState} (hi : BInv s) (i : Nat) (t : Int) (hn : s.calls i = none) (hl : s'.log = s.log ++ [.begun i t])
    (hc : ∀ j, s'.calls j = none → j ≠ i ∧ s.calls j = none) : BInv s' := by
  refine ⟨?_, ?_⟩
  · intro j tb hj hm
    rw [hl] at hm
    obtain ⟨h1, h2⟩ := hc j hj
    rcases List.mem_append.mp hm with hm | hm
    · exact hi.none_ j tb h2 hm
    · simp only [List.mem_singleton, AEvent.begun.injEq] at hm
      exact h1 hm.1
  · intro j tb tb' h h'
    rw [hl] at h h'
    rcases List.mem_append.mp h with h | h <;> rcases List.mem_append.mp h' with h' | h'
    · exact hi.uniq j tb tb' h h'
    · simp only [List.mem_singleton, AEvent.begun.injEq] at h'
      rw [h'.1] at h
      exact absurd h (hi.none_ i tb hn)
    · simp only [List.mem_singleton, AEvent.begun.injEq] at h
      rw [h.1] at h'
      exact absurd h' (hi.none_ i tb' hn)
    · simp only [List.mem_singleton, AEvent.begun.injEq] at h h'
      rw [h.2, h'.2]

theorem bInv_step {cfg : AuthCfg} {s s' : AState} {a : AAct} (hi : BInv s) (h : aStep cfg s a = some s') : BInv s' := by
  cases aStep_effect h with
  | call i q hc =>
    refine hi.begin i s.now hc rfl ?_
    intro j hj
    simp only [AState.note, AState.setPc] at hj
    split at hj
    · simp at hj
    · rename_i hne; exact ⟨hne, hj⟩
  | sub k i q rest tried hs hc =>
    refine hi.begin i s.now hc rfl ?_
    intro j hj
    simp only [AState.note, AState.setPc, AState.setSess] at hj
    split at hj
    · simp at hj
    · rename_i hne; exact ⟨hne, hj⟩
  | _ =>
    refine hi.other (by simp [AState.note, AState.setPc, AState.setSess]) ?_
    intro j hj
    first
      | exact hj
      | (simp only [AState.note, AState.setPc] at hj
         split at hj
         · simp at hj
         · exact hj)

theorem bInv_run {cfg : AuthCfg} {now : Int} {keys : Option KeyProvider} {jwkp : Option JwkProvider} {acts : List AAct} {s : AState}
    (hr : aRun cfg (aInit now keys jwkp) acts = some s) : BInv s :=
  aRun_ind (fun _ _ _ hi hs => bInv_step hi hs) ⟨by simp [aInit], by simp [aInit]⟩ hr

/-! ### Calls go on -/

/-- The next step of an unfinished call is always possible. -/
theorem call_progress {cfg : AuthCfg} {s : AState} {i : Nat} {q : AReq} {pc : Pc} (h : s.calls i = some ⟨q, pc⟩) (hd : ∀ r, pc ≠ .done r) (view : PolicyView) :
    ∃ a s', Belongs (fun j => j == i) (fun _ => false) a = true ∧ aStep cfg s a = some s' := by
  cases pc with
  | done r => exact absurd rfl (hd r)
  | start =>
    refine ⟨.get i, ?_⟩
    simp only [Belongs, beq_self_eq_true, true_and, aStep, h]
    split
    · exact ⟨_, rfl⟩
    · split <;> exact ⟨_, rfl⟩
  | miss =>
    refine ⟨.validate i, ?_⟩
    simp only [Belongs, beq_self_eq_true, true_and, aStep, h]
    split <;> exact ⟨_, rfl⟩
  | validated p =>
    refine ⟨.translate i 0, ?_⟩
    simp only [Belongs, beq_self_eq_true, true_and, aStep, h]
    split <;> exact ⟨_, rfl⟩
  | translated p act res =>
    obtain ⟨sched, r, _, hr⟩ := C05_returns cfg.U ⟨p.domain, p.roles, act, cfg.resourcePrefix ++ res⟩ view [] (by intro a ha; simp at ha)
      _ rfl
    have hr := checkResult_iff.mpr hr
    refine ⟨.check i view ([] ++ sched), ?_⟩
    simp only [Belongs, beq_self_eq_true, true_and, aStep, h, hr]
    cases r <;> exact ⟨_, rfl⟩
  | checked p =>
    refine ⟨.store i, ?_⟩
    simp only [Belongs, beq_self_eq_true, true_and, aStep, h]
    exact ⟨_, rfl⟩

/-! ### Empty arguments -/

/-- A request with an empty action or resource is either untouched or refused. -/
theorem empty_run {cfg : AuthCfg} (hd : cfg.disablePolicyd = false) {now : Int} {keys : Option KeyProvider} {jwkp : Option JwkProvider}
    {acts : List AAct} {s : AState} (hr : aRun cfg (aInit now keys jwkp) acts = some s) :
    ∀ i q pc, s.calls i = some ⟨q, pc⟩ → (q.act = [] ∨ q.res = []) → pc = .start ∨ pc = .done (.err .invalidParameters) := by
  refine aRun_ind (P := fun s => ∀ i q pc, s.calls i = some ⟨q, pc⟩ → (q.act = [] ∨ q.res = []) → pc = .start ∨ pc = .done (.err .invalidParameters))
    ?_ (by simp [aInit]) hr
  intro s a s' hi hs
  have upd : ∀ (i : Nat) (q : AReq) (pc : Pc) (t : AState), (∀ j, t.calls j = if j = i then some ⟨q, pc⟩ else s.calls j) →
      ((q.act = [] ∨ q.res = []) → pc = .start ∨ pc = .done (.err .invalidParameters)) →
      ∀ i q pc, t.calls i = some ⟨q, pc⟩ → (q.act = [] ∨ q.res = []) → pc = .start ∨ pc = .done (.err .invalidParameters) := by
    intro i q pc t ht hpc j q' pc' hj he
    rw [ht] at hj
    split at hj
    · simp only [Option.some.injEq, Call.mk.injEq] at hj
      obtain ⟨rfl, rfl⟩ := hj
      exact hpc he
    · exact hi j q' pc' hj he
  cases aStep_effect hs with
  | call i q hc => exact upd i q _ _ (fun _ => rfl) (fun _ => .inl rfl)
  | bad i q hc he => exact upd i q _ _ (fun _ => rfl) (fun _ => .inr rfl)
  | hit i q p hc he hg => exact upd i q _ _ (fun _ => rfl) (fun h => absurd ⟨hd, h⟩ he)
  | miss i q hc he hg => exact upd i q _ _ (fun _ => rfl) (fun h => absurd ⟨hd, h⟩ he)
  | valid i q p hc hv => exact upd i q _ _ (fun _ => rfl) (fun h => by have := hi i q _ hc h; simp at this)
  | invalid i q r hc hv hr => exact upd i q _ _ (fun _ => rfl) (fun h => by have := hi i q _ hc h; simp at this)
  | trans i seed q p act res hc ht => exact upd i q _ _ (fun _ => rfl) (fun h => by have := hi i q _ hc h; simp at this)
  | transFail i seed q p r hc hf hr => exact upd i q _ _ (fun _ => rfl) (fun h => by have := hi i q _ hc h; simp at this)
  | check i view sched q p act res rs hc hck => exact upd i q _ _ (fun _ => rfl) (fun h => by have := hi i q _ hc h; simp at this)
  | checkFail i view sched q p act res r hc hf hr => exact upd i q _ _ (fun _ => rfl) (fun h => by have := hi i q _ hc h; simp at this)
  | store i q p hc => exact upd i q _ _ (fun _ => rfl) (fun h => by have := hi i q _ hc h; simp at this)
  | opened k r act res hc => exact hi
  | sub k i q rest tried hs hc => exact upd i q _ _ (fun _ => rfl) (fun _ => .inl rfl)
  | finFails k e rest tried hs => exact hi
  | fin k c rest i tried q r hs hc => exact hi
  | tick d => exact hi
  | setKeys ks => exact hi
  | setJwkp ks => exact hi
  | sweep sel => exact hi
  | clear => exact hi

/-! ### Without policies -/

/-- Without policies nothing is translated or checked. -/
theorem noPolicy_run {cfg : AuthCfg} (hd : cfg.disablePolicyd = true) {now : Int} {keys : Option KeyProvider} {jwkp : Option JwkProvider}
    {acts : List AAct} {s : AState} (hr : aRun cfg (aInit now keys jwkp) acts = some s) :
    (∀ i seed, AEvent.translated i seed ∉ s.log) ∧ (∀ i view sched, AEvent.checked i view sched ∉ s.log) ∧
    ∀ i q pc, s.calls i = some ⟨q, pc⟩ → (∀ p, pc ≠ .validated p) ∧ ∀ p act res, pc ≠ .translated p act res := by
  refine aRun_ind (P := fun s => (∀ i seed, AEvent.translated i seed ∉ s.log) ∧ (∀ i view sched, AEvent.checked i view sched ∉ s.log) ∧
    ∀ i q pc, s.calls i = some ⟨q, pc⟩ → (∀ p, pc ≠ .validated p) ∧ ∀ p act res, pc ≠ .translated p act res) ?_ (by simp [aInit]) hr
  rintro s a s' ⟨h1, h2, h3⟩ hs
  have upd : ∀ (i : Nat) (q : AReq) (pc : Pc) (t : AState), (∀ j, t.calls j = if j = i then some ⟨q, pc⟩ else s.calls j) →
      ((∀ p, pc ≠ .validated p) ∧ ∀ p act res, pc ≠ .translated p act res) →
      ∀ i q pc, t.calls i = some ⟨q, pc⟩ → (∀ p, pc ≠ .validated p) ∧ ∀ p act res, pc ≠ .translated p act res := by
    intro i q pc t ht hpc j q' pc' hj
    rw [ht] at hj
    split at hj
    · simp only [Option.some.injEq, Call.mk.injEq] at hj
      obtain ⟨rfl, rfl⟩ := hj
      exact hpc
    · exact h3 j q' pc' hj
  cases aStep_effect hs with
  | call i q hc => exact ⟨by simpa [AState.note, AState.setPc] using h1, by simpa [AState.note, AState.setPc] using h2, upd i q _ _ (fun _ => rfl) (by simp)⟩
  | bad i q hc he => exact ⟨h1, h2, upd i q _ _ (fun _ => rfl) (by simp)⟩
  | hit i q p hc he hg => exact ⟨by simpa [AState.note, AState.setPc] using h1, by simpa [AState.note, AState.setPc] using h2, upd i q _ _ (fun _ => rfl) (by simp)⟩
  | miss i q hc he hg => exact ⟨h1, h2, upd i q _ _ (fun _ => rfl) (by simp)⟩
  | valid i q p hc hv => exact ⟨by simpa [AState.note, AState.setPc] using h1, by simpa [AState.note, AState.setPc] using h2, upd i q _ _ (fun _ => rfl) (by simp [hd])⟩
  | invalid i q r hc hv hr => exact ⟨by simpa [AState.note, AState.setPc] using h1, by simpa [AState.note, AState.setPc] using h2, upd i q _ _ (fun _ => rfl) (by simp)⟩
  | trans i seed q p act res hc ht => exact absurd rfl ((h3 i q _ hc).1 p)
  | transFail i seed q p r hc hf hr => exact absurd rfl ((h3 i q _ hc).1 p)
  | check i view sched q p act res rs hc hck => exact absurd rfl ((h3 i q _ hc).2 p act res)
  | checkFail i view sched q p act res r hc hf hr => exact absurd rfl ((h3 i q _ hc).2 p act res)
  | store i q p hc => exact ⟨by simpa [AState.note, AState.setPc] using h1, by simpa [AState.note, AState.setPc] using h2, upd i q _ _ (fun _ => rfl) (by simp)⟩
  | opened k r act res hc => exact ⟨by simpa [AState.note, AState.setSess] using h1, by simpa [AState.note, AState.setSess] using h2, h3⟩
  | sub k i q rest tried hs hc =>
    exact ⟨by simpa [AState.note, AState.setPc, AState.setSess] using h1, by simpa [AState.note, AState.setPc, AState.setSess] using h2, upd i q _ _ (fun _ => rfl) (by simp)⟩
  | finFails k e rest tried hs => exact ⟨h1, h2, h3⟩
  | fin k c rest i tried q r hs hc => exact ⟨h1, h2, h3⟩
  | tick d => exact ⟨h1, h2, h3⟩
  | setKeys ks => exact ⟨h1, h2, h3⟩
  | setJwkp ks => exact ⟨h1, h2, h3⟩
  | sweep sel => exact ⟨h1, h2, h3⟩
  | clear => exact ⟨h1, h2, h3⟩

/-! ### Where requests come from -/

/-- If all calls are made for requests with a property, and none by `Verify` or `Authorize`, every call is for such a request. -/
theorem calls_prop {cfg : AuthCfg} {now : Int} {keys : Option KeyProvider} {jwkp : Option JwkProvider} {acts : List AAct} {s : AState} {P : AReq → Prop}
    (hr : aRun cfg (aInit now keys jwkp) acts = some s) (ha : ∀ a ∈ acts, (∀ i q, a = AAct.call i q → P q) ∧ ∀ k i, a ≠ .sub k i) :
    ∀ i q pc, s.calls i = some ⟨q, pc⟩ → P q := by
  have gen : ∀ (acts : List AAct) (s s' : AState), aRun cfg s acts = some s' → (∀ a ∈ acts, (∀ i q, a = AAct.call i q → P q) ∧ ∀ k i, a ≠ .sub k i) →
      (∀ i q pc, s.calls i = some ⟨q, pc⟩ → P q) → ∀ i q pc, s'.calls i = some ⟨q, pc⟩ → P q := by
    intro acts
    induction acts with
    | nil => intro s s' h _ hi; simp only [aRun, Option.some.injEq] at h; exact h ▸ hi
    | cons a as ih =>
      intro s s' h ha hi
      simp only [aRun] at h
      split at h
      · rename_i s1 hs1
        refine ih s1 s' h (fun b hb => ha b (List.mem_cons_of_mem _ hb)) ?_
        have ha0 := ha a (List.mem_cons_self ..)
        have upd : ∀ (i : Nat) (q : AReq) (pc : Pc) (t : AState), (∀ j, t.calls j = if j = i then some ⟨q, pc⟩ else s.calls j) → P q →
            ∀ i q pc, t.calls i = some ⟨q, pc⟩ → P q := by
          intro i q pc t ht hq j q' pc' hj
          rw [ht] at hj
          split at hj
          · simp only [Option.some.injEq, Call.mk.injEq] at hj
            rw [← hj.1]; exact hq
          · exact hi j q' pc' hj
        cases aStep_effect hs1 with
        | call i q hc => exact upd i q _ _ (fun _ => rfl) (ha0.1 i q rfl)
        | bad i q hc he => exact upd i q _ _ (fun _ => rfl) (hi i q _ hc)
        | hit i q p hc he hg => exact upd i q _ _ (fun _ => rfl) (hi i q _ hc)
        | miss i q hc he hg => exact upd i q _ _ (fun _ => rfl) (hi i q _ hc)
        | valid i q p hc hv => exact upd i q _ _ (fun _ => rfl) (hi i q _ hc)
        | invalid i q r hc hv hr => exact upd i q _ _ (fun _ => rfl) (hi i q _ hc)
        | trans i seed q p act res hc ht => exact upd i q _ _ (fun _ => rfl) (hi i q _ hc)
        | transFail i seed q p r hc hf hr => exact upd i q _ _ (fun _ => rfl) (hi i q _ hc)
        | check i view sched q p act res rs hc hck => exact upd i q _ _ (fun _ => rfl) (hi i q _ hc)
        | checkFail i view sched q p act res r hc hf hr => exact upd i q _ _ (fun _ => rfl) (hi i q _ hc)
        | store i q p hc => exact upd i q _ _ (fun _ => rfl) (hi i q _ hc)
        | opened k r act res hc => exact hi
        | sub k i q rest tried hs hc => exact absurd rfl (ha0.2 k i)
        | finFails k e rest tried hs => exact hi
        | fin k c rest i tried q r hs hc => exact hi
        | tick d => exact hi
        | setKeys ks => exact hi
        | setJwkp ks => exact hi
        | sweep sel => exact hi
        | clear => exact hi
      · simp at h
  exact gen acts _ s hr ha (by simp [aInit])

theorem calls_from {cfg : AuthCfg} {now : Int} {keys : Option KeyProvider} {jwkp : Option JwkProvider} {acts : List AAct} {s : AState} {q0 : AReq}
    (hr : aRun cfg (aInit now keys jwkp) acts = some s) (ha : ∀ a ∈ acts, (∀ i q, a = AAct.call i q → q = q0) ∧ ∀ k i, a ≠ .sub k i) :
    ∀ i q pc, s.calls i = some ⟨q, pc⟩ → q = q0 := calls_prop hr ha

/-- The roles of a successful check. -/
theorem check_sub {U : CaseFns} {q : CheckReq} {view : PolicyView} {sched : List CheckAct} {rs : List Str} (h : CheckReturns U q view sched (.ok rs)) :
    rs ≠ [] ∧ ∃ l, rs.Perm l ∧ l.Sublist q.roles := by
  obtain ⟨st, hrun, hret⟩ := h
  have hinv := (CheckReq.init_inv U q (fun _ => True) view trivial).run (as := sched) (fun a _ => by cases a <;> trivial) hrun
  obtain ⟨hne, os, h1, h2, h3⟩ := hinv.ret _ hret
  refine ⟨hne, _, h3, ?_⟩
  rw [← h1]
  clear h1 h2 h3
  induction os with
  | nil => simp
  | cons o os ih =>
    rw [List.filterMap_cons, List.map_cons]
    split
    · exact ih.cons _
    · rename_i b hb
      split at hb
      · simp only [Option.some.injEq] at hb
        rw [← hb]
        exact ih.cons_cons _
      · simp at hb

/-- Nothing begins before the start. -/
theorem begun_pos {cfg : AuthCfg} {now : Int} {keys : Option KeyProvider} {jwkp : Option JwkProvider} {acts : List AAct} {s : AState} (h0 : 0 ≤ now)
    (hr : aRun cfg (aInit now keys jwkp) acts = some s) : ∀ j t, AEvent.begun j t ∈ s.log → 0 ≤ t := by
  have : 0 ≤ s.now ∧ ∀ j t, AEvent.begun j t ∈ s.log → 0 ≤ t := by
    refine aRun_ind (P := fun s => 0 ≤ s.now ∧ ∀ j t, AEvent.begun j t ∈ s.log → 0 ≤ t) ?_ ⟨h0, by simp [aInit]⟩ hr
    rintro s a s' ⟨h1, h2⟩ hs
    have app : ∀ (e : AEvent), (∀ j t, e = .begun j t → 0 ≤ t) → ∀ j t, AEvent.begun j t ∈ s.log ++ [e] → 0 ≤ t := by
      intro e he j t hm
      rcases List.mem_append.mp hm with hm | hm
      · exact h2 j t hm
      · simp only [List.mem_singleton] at hm
        exact he j t hm.symm
    cases aStep_effect hs with
    | call i q hc => exact ⟨h1, app _ (by rintro _ _ ⟨⟩; exact h1)⟩
    | sub k i q rest tried hs hc => exact ⟨h1, app _ (by rintro _ _ ⟨⟩; exact h1)⟩
    | tick d => exact ⟨by simp only; omega, h2⟩
    | _ => first | exact ⟨h1, h2⟩ | exact ⟨h1, app _ (by simp)⟩
  exact this.2

end Athenz
