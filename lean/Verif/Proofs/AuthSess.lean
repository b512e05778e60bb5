import Verif.Proofs.AuthErase

/-! `Verify` and `Authorize`. -/

namespace Athenz
open Spec

/-- The request of a call stays as it is. -/
theorem req_stable {cfg : AuthCfg} {s s' : AState} {a : AAct} (h : aStep cfg s a = some s') {i : Nat} {q : AReq} {pc : Pc}
    (hd : s.calls i = some ⟨q, pc⟩) : ∃ pc', s'.calls i = some ⟨q, pc'⟩ := by
  cases aStep_effect h with
  | call j q' hc => simp only [AState.note, AState.setPc]; split <;> simp_all
  | bad j q' hc he => simp only [AState.setPc]; split <;> simp_all
  | hit j q' p hc he hg => simp only [AState.note, AState.setPc]; split <;> simp_all
  | miss j q' hc he hg => simp only [AState.setPc]; split <;> simp_all
  | valid j q' p hc hv => simp only [AState.note, AState.setPc]; split <;> simp_all
  | invalid j q' r' hc hv hr => simp only [AState.note, AState.setPc]; split <;> simp_all
  | trans j seed q' p act res hc ht => simp only [AState.note, AState.setPc]; split <;> simp_all
  | transFail j seed q' p r' hc hf hr => simp only [AState.note, AState.setPc]; split <;> simp_all
  | check j view sched q' p act res rs hc hck => simp only [AState.note, AState.setPc]; split <;> simp_all
  | checkFail j view sched q' p act res r' hc hf hr => simp only [AState.note, AState.setPc]; split <;> simp_all
  | store j q' p hc => simp only [AState.note, AState.setPc]; split <;> simp_all
  | opened k r act res hs => exact ⟨pc, hd⟩
  | sub k j q' rest tried hs hc => simp only [AState.note, AState.setPc, AState.setSess]; split <;> simp_all
  | finFails k e rest tried hs => exact ⟨pc, hd⟩
  | fin k c rest j tried q' r' hs hc => exact ⟨pc, hd⟩
  | tick d => exact ⟨pc, hd⟩
  | setKeys ks => exact ⟨pc, hd⟩
  | setJwkp ks => exact ⟨pc, hd⟩
  | sweep sel => exact ⟨pc, hd⟩
  | clear => exact ⟨pc, hd⟩

/-- What is known about a call of `Verify` or `Authorize`. -/
structure SessOk (all : List AuthCall) (calls : Nat → Option Call) (x : Sess) : Prop where
  comb : Combined all x.tried x.result
  todo : x.result = none → all = x.tried.map (·.1) ++ x.todo
  fails : ∀ e i r, (AuthCall.fails e, i, r) ∈ x.tried → i = none ∧ r = .err e
  token : ∀ q i r, (AuthCall.token q, i, r) ∈ x.tried → ∃ j, i = some j ∧ calls j = some ⟨q, .done r⟩
  cur : ∀ i, x.cur = some i → x.result = none ∧ ∃ q rest pc, x.todo = .token q :: rest ∧ calls i = some ⟨q, pc⟩

theorem SessOk.mono {all : List AuthCall} {calls calls' : Nat → Option Call} {x : Sess} (h : SessOk all calls x)
    (hd : ∀ i q r, calls i = some ⟨q, .done r⟩ → calls' i = some ⟨q, .done r⟩)
    (hr : ∀ i q pc, calls i = some ⟨q, pc⟩ → ∃ pc', calls' i = some ⟨q, pc'⟩) : SessOk all calls' x := by
  refine ⟨h.comb, h.todo, h.fails, ?_, ?_⟩
  · intro q i r hm
    obtain ⟨j, h1, h2⟩ := h.token q i r hm
    exact ⟨j, h1, hd _ _ _ h2⟩
  · intro i hi
    obtain ⟨h1, q, rest, pc, h2, h3⟩ := h.cur i hi
    obtain ⟨pc', h4⟩ := hr _ _ _ h3
    exact ⟨h1, q, rest, pc', h2, h4⟩

structure SInv (cfg : AuthCfg) (s : AState) : Prop where
  opened : ∀ k r act res, .opened k r act res ∈ s.log → ∃ x, s.sess k = some x ∧ SessOk (authorizers cfg r act res) s.calls x
  sess : ∀ k x, s.sess k = some x → ∃ r act res, .opened k r act res ∈ s.log

/-- The steps that do not touch the `Verify` and `Authorize` calls. -/
theorem SInv.other {cfg : AuthCfg} {s s' : AState} {a : AAct} (hi : SInv cfg s) (h : aStep cfg s a = some s') (hs : s'.sess = s.sess)
    (hl : ∀ k r act res, AEvent.opened k r act res ∈ s'.log ↔ AEvent.opened k r act res ∈ s.log) : SInv cfg s' := by
  refine ⟨?_, ?_⟩
  · intro k r act res hm
    obtain ⟨x, h1, h2⟩ := hi.opened k r act res ((hl _ _ _ _).mp hm)
    exact ⟨x, by rw [hs]; exact h1, h2.mono (fun _ _ _ hd => done_stable h hd) (fun _ _ _ hd => req_stable h hd)⟩
  · intro k x hx
    rw [hs] at hx
    obtain ⟨r, act, res, hm⟩ := hi.sess k x hx
    exact ⟨r, act, res, (hl _ _ _ _).mpr hm⟩

/-- The steps of one `Verify` or `Authorize` call. -/
theorem SInv.upd {cfg : AuthCfg} {s s' : AState} {a : AAct} (hi : SInv cfg s) (h : aStep cfg s a = some s') (k : Nat) (x x' : Sess)
    (hx : s.sess k = some x) (hs : ∀ j, s'.sess j = if j = k then some x' else s.sess j)
    (hl : ∀ k r act res, AEvent.opened k r act res ∈ s'.log ↔ AEvent.opened k r act res ∈ s.log)
    (hok : ∀ r act res, SessOk (authorizers cfg r act res) s'.calls x → SessOk (authorizers cfg r act res) s'.calls x') : SInv cfg s' := by
  refine ⟨?_, ?_⟩
  · intro j r act res hm
    obtain ⟨y, h1, h2⟩ := hi.opened j r act res ((hl _ _ _ _).mp hm)
    have h3 := h2.mono (fun _ _ _ hd => done_stable h hd) (fun _ _ _ hd => req_stable h hd)
    rw [hs]
    split
    · rename_i hj
      subst hj
      rw [hx] at h1
      simp only [Option.some.injEq] at h1
      subst h1
      exact ⟨x', rfl, hok _ _ _ h3⟩
    · exact ⟨y, h1, h3⟩
  · intro j y hy
    rw [hs] at hy
    have : ∃ z, s.sess j = some z := by
      split at hy
      · rename_i hj
        subst hj; exact ⟨x, hx⟩
      · exact ⟨y, hy⟩
    obtain ⟨z, hz⟩ := this
    obtain ⟨r, act, res, hm⟩ := hi.sess j z hz
    exact ⟨r, act, res, (hl _ _ _ _).mpr hm⟩

theorem Combined.errs {all : List AuthCall} {tried : List (AuthCall × Option Nat × Res Principal)} (h : Combined all tried none) :
    ∀ x ∈ tried, Failed x.2.2 := h.1

theorem sessOk_next {all : List AuthCall} {calls : Nat → Option Call} {c : AuthCall} {rest : List AuthCall} {cur : Option Nat}
    {tried : List (AuthCall × Option Nat × Res Principal)} {r : Res Principal} (h : SessOk all calls ⟨c :: rest, cur, none, tried⟩)
    (hf : ∀ e, c = .fails e → cur = none ∧ r = .err e) (ht : ∀ q, c = .token q → ∃ j, cur = some j ∧ calls j = some ⟨q, .done r⟩) :
    SessOk all calls (Sess.next ⟨c :: rest, cur, none, tried⟩ c rest cur r) := by
  obtain ⟨h1, h2, h3, h4, h5⟩ := h
  have hall : all = tried.map (·.1) ++ c :: rest := h2 rfl
  have herr : ∀ x ∈ tried, Failed x.2.2 := h1.1
  refine ⟨?_, ?_, ?_, ?_, ?_⟩
  · cases r with
    | ok p => exact ⟨tried, c, cur, rest, rfl, herr, hall⟩
    | panic => exact ⟨tried, c, cur, rest, rfl, herr, hall⟩
    | err e =>
      have herr' : ∀ x ∈ tried ++ [(c, cur, Res.err e)], Failed x.2.2 := by
        intro x hx
        rcases List.mem_append.mp hx with hx | hx
        · exact herr x hx
        · simp only [List.mem_singleton] at hx
          subst hx; exact ⟨e, rfl⟩
      simp only [Sess.next]
      split
      · rename_i hr
        refine ⟨rfl, herr', ?_⟩
        rw [hall, hr]; simp
      · rename_i hr
        obtain ⟨c', rest', rfl⟩ : ∃ c' rest', rest = c' :: rest' := by
          cases rest with
          | nil => exact absurd rfl hr
          | cons c' r' => exact ⟨c', r', rfl⟩
        exact ⟨herr', c', rest', by rw [hall]; simp⟩
  · intro hn
    cases r with
    | ok p => simp [Sess.next] at hn
    | panic => simp [Sess.next] at hn
    | err e => simp only [Sess.next, List.map_append]; rw [hall]; simp
  · intro e i r' hm
    simp only [Sess.next] at hm
    rcases List.mem_append.mp hm with hm | hm
    · exact h3 e i r' hm
    · simp only [List.mem_singleton, Prod.mk.injEq] at hm
      obtain ⟨rfl, rfl, rfl⟩ := hm
      exact hf e rfl
  · intro q i r' hm
    simp only [Sess.next] at hm
    rcases List.mem_append.mp hm with hm | hm
    · exact h4 q i r' hm
    · simp only [List.mem_singleton, Prod.mk.injEq] at hm
      obtain ⟨rfl, rfl, rfl⟩ := hm
      exact ht q rfl
  · intro i hi; simp [Sess.next] at hi

theorem sInv_step {cfg : AuthCfg} {s s' : AState} {a : AAct} (hi : SInv cfg s) (h : aStep cfg s a = some s') : SInv cfg s' := by
  cases aStep_effect h with
  | call i q hc => exact hi.other h rfl (by simp [AState.note, AState.setPc])
  | bad i q hc he => exact hi.other h rfl (by simp [AState.setPc])
  | hit i q p hc he hg => exact hi.other h rfl (by simp [AState.note, AState.setPc])
  | miss i q hc he hg => exact hi.other h rfl (by simp [AState.setPc])
  | valid i q p hc hv => exact hi.other h rfl (by simp [AState.note, AState.setPc])
  | invalid i q r hc hv hr => exact hi.other h rfl (by simp [AState.note, AState.setPc])
  | trans i seed q p act res hc ht => exact hi.other h rfl (by simp [AState.note, AState.setPc])
  | transFail i seed q p r hc hf hr => exact hi.other h rfl (by simp [AState.note, AState.setPc])
  | check i view sched q p act res rs hc hck => exact hi.other h rfl (by simp [AState.note, AState.setPc])
  | checkFail i view sched q p act res r hc hf hr => exact hi.other h rfl (by simp [AState.note, AState.setPc])
  | store i q p hc => exact hi.other h rfl (by simp [AState.note, AState.setPc])
  | opened k r act res hs =>
    have hnone : ∀ r act res, AEvent.opened k r act res ∉ s.log := by
      intro r act res hm
      obtain ⟨x, hx, _⟩ := hi.opened k r act res hm
      rw [hs] at hx; simp at hx
    refine ⟨?_, ?_⟩
    · intro j r' act' res' hm
      simp only [AState.note, AState.setSess] at hm ⊢
      rcases List.mem_append.mp hm with hm' | hm
      · obtain ⟨x, h1, h2⟩ := hi.opened j r' act' res' hm'
        refine ⟨x, ?_, h2⟩
        rw [if_neg]
        · exact h1
        · rintro rfl; exact hnone _ _ _ hm'
      · simp only [List.mem_singleton, AEvent.opened.injEq] at hm
        obtain ⟨rfl, rfl, rfl, rfl⟩ := hm
        refine ⟨_, by rw [if_pos rfl], ?_, ?_, by simp, by simp, by simp⟩
        · simp only
          split
          · rename_i he; exact ⟨rfl, by simp, by simp [he]⟩
          · rename_i he
            cases hall : authorizers cfg r' act' res' with
            | nil => exact absurd hall he
            | cons c rest => exact ⟨by simp, c, rest, by simp⟩
        · intro _; simp
    · intro j y hy
      simp only [AState.note, AState.setSess] at hy ⊢
      split at hy
      · rename_i hj
        subst hj; exact ⟨r, act, res, by simp⟩
      · obtain ⟨r', act', res', hm⟩ := hi.sess j y hy
        exact ⟨r', act', res', List.mem_append_left _ hm⟩
  | sub k i q rest tried hs hc =>
    refine hi.upd h k _ _ hs (fun _ => rfl) (by simp [AState.note, AState.setPc, AState.setSess]) ?_
    intro r act res hok
    refine ⟨hok.comb, hok.todo, hok.fails, hok.token, ?_⟩
    intro j hj
    simp only [Option.some.injEq] at hj
    subst hj
    exact ⟨rfl, q, rest, .start, rfl, by simp [AState.note, AState.setPc, AState.setSess]⟩
  | finFails k e rest tried hs =>
    refine hi.upd h k _ _ hs (fun _ => rfl) (by simp [AState.setSess]) ?_
    intro r act res hok
    exact sessOk_next hok (by rintro e' he; simp only [AuthCall.fails.injEq] at he; rw [he]; exact ⟨rfl, rfl⟩) (by simp)
  | fin k c rest i tried q r hs hc =>
    refine hi.upd h k _ _ hs (fun _ => rfl) (by simp [AState.setSess]) ?_
    intro r' act res hok
    obtain ⟨_, q', rest', pc, h1, h2⟩ := hok.cur i rfl
    simp only [List.cons.injEq] at h1
    have hq : q' = q := by
      have h2' : s.calls i = some ⟨q', pc⟩ := h2
      rw [hc] at h2'
      simp only [Option.some.injEq, Call.mk.injEq] at h2'
      exact h2'.1.symm
    refine sessOk_next hok (by intro e he; rw [he] at h1; simp at h1) ?_
    intro q'' hq''
    rw [h1.1] at hq''
    simp only [AuthCall.token.injEq] at hq''
    exact ⟨i, rfl, by rw [← hq'', hq]; exact hc⟩
  | tick d => exact hi.other h rfl (by simp)
  | setKeys ks => exact hi.other h rfl (by simp)
  | setJwkp ks => exact hi.other h rfl (by simp)
  | sweep sel => exact hi.other h rfl (by simp)
  | clear => exact hi.other h rfl (by simp)

theorem sInv_run {cfg : AuthCfg} {now : Int} {keys : Option KeyProvider} {jwkp : Option JwkProvider} {acts : List AAct} {s : AState}
    (hr : aRun cfg (aInit now keys jwkp) acts = some s) : SInv cfg s :=
  aRun_ind (fun _ _ _ hi hs => sInv_step hi hs) ⟨by simp [aInit], by simp [aInit]⟩ hr

/-! ### The list of authorizers -/

theorem stripBearer_spec (h : Str) : BearerText h (stripBearer h) ∨ (stripBearer h = h ∧ ∀ t, ¬ BearerText h t) := by
  unfold stripBearer
  split
  · rename_i hb
    exact .inl ⟨h.take 7, (List.take_append_drop 7 h).symm, hb⟩
  · rename_i hb
    refine .inr ⟨rfl, ?_⟩
    rintro t ⟨b, rfl, hb'⟩
    apply hb
    have hl : b.length = 7 := by
      have := congrArg List.length hb'
      simpa using this
    rw [List.take_append_of_le_length (by omega), List.take_of_length_le (by omega)]
    exact hb'

end Athenz
