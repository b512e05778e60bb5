import Verif.Spec.Loop

/-! # Lemmas for the background updaters -/

namespace Athenz
open Spec

/-- The effects of the steps. -/
inductive LEffect (k : LKind) (ce : Str) (s : LState) : LAct → LState → Prop
  | tick : LEffect k ce s .tick { s with tick := true }
  | cancel : LEffect k ce s .cancel { s with cancelled := true }
  | recv (e es) : s.ech = e :: es → LEffect k ce s .recv { s with ech := es, read := s.read ++ [e] }
  | selDone : s.pc = .select → s.cancelled = true → LEffect k ce s .selDone { s with pc := .stopping }
  | selRetry : s.pc = .select → 0 < s.fch → LEffect k ce s .selRetry { s with pc := .updating true, fch := s.fch - 1 }
  | selTick : s.pc = .select → s.tick = true → LEffect k ce s .selTick { s with pc := .updating false, tick := false }
  | updOk (r) : s.pc = .updating r → LEffect k ce s .updOk { s with pc := .select }
  | failJwk (r e) : s.pc = .updating r → k = .jwkd → LEffect k ce s (.updFail e) { s with pc := .sleeping r e }
  | fail (r e) : s.pc = .updating r → k ≠ .jwkd → LEffect k ce s (.updFail e) { s with pc := .report r e }
  | sendJwk (r e) : s.pc = .report r e → k = .jwkd → s.ech.length < echCap →
      LEffect k ce s .send { s with pc := .offer, ech := s.ech ++ [wrapMsg (wrapMsg k.msg e) s.ebuf], ebuf := [] }
  | holdJwk (r e) : s.pc = .report r e → k = .jwkd → ¬ s.ech.length < echCap →
      LEffect k ce s .send { s with pc := .offer, ebuf := wrapMsg (wrapMsg k.msg e) s.ebuf }
  | sendRetry (e) : s.pc = .report true e → k ≠ .jwkd → s.ech.length < echCap →
      LEffect k ce s .send { s with pc := .sleeping true e, ech := s.ech ++ [wrapMsg k.msg e] }
  | sendTick (e) : s.pc = .report false e → k ≠ .jwkd → s.ech.length < echCap →
      LEffect k ce s .send { s with pc := .offer, ech := s.ech ++ [wrapMsg k.msg e] }
  | wakeJwk (r e) : s.pc = .sleeping r e → k = .jwkd → LEffect k ce s .wake { s with pc := .report r e }
  | wake (r e) : s.pc = .sleeping r e → k ≠ .jwkd → LEffect k ce s .wake { s with pc := .offer }
  | offer : s.pc = .offer → LEffect k ce s .offer { s with pc := .select, fch := if s.fch < 1 then s.fch + 1 else s.fch }
  | stopJwk : s.pc = .stopping → k = .jwkd → s.ech.length < echCap →
      LEffect k ce s .stop { s with pc := .exited, ech := s.ech ++ [lastItem ce s.ebuf] }
  | stop : s.pc = .stopping → k ≠ .jwkd → s.ech.length < echCap → LEffect k ce s .stop { s with pc := .exited, ech := s.ech ++ [ce] }

theorem lStep_effect {k : LKind} {ce : Str} {s s' : LState} {a : LAct} (h : lStep k ce s a = some s') : LEffect k ce s a s' := by
  cases a with
  | tick => simp only [lStep, Option.some.injEq] at h; subst h; exact .tick
  | cancel => simp only [lStep, Option.some.injEq] at h; subst h; exact .cancel
  | recv =>
    simp only [lStep] at h
    split at h
    · cases h
    · rename_i e es he
      simp only [Option.some.injEq] at h; subst h; exact .recv e es he
  | selDone =>
    simp only [lStep] at h
    split at h
    · rename_i hc; simp only [Option.some.injEq] at h; subst h; exact .selDone hc.1 hc.2
    · cases h
  | selRetry =>
    simp only [lStep] at h
    split at h
    · rename_i hc; simp only [Option.some.injEq] at h; subst h; exact .selRetry hc.1 hc.2
    · cases h
  | selTick =>
    simp only [lStep] at h
    split at h
    · rename_i hc; simp only [Option.some.injEq] at h; subst h; exact .selTick hc.1 hc.2
    · cases h
  | updOk =>
    simp only [lStep] at h
    split at h
    · rename_i r hp; simp only [Option.some.injEq] at h; subst h; exact .updOk r hp
    · cases h
  | updFail e =>
    simp only [lStep] at h
    split at h
    · rename_i r hp
      simp only [Option.some.injEq] at h
      subst h
      by_cases hk : k = .jwkd
      · rw [if_pos hk]; exact .failJwk r e hp hk
      · rw [if_neg hk]; exact .fail r e hp hk
    · cases h
  | send =>
    simp only [lStep] at h
    split at h
    · rename_i r e hp
      split at h
      · rename_i hk
        split at h
        · rename_i hl; simp only [Option.some.injEq] at h; subst h; exact .sendJwk r e hp hk hl
        · rename_i hl; simp only [Option.some.injEq] at h; subst h; exact .holdJwk r e hp hk hl
      · rename_i hk
        split at h
        · rename_i hl
          simp only [Option.some.injEq] at h
          subst h
          cases r with
          | true => exact .sendRetry e hp hk hl
          | false => exact .sendTick e hp hk hl
        · cases h
    · cases h
  | wake =>
    simp only [lStep] at h
    split at h
    · rename_i r e hp
      simp only [Option.some.injEq] at h
      subst h
      by_cases hk : k = .jwkd
      · rw [if_pos hk]; exact .wakeJwk r e hp hk
      · rw [if_neg hk]; exact .wake r e hp hk
    · cases h
  | offer =>
    simp only [lStep] at h
    split at h
    · rename_i hp; simp only [Option.some.injEq] at h; subst h; exact .offer hp
    · cases h
  | stop =>
    simp only [lStep] at h
    split at h
    · rename_i hp
      simp only [Option.some.injEq] at h
      subst h
      by_cases hk : k = .jwkd
      · rw [if_pos hk]; exact .stopJwk hp.1 hk hp.2
      · rw [if_neg hk]; exact .stop hp.1 hk hp.2
    · cases h

theorem lRun_append {k : LKind} {ce : Str} {s : LState} {as bs : List LAct} :
    lRun k ce s (as ++ bs) = (lRun k ce s as).bind fun s' => lRun k ce s' bs := by
  induction as generalizing s with
  | nil => rfl
  | cons a as ih =>
    simp only [List.cons_append, lRun]
    cases lStep k ce s a with
    | none => rfl
    | some s' => exact ih

theorem lRun_snoc {k : LKind} {ce : Str} {s s' : LState} {as : List LAct} {a : LAct} (h : lRun k ce s (as ++ [a]) = some s') :
    ∃ s1, lRun k ce s as = some s1 ∧ lStep k ce s1 a = some s' := by
  rw [lRun_append] at h
  cases h1 : lRun k ce s as with
  | none => rw [h1] at h; cases h
  | some s1 =>
    rw [h1] at h
    refine ⟨s1, rfl, ?_⟩
    simp only [Option.bind_some, lRun] at h
    split at h
    · rename_i s2 h2; rw [h2, ← h]
    · cases h

/-- Induction over runs, with the steps so far. -/
theorem lRun_hist {k : LKind} {ce : Str} {P : List LAct → LState → Prop} (h0 : P [] lInit)
    (hs : ∀ as s a s', lRun k ce lInit as = some s → P as s → LEffect k ce s a s' → P (as ++ [a]) s') :
    ∀ as s, lRun k ce lInit as = some s → P as s := by
  have key : ∀ bs as s s', lRun k ce lInit as = some s → P as s → lRun k ce s bs = some s' → P (as ++ bs) s' := by
    intro bs
    induction bs with
    | nil => intro as s s' _ hp h; cases h; simpa using hp
    | cons b bs ih =>
      intro as s s' hr hp h
      simp only [lRun] at h
      split at h
      · rename_i s1 h1
        rw [show as ++ b :: bs = (as ++ [b]) ++ bs by simp]
        refine ih _ s1 s' ?_ (hs as s b s1 hr hp (lStep_effect h1)) h
        rw [lRun_append, hr]
        simp [lRun, h1]
      · cases h
  intro as s h
  exact key as [] lInit s rfl h0 h

theorem failures_append (as bs : List LAct) : failures (as ++ bs) = failures as ++ failures bs := by
  induction as with
  | nil => rfl
  | cons a as ih => cases a <;> simp [failures, ih]

theorem lastFailed_snoc {as : List LAct} {a : LAct} (h : LastFailed (as ++ [a])) :
    (∃ e, a = .updFail e) ∨ (a ≠ .updOk ∧ LastFailed as) := by
  obtain ⟨pre, e, post, h1, h2⟩ := h
  rcases List.eq_nil_or_concat post with rfl | ⟨post', b, rfl⟩
  · have := List.append_inj_right' h1 (by simp)
    simp only [List.cons.injEq, and_true] at this
    exact .inl ⟨e, this⟩
  · rw [List.concat_eq_append] at h1 h2
    rw [show pre ++ LAct.updFail e :: (post' ++ [b]) = (pre ++ LAct.updFail e :: post') ++ [b] by simp] at h1
    have hb := List.append_inj_right' h1 (by simp)
    have ha := List.append_inj_left' h1 (by simp)
    simp only [List.cons.injEq, and_true] at hb
    subst hb
    simp only [List.mem_append, List.mem_singleton, not_or] at h2
    exact .inr ⟨fun hc => h2.2 hc.symm, pre, e, post', ha, h2.1⟩

/-- The failure queue never holds more than one entry. -/
theorem fch_le {k : LKind} {ce : Str} : ∀ as s, lRun k ce lInit as = some s → s.fch ≤ 1 := by
  refine lRun_hist (P := fun _ s => s.fch ≤ 1) (by decide) ?_
  intro as s a s' _ hi he
  cases he <;> simp_all <;> (try split) <;> omega

/-- At the select after a failure there is an entry in the failure queue. -/
theorem fch_failed {k : LKind} {ce : Str} : ∀ as s, lRun k ce lInit as = some s → LastFailed as → s.pc = .select → s.fch = 1 := by
  refine lRun_hist (P := fun as s => LastFailed as → s.pc = .select → s.fch = 1) ?_ ?_
  · rintro ⟨pre, e, post, h, _⟩
    cases pre <;> cases h
  · intro as s a s' hr hi he hf hp
    have hle := fch_le as s hr
    rcases lastFailed_snoc hf with ⟨e, rfl⟩ | ⟨ha, hf'⟩
    · cases he <;> cases hp
    · cases he <;> first | exact hi hf' hp | (exact absurd rfl ha) | cases hp | skip
      show (if s.fch < 1 then s.fch + 1 else s.fch) = 1
      split <;> omega

/-- The failure the goroutine is dealing with, which is not yet in the channel. -/
def LPc.owed (k : LKind) : LPc → List Str
  | .report _ e => [e]
  | .sleeping _ e => if k = .jwkd then [e] else []
  | _ => []

/-- The items of policyd and pubkeyd. -/
theorem items_plain {k : LKind} {ce : Str} (hk : k ≠ .jwkd) : ∀ as s, lRun k ce lInit as = some s →
    s.read ++ s.ech ++ (s.pc.owed k).map (wrapMsg k.msg) = (failures as).map (wrapMsg k.msg) ++ (if s.pc = .exited then [ce] else []) := by
  refine lRun_hist (P := fun as s => s.read ++ s.ech ++ (s.pc.owed k).map (wrapMsg k.msg) =
    (failures as).map (wrapMsg k.msg) ++ (if s.pc = .exited then [ce] else [])) (by simp [lInit, failures, LPc.owed]) ?_
  intro as s a s' _ hi he
  cases he with
  | tick => simpa [failures_append, failures] using hi
  | cancel => simpa [failures_append, failures] using hi
  | recv e es h => rw [h] at hi; simpa [failures_append, failures] using hi
  | selDone h1 h2 => simpa [failures_append, failures, h1, LPc.owed] using hi
  | selRetry h1 h2 => simpa [failures_append, failures, h1, LPc.owed] using hi
  | selTick h1 h2 => simpa [failures_append, failures, h1, LPc.owed] using hi
  | updOk r h1 => simpa [failures_append, failures, h1, LPc.owed] using hi
  | failJwk r e h1 h2 => exact absurd h2 hk
  | fail r e h1 h2 =>
    simp only [h1, LPc.owed, List.map_nil, List.append_nil, reduceCtorEq, if_false] at hi
    simp only [failures_append, failures, LPc.owed, ← hi, List.map_append, reduceCtorEq, if_false]
    simp
  | sendJwk r e h1 h2 h3 => exact absurd h2 hk
  | holdJwk r e h1 h2 h3 => exact absurd h2 hk
  | sendRetry e h1 h2 h3 => simpa [failures_append, failures, h1, LPc.owed, hk] using hi
  | sendTick e h1 h2 h3 => simpa [failures_append, failures, h1, LPc.owed, hk] using hi
  | wakeJwk r e h1 h2 => exact absurd h2 hk
  | wake r e h1 h2 => simpa [failures_append, failures, h1, LPc.owed, hk] using hi
  | offer h1 => simpa [failures_append, failures, h1, LPc.owed, hk] using hi
  | stopJwk h1 h2 h3 => exact absurd h2 hk
  | stop h1 h2 h3 =>
    simp only [h1, LPc.owed, List.map_nil, List.append_nil, reduceCtorEq, if_false] at hi
    simp [failures_append, failures, LPc.owed, ← hi]

theorem batchText_snoc (m : Str) (es : List Str) (e : Str) : batchText m (es ++ [e]) = wrapMsg (wrapMsg m e) (batchText m es) := by
  simp [batchText, wrapMsg]

theorem batchText_nil_iff (m : Str) (es : List Str) : batchText m es = [] ↔ es = [] := by
  rcases List.eq_nil_or_concat es with rfl | ⟨es', e, rfl⟩
  · simp [batchText]
  · rw [List.concat_eq_append, batchText_snoc]
    simp [wrapMsg]

/-- The items of jwkd: groups of failures, then what is held back. -/
def JwkItems (ce : Str) (as : List LAct) (s : LState) (groups : List (List Str)) (held : List Str) : Prop :=
  (∀ g ∈ groups, g ≠ []) ∧ s.ebuf = batchText (LKind.msg .jwkd) held ∧ groups.flatten ++ held ++ s.pc.owed .jwkd = failures as ∧
  s.read ++ s.ech = groups.map (batchText (LKind.msg .jwkd)) ++ (if s.pc = .exited then [lastItem ce s.ebuf] else [])

theorem items_jwkd {ce : Str} : ∀ as s, lRun .jwkd ce lInit as = some s → ∃ groups held, JwkItems ce as s groups held := by
  refine lRun_hist (P := fun as s => ∃ groups held, JwkItems ce as s groups held)
    ⟨[], [], by simp, by simp [lInit, batchText], by simp [lInit, failures, LPc.owed], by simp [lInit]⟩ ?_
  rintro as s a s' _ ⟨groups, held, h1, h2, h3, h4⟩ he
  cases he with
  | tick => exact ⟨groups, held, h1, h2, by simpa [failures_append, failures] using h3, h4⟩
  | cancel => exact ⟨groups, held, h1, h2, by simpa [failures_append, failures] using h3, h4⟩
  | recv e es h => exact ⟨groups, held, h1, h2, by simpa [failures_append, failures] using h3, by rw [h] at h4; simpa using h4⟩
  | selDone hp _ => exact ⟨groups, held, h1, h2, by simpa [failures_append, failures, hp, LPc.owed] using h3, by simpa [hp] using h4⟩
  | selRetry hp _ => exact ⟨groups, held, h1, h2, by simpa [failures_append, failures, hp, LPc.owed] using h3, by simpa [hp] using h4⟩
  | selTick hp _ => exact ⟨groups, held, h1, h2, by simpa [failures_append, failures, hp, LPc.owed] using h3, by simpa [hp] using h4⟩
  | updOk r hp => exact ⟨groups, held, h1, h2, by simpa [failures_append, failures, hp, LPc.owed] using h3, by simpa [hp] using h4⟩
  | failJwk r e hp _ =>
    refine ⟨groups, held, h1, h2, ?_, by simpa [hp] using h4⟩
    simp only [hp, LPc.owed, List.append_nil] at h3
    simp [failures_append, failures, LPc.owed, ← h3]
  | fail r e hp hk => exact absurd rfl hk
  | sendJwk r e hp _ hl =>
    refine ⟨groups ++ [held ++ [e]], [], ?_, by simp [batchText], ?_, ?_⟩
    · intro g hg
      rcases List.mem_append.mp hg with hg | hg
      · exact h1 g hg
      · simp only [List.mem_singleton] at hg; subst hg; simp
    · simpa [failures_append, failures, hp, LPc.owed] using h3
    · simp only [hp, reduceCtorEq, if_false, List.append_nil] at h4
      simp only [← List.append_assoc, h4, List.map_append, List.map_cons, List.map_nil, batchText_snoc, h2]
      simp
  | holdJwk r e hp _ hl =>
    refine ⟨groups, held ++ [e], h1, ?_, ?_, by simpa [hp] using h4⟩
    · rw [batchText_snoc, ← h2]
    · simpa [failures_append, failures, hp, LPc.owed] using h3
  | sendRetry e hp hk => exact absurd rfl hk
  | sendTick e hp hk => exact absurd rfl hk
  | wakeJwk r e hp _ => exact ⟨groups, held, h1, h2, by simpa [failures_append, failures, hp, LPc.owed] using h3, by simpa [hp] using h4⟩
  | wake r e hp hk => exact absurd rfl hk
  | offer hp => exact ⟨groups, held, h1, h2, by simpa [failures_append, failures, hp, LPc.owed] using h3, by simpa [hp] using h4⟩
  | stopJwk hp _ hl =>
    refine ⟨groups, held, h1, h2, by simpa [failures_append, failures, hp, LPc.owed] using h3, ?_⟩
    simp only [hp, reduceCtorEq, if_false, List.append_nil] at h4
    simp [← List.append_assoc, h4]
  | stop hp hk => exact absurd rfl hk

theorem ech_le {k : LKind} {ce : Str} : ∀ as s, lRun k ce lInit as = some s → s.ech.length ≤ echCap := by
  refine lRun_hist (P := fun _ s => s.ech.length ≤ echCap) (by decide) ?_
  intro as s a s' _ hi he
  cases he <;> simp_all <;> omega

/-! ## Infinite executions -/

theorem Spec.LExec.run {k : LKind} {ce : Str} (x : LExec k ce) (n : Nat) : ∃ as, lRun k ce lInit as = some (x.state n) := by
  induction n with
  | zero => exact ⟨[], by rw [x.init]; rfl⟩
  | succ n ih =>
    obtain ⟨as, h⟩ := ih
    refine ⟨as ++ [x.act n], ?_⟩
    rw [lRun_append, h]
    simp [lRun, x.next n]

theorem Spec.LExec.effect {k : LKind} {ce : Str} (x : LExec k ce) (n : Nat) : LEffect k ce (x.state n) (x.act n) (x.state (n + 1)) :=
  lStep_effect (x.next n)

/-- How far the goroutine is from the select. -/
def LPc.rank (k : LKind) : LPc → Nat
  | .select => 0
  | .offer => 1
  | .report _ _ => if k = .jwkd then 2 else 3
  | .sleeping _ _ => if k = .jwkd then 3 else 2
  | _ => 4

theorem rank_step {k : LKind} {ce : Str} {s s' : LState} {a : LAct} (he : LEffect k ce s a s') (h1 : s.pc.rank k < 4) (h2 : s.pc ≠ .select) :
    s'.pc = s.pc ∨ s'.pc.rank k < s.pc.rank k := by
  cases he <;> simp_all [LPc.rank]

/-- Either the goroutine stays where it is for ever, or it comes closer to the select. -/
theorem Spec.LExec.stay {k : LKind} {ce : Str} (x : LExec k ce) (n : Nat) (h1 : (x.state n).pc.rank k < 4) (h2 : (x.state n).pc ≠ .select) :
    (∀ m, n ≤ m → (x.state m).pc = (x.state n).pc) ∨ ∃ m, n ≤ m ∧ (x.state m).pc.rank k < (x.state n).pc.rank k := by
  by_cases h : ∃ m, n ≤ m ∧ (x.state m).pc.rank k < (x.state n).pc.rank k
  · exact .inr h
  · left
    intro m hm
    obtain ⟨d, rfl⟩ := Nat.exists_eq_add_of_le hm
    induction d with
    | zero => rfl
    | succ d ih =>
      have ih := ih (by omega)
      rcases rank_step (x.effect (n + d)) (by rw [ih]; exact h1) (by rw [ih]; exact h2) with h3 | h3
      · rw [← ih]; exact h3
      · exact absurd ⟨n + d + 1, by omega, by rw [ih] at h3; exact h3⟩ h

theorem Spec.LFair.not_offer {k : LKind} {ce : Str} {reader : Prop} {x : LExec k ce} (f : LFair reader x) (n : Nat)
    (h : ∀ m, n ≤ m → (x.state m).pc = .offer) : False := by
  obtain ⟨m, hm, ha⟩ := f.steps .offer (by simp) n (fun m hm => by simp [lStep, h m hm])
  have he := x.effect m
  have h' := h (m + 1) (by omega)
  rw [ha] at he
  revert he h'
  generalize x.state (m + 1) = s'
  intro he h'
  cases he
  cases h'

theorem Spec.LFair.not_sleeping {k : LKind} {ce : Str} {reader : Prop} {x : LExec k ce} (f : LFair reader x) (n : Nat) (r : Bool) (e : Str)
    (h : ∀ m, n ≤ m → (x.state m).pc = .sleeping r e) : False := by
  obtain ⟨m, hm, ha⟩ := f.steps .wake (by simp) n (fun m hm => by simp [lStep, h m hm])
  have he := x.effect m
  have h' := h (m + 1) (by omega)
  rw [ha] at he
  revert he h'
  generalize x.state (m + 1) = s'
  intro he h'
  cases he <;> cases h'

theorem Spec.LExec.send_leaves {k : LKind} {ce : Str} (x : LExec k ce) (m : Nat) (r : Bool) (e : Str) (ha : x.act m = .send)
    (h : (x.state (m + 1)).pc = .report r e) : False := by
  have he := x.effect m
  rw [ha] at he
  revert he h
  generalize x.state (m + 1) = s'
  intro h he
  cases he <;> cases h

theorem Spec.LFair.not_report {k : LKind} {ce : Str} {reader : Prop} {x : LExec k ce} (f : LFair reader x) (hr : k ≠ .jwkd → reader) (n : Nat)
    (r : Bool) (e : Str) (h : ∀ m, n ≤ m → (x.state m).pc = .report r e) : False := by
  by_cases hk : k = .jwkd
  · obtain ⟨m, hm, ha⟩ := f.steps .send (by simp) n (fun m hm => by
      simp only [lStep, h m hm, hk, if_true]
      split <;> rfl)
    exact x.send_leaves m r e ha (h (m + 1) (by omega))
  · by_cases hl : ∃ m, n ≤ m ∧ (x.state m).ech.length < echCap
    · obtain ⟨m, hm, hl⟩ := hl
      have keep : ∀ d, (x.state (m + d)).ech.length < echCap := by
        intro d
        induction d with
        | zero => exact hl
        | succ d ih =>
          have he := x.effect (m + d)
          have h0 := h (m + d) (by omega)
          have h' := h (m + d + 1) (by omega)
          rw [show m + (d + 1) = m + d + 1 by omega]
          revert he h'
          generalize x.state (m + d + 1) = s'
          generalize x.act (m + d) = a
          intro he h'
          cases he <;> simp_all <;> omega
      obtain ⟨m', hm', ha⟩ := f.steps .send (by simp) m (fun m' hm' => by
        obtain ⟨d, rfl⟩ := Nat.exists_eq_add_of_le hm'
        simp only [lStep, h (m + d) (by omega), hk, if_false, if_pos (keep d)]
        rfl)
      exact x.send_leaves m' r e ha (h (m' + 1) (by omega))
    · have full : ∀ m, n ≤ m → echCap ≤ (x.state m).ech.length := fun m hm => Nat.le_of_not_lt fun hc => hl ⟨m, hm, hc⟩
      obtain ⟨m, hm, ha⟩ := f.reads (hr hk) n (fun m hm hc => by
        have := full m hm
        rw [hc] at this
        exact absurd this (by decide))
      obtain ⟨as, hrun⟩ := x.run m
      have hle := ech_le as _ hrun
      have hge := full (m + 1) (by omega)
      have he := x.effect m
      rw [ha] at he
      revert he hge
      generalize x.state (m + 1) = s'
      intro hge he
      cases he with
      | recv e' es hs =>
        rw [hs] at hle
        simp only [List.length_cons] at hle
        simp only at hge
        omega

/-- If the context is not seen to be done, the goroutine comes back to the select again and again. -/
theorem Spec.LFair.select {k : LKind} {ce : Str} {reader : Prop} {x : LExec k ce} (f : LFair reader x) (hr : k ≠ .jwkd → reader) (n : Nat)
    (hlive : ∀ m, n ≤ m → (x.state m).pc ≠ .stopping ∧ (x.state m).pc ≠ .exited) : ∃ m, n ≤ m ∧ (x.state m).pc = .select := by
  have key : ∀ c m, n ≤ m → (x.state m).pc.rank k = c → c < 4 → ∃ m', m ≤ m' ∧ (x.state m').pc = .select := by
    intro c
    induction c using Nat.strongRecOn with
    | ind c ih =>
      intro m hm hc h4
      by_cases h2 : (x.state m).pc = .select
      · exact ⟨m, by omega, h2⟩
      · rcases x.stay m (by omega) h2 with hs | ⟨m', hm', hlt⟩
        · exfalso
          cases hp : (x.state m).pc with
          | select => exact h2 hp
          | offer => exact f.not_offer m (fun m' h' => by rw [hs m' h', hp])
          | report r e => exact f.not_report hr m r e (fun m' h' => by rw [hs m' h', hp])
          | sleeping r e => exact f.not_sleeping m r e (fun m' h' => by rw [hs m' h', hp])
          | updating r => rw [hp] at hc; simp [LPc.rank] at hc; omega
          | stopping => rw [hp] at hc; simp [LPc.rank] at hc; omega
          | exited => rw [hp] at hc; simp [LPc.rank] at hc; omega
        · obtain ⟨m'', h3, h4⟩ := ih _ (by omega) m' (by omega) rfl (by omega)
          exact ⟨m'', by omega, h4⟩
  obtain ⟨m, hm, hu⟩ := f.updates n
  have hlow : (x.state m).pc.rank k < 4 := by
    have := hlive m hm
    cases hp : (x.state m).pc with
    | select => simp [LPc.rank]
    | offer => simp [LPc.rank]
    | report r e => simp only [LPc.rank]; split <;> omega
    | sleeping r e => simp only [LPc.rank]; split <;> omega
    | updating r => exact absurd hp (hu r)
    | stopping => exact absurd hp this.1
    | exited => exact absurd hp this.2
  obtain ⟨m', h1, h2⟩ := key _ m hm rfl hlow
  exact ⟨m', by omega, h2⟩

end Athenz
