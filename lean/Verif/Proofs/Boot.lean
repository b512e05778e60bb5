import Verif.Model.Boot
import Verif.Proofs.Loop

/-! # Lemmas for Start -/

namespace Athenz
open Spec

/-- The effects of the steps of the goroutines of `Start`. -/
inductive SEffect (ce : Str) (s : SState) : SAct → SState → Prop
  | child (k a c c') : a ≠ .recv → a ≠ .cancel → s.child k = some c → lStep k ce c a = some c' → SEffect ce s (.child k a) (s.setChild k c')
  | cancel : SEffect ce s .cancel { s with cancelled := true, child := fun k => (s.child k).map fun c => { c with cancelled := true } }
  | take (k c e es) : s.pc = .select → s.child k = some c → c.ech = e :: es →
      SEffect ce s (.take k) { s.setChild k { c with ech := es, read := c.read ++ [e] } with pc := .holding k e }
  | closed (k c) : s.pc = .select → s.child k = some c → c.ech = [] → c.pc = .exited → SEffect ce s (.take k) s
  | send (k e) : s.pc = .holding k e → s.ech.length < fwdCap → SEffect ce s .send { s with pc := .select, ech := s.ech ++ [wrapMsg k.fwdMsg e] }
  | selDone : s.pc = .select → s.cancelled = true → SEffect ce s .selDone { s with pc := .stopping }
  | stop : s.pc = .stopping → s.ech.length < fwdCap → SEffect ce s .stop { s with pc := .exited, ech := s.ech ++ [ce] }
  | recv (e es) : s.ech = e :: es → SEffect ce s .recv { s with ech := es, read := s.read ++ [e] }

theorem sStep_effect {ce : Str} {s s' : SState} {a : SAct} (h : sStep ce s a = some s') : SEffect ce s a s' := by
  cases a with
  | child k a =>
    simp only [sStep] at h
    split at h
    · cases h
    · rename_i ha
      simp only [not_or] at ha
      split at h
      · cases h
      · rename_i c hc
        split at h
        · rename_i c' hs; simp only [Option.some.injEq] at h; subst h; exact .child k a c c' ha.1 ha.2 hc hs
        · cases h
  | cancel => simp only [sStep, Option.some.injEq] at h; subst h; exact .cancel
  | take k =>
    simp only [sStep] at h
    split at h
    · rename_i hp
      split at h
      · cases h
      · rename_i c hc
        split at h
        · rename_i e es he; simp only [Option.some.injEq] at h; subst h; exact .take k c e es hp hc he
        · rename_i he
          split at h
          · rename_i hx; simp only [Option.some.injEq] at h; subst h; exact .closed k c hp hc he hx
          · cases h
    · cases h
  | send =>
    simp only [sStep] at h
    split at h
    · rename_i k e hp
      split at h
      · rename_i hl; simp only [Option.some.injEq] at h; subst h; exact .send k e hp hl
      · cases h
    · cases h
  | selDone =>
    simp only [sStep] at h
    split at h
    · rename_i hp; simp only [Option.some.injEq] at h; subst h; exact .selDone hp.1 hp.2
    · cases h
  | stop =>
    simp only [sStep] at h
    split at h
    · rename_i hp; simp only [Option.some.injEq] at h; subst h; exact .stop hp.1 hp.2
    · cases h
  | recv =>
    simp only [sStep] at h
    split at h
    · cases h
    · rename_i e es he; simp only [Option.some.injEq] at h; subst h; exact .recv e es he

theorem sRun_from {ce : Str} {P : List SAct → SState → Prop} (hs : ∀ as s a s', P as s → SEffect ce s a s' → P (as ++ [a]) s') :
    ∀ bs as s s', P as s → sRun ce s bs = some s' → P (as ++ bs) s' := by
  intro bs
  induction bs with
  | nil => intro as s s' hp h; cases h; simpa using hp
  | cons b bs ih =>
    intro as s s' hp h
    simp only [sRun] at h
    split at h
    · rename_i s1 h1
      rw [show as ++ b :: bs = (as ++ [b]) ++ bs by simp]
      exact ih _ s1 s' (hs as s b s1 hp (sStep_effect h1)) h
    · cases h

theorem setChild_child (s : SState) (k k' : LKind) (c : LState) : (s.setChild k c).child k' = if k' = k then some c else s.child k' := rfl

/-- The steps of one child. -/
def Spec.childActs (k : LKind) : List SAct → List LAct
  | [] => []
  | .child k' a :: as => if k' = k then a :: childActs k as else childActs k as
  | _ :: as => childActs k as

theorem childActs_append (k : LKind) (as bs : List SAct) : childActs k (as ++ bs) = childActs k as ++ childActs k bs := by
  induction as with
  | nil => rfl
  | cons a as ih =>
    cases a <;> simp only [List.cons_append, childActs, ih]
    split <;> rfl

theorem failures_singleton {a : LAct} (h : ∀ e, a ≠ .updFail e) : failures [a] = [] := by
  cases a <;> first | rfl | exact absurd rfl (h _)

/-- Every child is an updater on its own: it has come to its state by steps of the model of the updaters. -/
theorem child_run {ce : Str} {on : LKind → Bool} : ∀ acts s, sRun ce (sInit on) acts = some s → ∀ k,
    (on k = false → s.child k = none) ∧ (on k = true → ∃ c as, s.child k = some c ∧ lRun k ce lInit as = some c ∧
      failures as = failures (childActs k acts)) := by
  intro acts s h
  refine sRun_from (P := fun acts s => ∀ k, (on k = false → s.child k = none) ∧ (on k = true → ∃ c as, s.child k = some c ∧
    lRun k ce lInit as = some c ∧ failures as = failures (childActs k acts))) ?_ acts [] (sInit on) s ?_ h
  · intro acts s a s' hi he k
    have snoc : ∀ (c c' : LState) as b, lRun k ce lInit as = some c → lStep k ce c b = some c' → lRun k ce lInit (as ++ [b]) = some c' := by
      intro c c' as b h1 h2
      rw [lRun_append, h1]
      simp [lRun, h2]
    obtain ⟨i1, i2⟩ := hi k
    have same : childActs k (acts ++ [a]) = childActs k acts ++ childActs k [a] := childActs_append _ _ _
    cases he with
    | child k' b c c' h1 h2 h3 h4 =>
      rw [setChild_child]
      by_cases hk : k = k'
      · subst hk
        simp only [if_true]
        refine ⟨fun h => absurd h3 (by simp [i1 h]), fun h => ?_⟩
        obtain ⟨c0, as, j1, j2, j3⟩ := i2 h
        rw [h3] at j1
        cases j1
        refine ⟨c', as ++ [b], rfl, snoc _ _ _ _ j2 h4, ?_⟩
        rw [same, failures_append, failures_append, j3]
        simp [childActs]
      · rw [if_neg hk]
        have : childActs k (acts ++ [.child k' b]) = childActs k acts := by
          rw [same]; simp [childActs, Ne.symm hk]
        rw [this]
        exact ⟨i1, i2⟩
    | cancel =>
      rw [same]
      simp only [childActs, List.append_nil]
      refine ⟨fun h => by simp [i1 h], fun h => ?_⟩
      obtain ⟨c0, as, j1, j2, j3⟩ := i2 h
      refine ⟨_, as ++ [.cancel], by rw [j1]; rfl, snoc _ _ _ _ j2 rfl, ?_⟩
      rw [failures_append, j3]
      simp [failures]
    | take k' c e es h1 h2 h3 =>
      rw [same]
      simp only [childActs, List.append_nil]
      show (on k = false → (s.setChild k' _).child k = none) ∧ (on k = true → ∃ c as, (s.setChild k' _).child k = some c ∧ _)
      rw [setChild_child]
      by_cases hk : k = k'
      · subst hk
        simp only [if_true]
        refine ⟨fun h => absurd h2 (by simp [i1 h]), fun h => ?_⟩
        obtain ⟨c0, as, j1, j2, j3⟩ := i2 h
        rw [h2] at j1
        cases j1
        refine ⟨_, as ++ [.recv], rfl, snoc _ _ _ _ j2 (by simp [lStep, h3]), ?_⟩
        rw [failures_append, j3]
        simp [failures]
      · rw [if_neg hk]
        exact ⟨i1, i2⟩
    | closed k' c h1 h2 h3 h4 => rw [same]; simp only [childActs, List.append_nil]; exact ⟨i1, i2⟩
    | send k' e h1 h2 => rw [same]; simp only [childActs, List.append_nil]; exact ⟨i1, i2⟩
    | selDone h1 h2 => rw [same]; simp only [childActs, List.append_nil]; exact ⟨i1, i2⟩
    | stop h1 h2 => rw [same]; simp only [childActs, List.append_nil]; exact ⟨i1, i2⟩
    | recv e es h1 => rw [same]; simp only [childActs, List.append_nil]; exact ⟨i1, i2⟩
  · intro k
    unfold sInit
    refine ⟨fun h => by simp [h], fun h => ⟨lInit, [], by simp [h], rfl, rfl⟩⟩

/-- The item that the forwarding goroutine has taken and not yet sent. -/
def FPc.owed : FPc → List (LKind × Str)
  | .holding k e => [(k, e)]
  | _ => []

/-- The items taken from one child. -/
def Spec.ofChild (k : LKind) (items : List (LKind × Str)) : List Str := (items.filter fun p => decide (p.1 = k)).map (·.2)

theorem fwdText_eq (k : LKind) (e : Str) : fwdText (k, e) = wrapMsg k.fwdMsg e := by
  cases k <;> rfl

theorem failText_eq (k : LKind) : failText k = k.msg := by
  cases k <;> rfl

/-- What was taken from the children so far is what came out. -/
structure FwdInv (ce : Str) (s : SState) (items : List (LKind × Str)) : Prop where
  out : s.read ++ s.ech ++ s.pc.owed.map fwdText = items.map fwdText ++ (if s.pc = .exited then [ce] else [])
  per : ∀ k, ofChild k items = ((s.child k).map (·.read)).getD []

theorem lStep_read {k : LKind} {ce : Str} {c c' : LState} {a : LAct} (ha : a ≠ .recv) (h : lStep k ce c a = some c') : c'.read = c.read := by
  cases lStep_effect h <;> first | rfl | exact absurd rfl ha

theorem fwd_run {ce : Str} {on : LKind → Bool} : ∀ acts s, sRun ce (sInit on) acts = some s → ∃ items, FwdInv ce s items := by
  intro acts s h
  refine sRun_from (P := fun _ s => ∃ items, FwdInv ce s items) ?_ acts [] (sInit on) s ?_ h
  · rintro acts s a s' ⟨items, hi⟩ he
    cases he with
    | child k a c c' h1 h2 h3 h4 =>
      refine ⟨items, hi.out, fun k' => ?_⟩
      rw [hi.per k', setChild_child]
      split
      · rename_i hk; subst hk; rw [h3]; simp [lStep_read h1 h4]
      · rfl
    | cancel =>
      refine ⟨items, hi.out, fun k' => ?_⟩
      rw [hi.per k']
      simp only
      cases s.child k' <;> rfl
    | take k c e es h1 h2 h3 =>
      refine ⟨items ++ [(k, e)], ?_, fun k' => ?_⟩
      · have := hi.out
        simp only [h1, FPc.owed, List.map_nil, List.append_nil, reduceCtorEq, if_false] at this
        show s.read ++ s.ech ++ [fwdText (k, e)] = _
        simp [this]
      · show ofChild k' (items ++ [(k, e)]) = Option.getD (Option.map _ ((s.setChild k _).child k')) []
        have hp := hi.per k'
        unfold ofChild at *
        rw [setChild_child, List.filter_append, List.map_append, hp]
        by_cases hk : k' = k
        · subst hk
          simp [h2]
        · rw [if_neg hk]
          simp [Ne.symm hk]
    | closed k c h1 h2 h3 h4 => exact ⟨items, hi⟩
    | send k e h1 h2 =>
      refine ⟨items, ?_, hi.per⟩
      have := hi.out
      simp only [h1, FPc.owed, List.map_cons, List.map_nil, reduceCtorEq, if_false, fwdText_eq] at this
      simp only [FPc.owed, List.map_nil, List.append_nil, reduceCtorEq, if_false]
      rw [← List.append_assoc]
      rw [List.append_nil] at this
      exact this
    | selDone h1 h2 => exact ⟨items, by simpa [h1, FPc.owed] using hi.out, hi.per⟩
    | stop h1 h2 =>
      refine ⟨items, ?_, hi.per⟩
      have := hi.out
      simp only [h1, FPc.owed, List.map_nil, List.append_nil, reduceCtorEq, if_false] at this
      simp only [FPc.owed, List.map_nil, List.append_nil, if_true]
      rw [← List.append_assoc, this]
    | recv e es h1 =>
      refine ⟨items, ?_, hi.per⟩
      have := hi.out
      rw [h1] at this
      simpa using this
  · refine ⟨[], by simp [sInit, FPc.owed], fun k => ?_⟩
    unfold sInit
    simp only [ofChild]
    cases on k <;> rfl

/-! ## Infinite executions -/

/-- An infinite execution of the goroutines of `Start`. -/
structure Spec.SExec (ce : Str) (on : LKind → Bool) where
  state : Nat → SState
  act : Nat → SAct
  init : state 0 = sInit on
  next : ∀ n, sStep ce (state n) (act n) = some (state (n + 1))

/-- There is something in the channel of a child. -/
def Spec.Offers (s : SState) (k : LKind) : Prop := ∃ c, s.child k = some c ∧ c.ech ≠ []

/-- Fairness: a send that stays possible happens, somebody reads what stays in the channel, and a child that has something in its channel whenever
the select is reached is served. -/
structure Spec.SFair {ce : Str} {on : LKind → Bool} (x : SExec ce on) : Prop where
  sends : ∀ n, (∀ m, n ≤ m → (sStep ce (x.state m) .send).isSome) → ∃ m, n ≤ m ∧ x.act m = .send
  reads : ∀ n, (∀ m, n ≤ m → (x.state m).ech ≠ []) → ∃ m, n ≤ m ∧ x.act m = .recv
  choice : ∀ k, (∀ n, ∃ m, n ≤ m ∧ (x.state m).pc = .select ∧ Offers (x.state m) k) →
    ∀ n, ∃ m, n ≤ m ∧ x.act m = .take k ∧ Offers (x.state m) k

theorem Spec.SExec.effect {ce : Str} {on : LKind → Bool} (x : SExec ce on) (n : Nat) : SEffect ce (x.state n) (x.act n) (x.state (n + 1)) :=
  sStep_effect (x.next n)

theorem Spec.SExec.run {ce : Str} {on : LKind → Bool} (x : SExec ce on) (n : Nat) : ∃ as, sRun ce (sInit on) as = some (x.state n) := by
  have app : ∀ as bs (s : SState), sRun ce s (as ++ bs) = (sRun ce s as).bind fun s' => sRun ce s' bs := by
    intro as bs
    induction as with
    | nil => intro s; rfl
    | cons a as ih =>
      intro s
      simp only [List.cons_append, sRun]
      cases sStep ce s a with
      | none => rfl
      | some s' => exact ih s'
  induction n with
  | zero => exact ⟨[], by rw [x.init]; rfl⟩
  | succ n ih =>
    obtain ⟨as, h⟩ := ih
    exact ⟨as ++ [x.act n], by rw [app, h]; simp [sRun, x.next n]⟩

theorem fwd_cap {ce : Str} {on : LKind → Bool} : ∀ acts s, sRun ce (sInit on) acts = some s → s.ech.length ≤ fwdCap := by
  intro acts s h
  refine sRun_from (P := fun _ s => s.ech.length ≤ fwdCap) ?_ acts [] (sInit on) s (Nat.zero_le _) h
  intro _ s a s' hi he
  cases he with
  | child k a c c' h1 h2 h3 h4 => exact hi
  | cancel => exact hi
  | take k c e es h1 h2 h3 => exact hi
  | closed k c h1 h2 h3 h4 => exact hi
  | send k e h1 h2 => simp; omega
  | selDone h1 h2 => exact hi
  | stop h1 h2 => simp; omega
  | recv e es h1 => rw [h1] at hi; simp at hi ⊢; omega

/-- While the end is not reached, the forwarding goroutine comes back to its select. -/
theorem Spec.SFair.select {ce : Str} {on : LKind → Bool} {x : SExec ce on} (f : SFair x) (n : Nat)
    (hlive : ∀ m, n ≤ m → (x.state m).pc ≠ .stopping ∧ (x.state m).pc ≠ .exited) : ∃ m, n ≤ m ∧ (x.state m).pc = .select := by
  apply Classical.byContradiction
  intro hno
  have hno' : ∀ m, n ≤ m → (x.state m).pc ≠ .select := fun m hm hc => hno ⟨m, hm, hc⟩
  have hold : ∀ m, n ≤ m → ∃ k e, (x.state m).pc = .holding k e := by
    intro m hm
    cases hp : (x.state m).pc with
    | select => exact absurd hp (hno' m hm)
    | holding k e => exact ⟨k, e, rfl⟩
    | stopping => exact absurd hp (hlive m hm).1
    | exited => exact absurd hp (hlive m hm).2
  have nosend : ∀ m, n ≤ m → x.act m ≠ .send := by
    intro m hm ha
    have he := x.effect m
    have h' := hno' (m + 1) (by omega)
    rw [ha] at he
    revert he h'
    generalize x.state (m + 1) = s'
    intro he h'
    cases he
    exact h' rfl
  by_cases hl : ∃ m, n ≤ m ∧ (x.state m).ech.length < fwdCap
  · obtain ⟨m, hm, hl⟩ := hl
    have keep : ∀ d, (x.state (m + d)).ech.length < fwdCap := by
      intro d
      induction d with
      | zero => exact hl
      | succ d ih =>
        have he := x.effect (m + d)
        have hs := nosend (m + d) (by omega)
        have hv := hlive (m + d + 1) (by omega)
        rw [show m + (d + 1) = m + d + 1 by omega]
        revert he hs hv
        generalize x.state (m + d + 1) = s'
        generalize x.act (m + d) = a
        intro he hs hv
        cases he with
        | child k a c c' h1 h2 h3 h4 => exact ih
        | cancel => exact ih
        | take k c e es h1 h2 h3 => exact ih
        | closed k c h1 h2 h3 h4 => exact ih
        | send k e h1 h2 => exact absurd rfl hs
        | selDone h1 h2 => exact ih
        | stop h1 h2 => exact absurd rfl hv.2
        | recv e es h1 => rw [h1] at ih; simp at ih ⊢; omega
    obtain ⟨m', hm', ha⟩ := f.sends m (fun m' hm' => by
      obtain ⟨d, rfl⟩ := Nat.exists_eq_add_of_le hm'
      obtain ⟨k, e, hp⟩ := hold (m + d) (by omega)
      simp [sStep, hp, keep d])
    exact nosend m' (by omega) ha
  · have full : ∀ m, n ≤ m → fwdCap ≤ (x.state m).ech.length := fun m hm => Nat.le_of_not_lt fun hc => hl ⟨m, hm, hc⟩
    obtain ⟨m, hm, ha⟩ := f.reads n (fun m hm hc => by
      have := full m hm
      rw [hc] at this
      exact absurd this (by decide))
    obtain ⟨as, hrun⟩ := x.run m
    have hle := fwd_cap as _ hrun
    have hge := full (m + 1) (by omega)
    have he := x.effect m
    rw [ha] at he
    revert he hge
    generalize x.state (m + 1) = s'
    intro hge he
    cases he with
    | recv e' es hs =>
      rw [hs] at hle
      simp only [List.length_cons] at hle
      simp only at hge
      omega

/-- What a child has sent so far, and what of it was taken. -/
def SState.sent (s : SState) (k : LKind) : List Str := ((s.child k).map fun c => c.read ++ c.ech).getD []

def SState.taken (s : SState) (k : LKind) : List Str := ((s.child k).map (·.read)).getD []

theorem lStep_sent {k : LKind} {ce : Str} {c c' : LState} {a : LAct} (h : lStep k ce c a = some c') : (c.read ++ c.ech) <+: (c'.read ++ c'.ech) := by
  cases lStep_effect h with
  | recv e es h' => rw [h']; simp
  | sendJwk r e h1 h2 h3 => exact ⟨_, by rw [List.append_assoc]⟩
  | sendRetry e h1 h2 h3 => exact ⟨_, by rw [List.append_assoc]⟩
  | sendTick e h1 h2 h3 => exact ⟨_, by rw [List.append_assoc]⟩
  | stopJwk h1 h2 h3 => exact ⟨_, by rw [List.append_assoc]⟩
  | stop h1 h2 h3 => exact ⟨_, by rw [List.append_assoc]⟩
  | _ => exact List.prefix_refl _

/-- Nothing that was sent is lost, and nothing that was taken is put back. -/
theorem fwdSent_step {ce : Str} {s s' : SState} {a : SAct} (he : SEffect ce s a s') (k : LKind) :
    s.sent k <+: s'.sent k ∧ s.taken k <+: s'.taken k := by
  unfold SState.sent SState.taken
  cases he with
  | child k' a c c' h1 h2 h3 h4 =>
    rw [setChild_child]
    by_cases hk : k = k'
    · subst hk
      simp only [h3, if_true, Option.map_some, Option.getD_some]
      exact ⟨lStep_sent h4, by rw [lStep_read h1 h4]; exact List.prefix_refl _⟩
    · rw [if_neg hk]; exact ⟨List.prefix_refl _, List.prefix_refl _⟩
  | cancel => simp only; cases s.child k <;> exact ⟨List.prefix_refl _, List.prefix_refl _⟩
  | take k' c e es h1 h2 h3 =>
    show _ <+: Option.getD (Option.map _ ((s.setChild k' _).child k)) [] ∧ _ <+: Option.getD (Option.map _ ((s.setChild k' _).child k)) []
    rw [setChild_child]
    by_cases hk : k = k'
    · subst hk
      simp only [h2, if_true, Option.map_some, Option.getD_some]
      exact ⟨by rw [h3]; simp, by simp⟩
    · rw [if_neg hk]; exact ⟨List.prefix_refl _, List.prefix_refl _⟩
  | closed k' c h1 h2 h3 h4 => exact ⟨List.prefix_refl _, List.prefix_refl _⟩
  | send k' e h1 h2 => exact ⟨List.prefix_refl _, List.prefix_refl _⟩
  | selDone h1 h2 => exact ⟨List.prefix_refl _, List.prefix_refl _⟩
  | stop h1 h2 => exact ⟨List.prefix_refl _, List.prefix_refl _⟩
  | recv e es h1 => exact ⟨List.prefix_refl _, List.prefix_refl _⟩

theorem Spec.SExec.sent_mono {ce : Str} {on : LKind → Bool} (x : SExec ce on) (k : LKind) (n m : Nat) (h : n ≤ m) :
    (x.state n).sent k <+: (x.state m).sent k ∧ (x.state n).taken k <+: (x.state m).taken k := by
  obtain ⟨d, rfl⟩ := Nat.exists_eq_add_of_le h
  induction d with
  | zero => exact ⟨List.prefix_refl _, List.prefix_refl _⟩
  | succ d ih =>
    have ih := ih (by omega)
    have hs := fwdSent_step (x.effect (n + d)) k
    exact ⟨ih.1.trans hs.1, ih.2.trans hs.2⟩

theorem taken_prefix (s : SState) (k : LKind) : s.taken k <+: s.sent k := by
  unfold SState.sent SState.taken
  cases s.child k with
  | none => exact List.prefix_refl _
  | some c => exact ⟨c.ech, rfl⟩

end Athenz
