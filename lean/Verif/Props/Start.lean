import Verif.Proofs.Boot
import Verif.Props.Loop

/-! # C58: errors of the child daemons reach the caller -/

namespace Athenz
open Spec

/-- **C58**, safety.  At any time there is one sequence of items such that what was and can be read from the channel of `Start`, and an item that is
just about to be sent, are the texts of these items, in order, followed by the error of the context when the goroutine has returned, and by
nothing else; and for each child, the items of this child are exactly what was taken from its channel, in order. -/
theorem C58_forward (ce : Str) (on : LKind → Bool) (acts : List SAct) (s : SState) (hr : sRun ce (sInit on) acts = some s) :
    ∃ items : List (LKind × Str),
      s.read ++ s.ech ++ (match s.pc with | .holding k e => [fwdText (k, e)] | _ => []) = items.map fwdText ++ (if s.pc = .exited then [ce] else []) ∧
      (∀ k c, s.child k = some c → ofChild k items = c.read) ∧ (∀ k, on k = false → ofChild k items = []) := by
  obtain ⟨items, hi⟩ := fwd_run acts s hr
  refine ⟨items, ?_, ?_, ?_⟩
  · rw [← hi.out]
    cases s.pc <;> rfl
  · intro k c hc
    rw [hi.per k, hc]
    rfl
  · intro k hk
    rw [hi.per k, (child_run acts s hr k).1 hk]
    rfl

/-- **C58**, end to end for pubkeyd and policyd: when the updater is at its select or has returned, its failures, each with its message, and the
error of the context if it has returned, are the items forwarded for it and then those that wait in its channel. -/
theorem C58_failures (ce : Str) (on : LKind → Bool) (acts : List SAct) (s : SState) (hr : sRun ce (sInit on) acts = some s) (k : LKind)
    (hk : k ≠ .jwkd) (c : LState) (hc : s.child k = some c) (hp : c.pc = .select ∨ c.pc = .exited) :
    ∃ items : List (LKind × Str),
      s.read ++ s.ech ++ (match s.pc with | .holding k e => [fwdText (k, e)] | _ => []) = items.map fwdText ++ (if s.pc = .exited then [ce] else []) ∧
      ofChild k items ++ c.ech = (failures (childActs k acts)).map (fun e => failText k ++ ": ".toList ++ e) ++ (if c.pc = .exited then [ce] else []) := by
  obtain ⟨items, h1, h2, _⟩ := C58_forward ce on acts s hr
  refine ⟨items, h1, ?_⟩
  have hon : on k = true := by
    cases h : on k with
    | true => rfl
    | false => rw [(child_run acts s hr k).1 h] at hc; cases hc
  obtain ⟨c', as, j1, j2, j3⟩ := (child_run acts s hr k).2 hon
  rw [hc] at j1
  cases j1
  rw [h2 k c hc, ← j3]
  exact C53_others k hk ce as c j2 hp

/-- **C58**, room.  At most 200 errors wait for the reader; the next one is put there exactly if there are fewer. -/
theorem C58_room (ce : Str) (on : LKind → Bool) (acts : List SAct) (s : SState) (hr : sRun ce (sInit on) acts = some s) :
    s.ech.length ≤ 200 ∧ ∀ k e, s.pc = .holding k e → ((∃ s', sStep ce s .send = some s') ↔ s.ech.length < 200) := by
  refine ⟨fwd_cap acts s hr, fun k e hp => ?_⟩
  simp only [sStep, hp]
  show (∃ s', (if s.ech.length < 200 then _ else _) = some s') ↔ _
  constructor
  · rintro ⟨s', h⟩
    split at h
    · assumption
    · cases h
  · intro h
    rw [if_pos h]
    exact ⟨_, rfl⟩

/-- **C58**, the end: when the goroutine has returned, and the channel is closed, the last item is the error of the context, and nothing is added
any more. -/
theorem C58_last (ce : Str) (on : LKind → Bool) (acts more : List SAct) (s s' : SState) (hr : sRun ce (sInit on) acts = some s)
    (hx : s.pc = .exited) (hm : sRun ce s more = some s') :
    (s.read ++ s.ech).getLast? = some ce ∧ s'.pc = .exited ∧ s'.read ++ s'.ech = s.read ++ s.ech := by
  refine ⟨?_, ?_⟩
  · obtain ⟨items, h1, _⟩ := C58_forward ce on acts s hr
    rw [hx] at h1
    simp only [List.append_nil, if_true] at h1
    rw [h1]
    simp
  · refine sRun_from (P := fun _ t => t.pc = .exited ∧ t.read ++ t.ech = s.read ++ s.ech) ?_ more [] s s' ⟨hx, rfl⟩ hm
    rintro _ t a t' ⟨i1, i2⟩ he
    cases he with
    | child k a c c' h1 h2 h3 h4 => exact ⟨i1, i2⟩
    | cancel => exact ⟨i1, i2⟩
    | take k c e es h1 h2 h3 => rw [i1] at h1; cases h1
    | closed k c h1 h2 h3 h4 => exact ⟨i1, i2⟩
    | send k e h1 h2 => rw [i1] at h1; cases h1
    | selDone h1 h2 => rw [i1] at h1; cases h1
    | stop h1 h2 => rw [i1] at h1; cases h1
    | recv e es h1 => rw [h1] at i2; exact ⟨i1, by rw [← i2]; simp⟩

/-- **C58**.  The goroutine stops only if the context was cancelled. -/
theorem C58_cancelled (ce : Str) (on : LKind → Bool) (acts : List SAct) (s : SState) (hr : sRun ce (sInit on) acts = some s)
    (hx : s.pc = .stopping ∨ s.pc = .exited) : s.cancelled = true ∧ SAct.cancel ∈ acts := by
  have key := sRun_from (ce := ce) (P := fun as t => (t.cancelled = true → SAct.cancel ∈ as) ∧ ((t.pc = .stopping ∨ t.pc = .exited) → t.cancelled = true))
    (by
      rintro as t a t' ⟨i1, i2⟩ he
      cases he with
      | child k a c c' h1 h2 h3 h4 => exact ⟨fun h => List.mem_append_left _ (i1 h), i2⟩
      | cancel => exact ⟨fun _ => by simp, fun _ => rfl⟩
      | take k c e es h1 h2 h3 => exact ⟨fun h => List.mem_append_left _ (i1 h), fun h => by rcases h with h | h <;> cases h⟩
      | closed k c h1 h2 h3 h4 => exact ⟨fun h => List.mem_append_left _ (i1 h), i2⟩
      | send k e h1 h2 => exact ⟨fun h => List.mem_append_left _ (i1 h), fun h => by rcases h with h | h <;> cases h⟩
      | selDone h1 h2 => exact ⟨fun h => List.mem_append_left _ (i1 h), fun _ => h2⟩
      | stop h1 h2 => exact ⟨fun h => List.mem_append_left _ (i1 h), fun _ => i2 (.inl h1)⟩
      | recv e es h1 => exact ⟨fun h => List.mem_append_left _ (i1 h), i2⟩) acts [] (sInit on) s (by simp [sInit]) hr
  exact ⟨key.2 hx, by simpa using key.1 (key.2 hx)⟩

/-- **C58**, liveness.  In every fair execution everything that a child has sent is taken from its channel, unless the end is reached before; by
`C58_forward` what is taken is forwarded. -/
theorem C58_fair {ce : Str} {on : LKind → Bool} (x : SExec ce on) (f : SFair x) (n : Nat) (k : LKind) (c : LState)
    (hc : (x.state n).child k = some c) :
    (∃ m, (x.state m).pc = .stopping ∨ (x.state m).pc = .exited) ∨
    ∃ m c', n ≤ m ∧ (x.state m).child k = some c' ∧ (c.read ++ c.ech) <+: c'.read := by
  by_cases hend : ∃ m, (x.state m).pc = .stopping ∨ (x.state m).pc = .exited
  · exact .inl hend
  · right
    have hlive : ∀ m, (x.state m).pc ≠ .stopping ∧ (x.state m).pc ≠ .exited :=
      fun m => ⟨fun h => hend ⟨m, .inl h⟩, fun h => hend ⟨m, .inr h⟩⟩
    -- the number of items still to be taken
    have key : ∀ d m, n ≤ m → ((x.state n).sent k).length ≤ ((x.state m).taken k).length + d →
        ∃ m', n ≤ m' ∧ ((x.state n).sent k).length ≤ ((x.state m').taken k).length := by
      intro d
      induction d with
      | zero => intro m hm h; exact ⟨m, hm, h⟩
      | succ d ih =>
        intro m hm h
        apply Classical.byContradiction
        intro hno
        have short : ∀ m', n ≤ m' → ((x.state m').taken k).length < ((x.state n).sent k).length :=
          fun m' hm' => Nat.lt_of_not_le fun hc => hno ⟨m', hm', hc⟩
        have offers : ∀ m', n ≤ m' → Offers (x.state m') k := by
          intro m' hm'
          have h1 := (x.sent_mono k n m' hm').1.length_le
          have h2 := short m' hm'
          unfold SState.sent SState.taken at *
          cases hc' : (x.state m').child k with
          | none => rw [hc'] at h1 h2; simp only [Option.map_none, Option.getD_none, List.length_nil] at h1 h2; omega
          | some c' =>
            rw [hc'] at h1 h2
            simp only [Option.map_some, Option.getD_some, List.length_append] at h1 h2
            exact ⟨c', hc', fun he => by rw [he] at h1; simp at h1; omega⟩
        obtain ⟨m1, h1, h2, _⟩ := f.choice k (fun N => by
          obtain ⟨m', h1, h2⟩ := f.select (max N n) (fun m' _ => hlive m')
          exact ⟨m', by omega, h2, offers m' (by omega)⟩) m
        have hof := offers m1 (by omega)
        have hstep : ((x.state (m1 + 1)).taken k).length = ((x.state m1).taken k).length + 1 := by
          have he := x.effect m1
          rw [h2] at he
          revert he
          generalize x.state (m1 + 1) = s'
          intro he
          cases he with
          | take _ c0 e es j1 j2 j3 =>
            unfold SState.taken
            show (Option.getD (Option.map _ (((x.state m1).setChild k _).child k)) []).length = _
            rw [setChild_child, if_pos rfl, j2]
            simp
          | closed _ c0 j1 j2 j3 j4 =>
            obtain ⟨c1, q1, q2⟩ := hof
            rw [j2] at q1
            cases q1
            exact absurd j3 q2
        have hmono := (x.sent_mono k m m1 (by omega)).2.length_le
        obtain ⟨m', q1, q2⟩ := ih (m1 + 1) (by omega) (by omega)
        exact hno ⟨m', q1, q2⟩
    obtain ⟨m, hm, h⟩ := key ((x.state n).sent k).length n (Nat.le_refl _) (by omega)
    have hs : (x.state n).sent k = c.read ++ c.ech := by unfold SState.sent; rw [hc]; rfl
    have h1 := (x.sent_mono k n m hm).1
    have h2 := taken_prefix (x.state m) k
    have h3 := List.prefix_of_prefix_length_le h1 h2 h
    rw [hs] at h3
    unfold SState.taken at h3
    cases hc' : (x.state m).child k with
    | none =>
      have hcn := h1
      unfold SState.sent at hcn
      rw [hc', hc] at hcn
      exfalso
      obtain ⟨as, hrun⟩ := x.run n
      obtain ⟨as', hrun'⟩ := x.run m
      have hon : on k = true := by
        cases h : on k with
        | true => rfl
        | false => rw [(child_run as _ hrun k).1 h] at hc; cases hc
      obtain ⟨c1, _, q, _⟩ := (child_run as' _ hrun' k).2 hon
      rw [hc'] at q
      cases q
    | some c' =>
      rw [hc'] at h3
      exact ⟨m, c', hm, hc', h3⟩

namespace Ex

def allOn : LKind → Bool := fun _ => true

/-- A failure of policyd and one of pubkeyd are forwarded, then the context is cancelled. -/
def startActs : List SAct :=
  [.child .policyd .tick, .child .policyd .selTick, .child .policyd (.updFail "p".toList), .child .pubkeyd .tick, .child .pubkeyd .selTick,
   .child .pubkeyd (.updFail "k".toList), .child .pubkeyd .send, .take .pubkeyd, .child .policyd .send, .send, .take .policyd, .send, .recv,
   .cancel, .selDone, .stop]

end Ex

namespace Ex

/-- A failure of policyd is forwarded and read. -/
def fwdActs : List SAct :=
  [.child .policyd .tick, .child .policyd .selTick, .child .policyd (.updFail "p".toList), .child .policyd .send, .take .policyd, .send, .recv]

/-- Afterwards there are only ticks. -/
def fwdAct (n : Nat) : SAct := fwdActs.getD n (.child .policyd .tick)

def fwdState : Nat → SState
  | 0 => sInit allOn
  | n + 1 => (sStep "ctx".toList (fwdState n) (fwdAct n)).getD (fwdState n)

/-- Nothing is under way. -/
def Quiet (s : SState) : Prop := s.pc = .select ∧ s.ech = [] ∧ ∃ c, s.child .policyd = some c ∧ ∀ k c, s.child k = some c → c.ech = []

theorem quiet_tick {s : SState} (h : Quiet s) : ∃ s', sStep "ctx".toList s (.child .policyd .tick) = some s' ∧ Quiet s' := by
  obtain ⟨h1, h2, c, h3, h4⟩ := h
  refine ⟨s.setChild .policyd { c with tick := true }, by simp [sStep, h3, lStep], h1, h2, _, rfl, ?_⟩
  intro k c' hc
  rw [setChild_child] at hc
  split at hc
  · simp only [Option.some.injEq] at hc
    subst hc
    exact h4 _ c h3
  · exact h4 k c' hc

def quietB (s : SState) : Bool :=
  decide (s.pc = .select) && decide (s.ech = []) && (s.child .policyd).isSome &&
    [LKind.policyd, .pubkeyd, .jwkd].all fun k => ((s.child k).map fun c => decide (c.ech = [])).getD true

theorem quiet_of {s : SState} (h : quietB s = true) : Quiet s := by
  simp only [quietB, Bool.and_eq_true, decide_eq_true_eq, List.all_cons, List.all_nil, Bool.and_true] at h
  obtain ⟨⟨⟨h1, h2⟩, h3⟩, h4, h5, h6⟩ := h
  obtain ⟨c, hc⟩ := Option.isSome_iff_exists.mp h3
  refine ⟨h1, h2, c, hc, ?_⟩
  intro k c' hk
  cases k with
  | policyd => rw [hk] at h4; simpa using h4
  | pubkeyd => rw [hk] at h5; simpa using h5
  | jwkd => rw [hk] at h6; simpa using h6

theorem fwd_late : ∀ d, Quiet (fwdState (7 + d)) ∧ fwdAct (7 + d) = .child .policyd .tick := by
  have ha : ∀ d, fwdAct (7 + d) = .child .policyd .tick := by
    intro d
    unfold fwdAct
    rw [List.getD_eq_getElem?_getD, List.getElem?_eq_none (by show 7 ≤ 7 + d; omega)]
    rfl
  intro d
  refine ⟨?_, ha d⟩
  induction d with
  | zero => exact quiet_of (by decide +kernel)
  | succ d ih =>
    obtain ⟨s', h1, h2⟩ := quiet_tick ih
    have : fwdState (7 + d + 1) = s' := by
      show (sStep "ctx".toList (fwdState (7 + d)) (fwdAct (7 + d))).getD _ = s'
      rw [ha d, h1]; rfl
    rw [show 7 + (d + 1) = 7 + d + 1 by omega, this]
    exact h2

theorem fwd_next (n : Nat) : (sStep "ctx".toList (fwdState n) (fwdAct n)).isSome = true := by
  by_cases h : n < 7
  · have : ∀ i : Fin 7, (sStep "ctx".toList (fwdState i) (fwdAct i)).isSome = true := by decide +kernel
    exact this ⟨n, h⟩
  · obtain ⟨d, rfl⟩ := Nat.exists_eq_add_of_le (Nat.le_of_not_lt h)
    obtain ⟨h1, h2⟩ := fwd_late d
    obtain ⟨s', h3, _⟩ := quiet_tick h1
    rw [h2, h3]
    rfl

def fwdExec : SExec "ctx".toList allOn where
  state := fwdState
  act := fwdAct
  init := rfl
  next := by
    intro n
    obtain ⟨s', h⟩ := Option.isSome_iff_exists.mp (fwd_next n)
    show _ = some ((sStep "ctx".toList (fwdState n) (fwdAct n)).getD (fwdState n))
    rw [h]
    rfl

theorem fwd_quiet (n : Nat) : Quiet (fwdState (7 + n)) := (fwd_late n).1

theorem fwdExec_fair : SFair fwdExec where
  sends := fun n h => by
    have h1 := h (7 + n) (by omega)
    change (sStep "ctx".toList (fwdState (7 + n)) .send).isSome = true at h1
    simp [sStep, (fwd_quiet n).1] at h1
  reads := fun n h => absurd (fwd_quiet n).2.1 (h (7 + n) (by omega))
  choice := fun k h => by
    obtain ⟨m, hm, _, c, h1, h2⟩ := h 7
    obtain ⟨d, rfl⟩ := Nat.exists_eq_add_of_le hm
    obtain ⟨_, _, _, _, h3⟩ := fwd_quiet d
    exact absurd (h3 k c h1) h2

end Ex

/-- The hypotheses of `C58_fair`: a fair execution in which policyd sends a failure. -/
example : SFair Ex.fwdExec ∧ ∃ c, (Ex.fwdExec.state 4).child .policyd = some c ∧ c.ech = ["error update policy: p".toList] := by
  refine ⟨Ex.fwdExec_fair, ?_⟩
  obtain ⟨c, h1, h2⟩ := Ex.exists_of_map (o := (Ex.fwdState 4).child .policyd) (p := fun c => decide (c.ech = ["error update policy: p".toList]))
    (by decide +kernel)
  exact ⟨c, h1, of_decide_eq_true h2⟩

/-- What the reader gets, and what is left in the channel when it is closed. -/
example : ∃ s, sRun "ctx".toList (sInit Ex.allOn) Ex.startActs = some s ∧ s.pc = .exited ∧
    s.read = ["update pubkey error: error update pubkey: k".toList] ∧
    s.ech = ["update policy error: error update policy: p".toList, "ctx".toList] := by
  obtain ⟨s, h1, h2⟩ := Ex.exists_of_map (o := sRun "ctx".toList (sInit Ex.allOn) Ex.startActs)
    (p := fun s => decide (s.pc = .exited) && decide (s.read = ["update pubkey error: error update pubkey: k".toList]) &&
      decide (s.ech = ["update policy error: error update policy: p".toList, "ctx".toList])) (by decide +kernel)
  simp only [Bool.and_eq_true, decide_eq_true_eq] at h2
  exact ⟨s, h1, h2.1.1, h2.1.2, h2.2⟩

end Athenz
