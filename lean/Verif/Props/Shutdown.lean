import Verif.Spec.Shutdown
import Verif.Props.Running

/-! # C80: when the context of `Start` is cancelled -/

namespace Athenz
open Spec

variable {cfg : SysCfg} {ce : Str} {now : Int} {on : LKind → Bool}

/-- The full statement of C80: after the cancellation no update is begun, and all goroutines return. -/
def C80_statement : Prop :=
  ∀ (cfg : SysCfg) (ce : Str) (now : Int) (on : LKind → Bool) (x : RsExec cfg ce now on), ForwarderFair x → ChannelRead x →
    (∀ k, on k = true → StopFair x k ∧ Works x.sys k) → ∀ n0, x.act n0 = .fwd .cancel →
    (∀ m, n0 ≤ m → ∀ k r f, x.act m ≠ .call k r f) ∧ ∃ m, ForwarderGone (x.state m) ∧ ∀ k, on k = true → ChildGone (x.state m) k

/-! ## The goroutine that passes errors on -/

theorem rsf_cap (x : RsExec cfg ce now on) (n : Nat) : (x.state n).fwd.ech.length ≤ fwdCap := by
  induction n with
  | zero => rw [x.init]; simp [rsInit, sInit]
  | succ n ih =>
    rcases rs_fwd x n with ⟨a, ha, he⟩ | ⟨h1, h2, h3, _⟩
    · revert he
      generalize (x.state (n + 1)).fwd = f
      intro he
      cases he with
      | send k e h1 h2 => simp; omega
      | stop h1 h2 => simp; omega
      | recv e es h1 => rw [h1] at ih; simp at ih ⊢; omega
      | _ => exact ih
    · rw [h2]; exact ih

theorem rsf_cancelled (x : RsExec cfg ce now on) {n0 : Nat} (hc : x.act n0 = .fwd .cancel) (m : Nat) (hm : n0 + 1 ≤ m) : (x.state m).fwd.cancelled = true := by
  refine from_ind (P := fun m => (x.state m).fwd.cancelled = true) ?_ ?_ m hm
  · rcases rs_fwd x n0 with ⟨a, ha, he⟩ | ⟨_, _, _, h⟩
    · rw [hc] at ha
      obtain rfl := RAct.fwd.inj ha
      revert he
      generalize (x.state (n0 + 1)).fwd = f
      intro he
      cases he
      rfl
    · exact absurd hc (h _)
  · intro m _ ih
    rcases rs_fwd x m with ⟨a, ha, he⟩ | ⟨_, _, h3, _⟩
    · revert he
      generalize (x.state (m + 1)).fwd = f
      intro he
      cases he with
      | cancel => rfl
      | _ => exact ih
    · rw [h3]; exact ih

/-- Without steps of the goroutine it stays where it is, and its channel does not become longer. -/
theorem rsf_stays (x : RsExec cfg ce now on) {n m : Nat} (h : n ≤ m) (hno : ∀ i, n ≤ i → ¬ OfForwarder (x.act i)) :
    (x.state m).fwd.pc = (x.state n).fwd.pc ∧ (x.state m).fwd.ech.length ≤ (x.state n).fwd.ech.length := by
  refine from_ind (P := fun m => (x.state m).fwd.pc = (x.state n).fwd.pc ∧ (x.state m).fwd.ech.length ≤ (x.state n).fwd.ech.length)
    ⟨rfl, Nat.le_refl _⟩ ?_ m h
  intro m hm ih
  rcases rs_fwd x m with ⟨a, ha, he⟩ | ⟨h1, h2, _⟩
  · have hf := hno m hm
    rw [ha] at hf
    revert he
    generalize (x.state (m + 1)).fwd = f
    intro he
    cases he with
    | child k a c c' h1 h2 h3 h4 => exact ih
    | cancel => exact ih
    | take k c e es h1 h2 h3 => exact absurd trivial hf
    | closed k c h1 h2 h3 h4 => exact absurd trivial hf
    | send k e h1 h2 => exact absurd trivial hf
    | selDone h1 h2 => exact absurd trivial hf
    | stop h1 h2 => exact absurd trivial hf
    | recv e es h1 => rw [h1] at ih; simp at ih ⊢; exact ⟨ih.1, by omega⟩
  · rw [h1, h2]; exact ih

/-- Having to send, the goroutine makes its step some time. -/
theorem rsf_moves (x : RsExec cfg ce now on) (hf : ForwarderFair x) (hr : ChannelRead x) (n : Nat) (b : SAct) (hb : OfForwarder (.fwd b)) (hown : b.own = true)
    (hen : ∀ m, n ≤ m → (x.state m).fwd.pc = (x.state n).fwd.pc → (x.state m).fwd.ech.length < fwdCap → (sStep ce (x.state m).fwd b).isSome) :
    ∃ m, n ≤ m ∧ OfForwarder (x.act m) := by
  refine Classical.byContradiction fun hno => ?_
  have hno : ∀ i, n ≤ i → ¬ OfForwarder (x.act i) := fun i hi ho => hno ⟨i, hi, ho⟩
  have hdead : ∀ m, (x.state m).sys.dead = false := fun m => (rsStep_effect (x.next m)).1
  have room : ∀ m0, n ≤ m0 → ¬ (x.state m0).fwd.ech.length < fwdCap := by
    intro m0 hm0 hlt
    obtain ⟨m, hm, ho⟩ := hf.goes m0 (fun m hm => ⟨.fwd b, hb, by
      have h1 := (rsf_stays x (show n ≤ m by omega) hno).1
      have h2 := (rsf_stays x hm (fun i hi => hno i (by omega))).2
      obtain ⟨f, hs⟩ := Option.isSome_iff_exists.mp (hen m (by omega) h1 (by omega))
      simp [rsStep, hdead m, hown, hs]⟩)
    exact hno m (by omega) ho
  obtain ⟨m, hm, ha⟩ := hr n (fun m hm h => room m hm (by rw [h]; simp [fwdCap]))
  have hcap := rsf_cap x m
  refine room (m + 1) (by omega) ?_
  rcases rs_fwd x m with ⟨a, ha', he⟩ | ⟨_, _, _, h⟩
  · rw [ha] at ha'
    obtain rfl := RAct.fwd.inj ha'
    revert he
    generalize (x.state (m + 1)).fwd = f
    intro he
    cases he with
    | recv e es hs => rw [hs] at hcap; simp only [List.length_cons] at hcap; exact hcap
  · exact absurd ha (h _)

/-- A step of the goroutine: from a send to the select, from the select to a send or to the end. -/
theorem rsf_step (x : RsExec cfg ce now on) {n : Nat} (h : OfForwarder (x.act n)) :
    (∃ k e, (x.state n).fwd.pc = .holding k e ∧ (x.state (n + 1)).fwd.pc = .select) ∨
    ((x.state n).fwd.pc = .select ∧ ((x.state (n + 1)).fwd.pc = .stopping ∨ (x.state (n + 1)).fwd.pc = .select ∨ ∃ k e, (x.state (n + 1)).fwd.pc = .holding k e) ∧
      (x.act n = .fwd .selDone → (x.state (n + 1)).fwd.pc = .stopping)) ∨
    ((x.state n).fwd.pc = .stopping ∧ (x.state (n + 1)).fwd.pc = .exited) := by
  rcases rs_fwd x n with ⟨a, ha', he⟩ | ⟨_, _, _, hno⟩
  · rw [ha'] at h ⊢
    revert he
    generalize (x.state (n + 1)).fwd = f
    intro he
    cases he with
    | child k a c c' h1 h2 h3 h4 => exact h.elim
    | cancel => exact h.elim
    | take k c e es h1 h2 h3 => exact .inr (.inl ⟨h1, .inr (.inr ⟨k, e, rfl⟩), by simp⟩)
    | closed k c h1 h2 h3 h4 => exact .inr (.inl ⟨h1, .inr (.inl h1), by simp⟩)
    | send k e h1 h2 => exact .inl ⟨k, e, h1, rfl⟩
    | selDone h1 h2 => exact .inr (.inl ⟨h1, .inl rfl, fun _ => rfl⟩)
    | stop h1 h2 => exact .inr (.inr ⟨h1, rfl⟩)
    | recv e es h1 => exact h.elim
  · exfalso
    revert h hno
    generalize x.act n = a
    intro h hno
    cases a with
    | fwd a => exact hno a rfl
    | _ => exact h

theorem rsf_still (x : RsExec cfg ce now on) {n : Nat} (h : ¬ OfForwarder (x.act n)) : (x.state (n + 1)).fwd.pc = (x.state n).fwd.pc := by
  rcases rs_fwd x n with ⟨a, ha', he⟩ | ⟨h1, _⟩
  · rw [ha'] at h
    revert he
    generalize (x.state (n + 1)).fwd = f
    intro he
    cases he with
    | child k a c c' h1 h2 h3 h4 => rfl
    | cancel => rfl
    | recv e es h1 => rfl
    | _ => exact absurd trivial h
  · exact h1

/-- **C80**.  After the cancellation the goroutine that passes errors on returns, if somebody reads the channel. -/
theorem C80_forwarder (cfg : SysCfg) (ce : Str) (now : Int) (on : LKind → Bool) (x : RsExec cfg ce now on) (hf : ForwarderFair x) (hr : ChannelRead x)
    (n0 : Nat) (hc : x.act n0 = .fwd .cancel) : ∃ m, ForwarderGone (x.state m) := by
  -- the first step from a moment on
  have first : ∀ n, (∃ m, n ≤ m ∧ OfForwarder (x.act m)) → ∃ m, n ≤ m ∧ OfForwarder (x.act m) ∧ (x.state m).fwd.pc = (x.state n).fwd.pc := by
    rintro n ⟨m0, hm0, ho⟩
    induction m0 using Nat.strongRecOn with
    | _ m0 ih =>
      by_cases hlt : ∃ k, k < m0 ∧ n ≤ k ∧ OfForwarder (x.act k)
      · obtain ⟨k, h1, h2, h3⟩ := hlt; exact ih k h1 h2 h3
      · refine ⟨m0, hm0, ho, ?_⟩
        have : ∀ m, n ≤ m → m ≤ m0 → (x.state m).fwd.pc = (x.state n).fwd.pc := by
          intro m hm
          induction hm with
          | refl => intro _; rfl
          | @step m hm ihm =>
            intro hle
            exact (rsf_still x fun h => hlt ⟨m, by omega, hm, h⟩).trans (ihm (by omega))
        exact this m0 hm0 (Nat.le_refl _)
  -- from the stopping state
  have ends : ∀ n, (x.state n).fwd.pc = .stopping → ∃ m, ForwarderGone (x.state m) := by
    intro n hn
    obtain ⟨m, hm, ho, hp⟩ := first n (rsf_moves x hf hr n .stop trivial rfl (by
      intro m hm h1 h2
      rw [hn] at h1
      simp [sStep, h1, h2]))
    rw [hn] at hp
    rcases rsf_step x ho with ⟨k, e, h1, _⟩ | ⟨h1, _⟩ | ⟨_, h2⟩
    · rw [hp] at h1; simp at h1
    · rw [hp] at h1; simp at h1
    · exact ⟨m + 1, h2⟩
  refine Classical.byContradiction fun hno => ?_
  have live : ∀ n, (x.state n).fwd.pc ≠ .stopping ∧ (x.state n).fwd.pc ≠ .exited :=
    fun n => ⟨fun h => hno (ends n h), fun h => hno ⟨n, h⟩⟩
  have select : ∀ n, ∃ m, n ≤ m ∧ (x.state m).fwd.pc = .select := by
    intro n
    cases hp : (x.state n).fwd.pc with
    | select => exact ⟨n, Nat.le_refl n, hp⟩
    | holding k e =>
      obtain ⟨m, hm, ho, hpm⟩ := first n (rsf_moves x hf hr n .send trivial rfl (by
        intro m hm h1 h2
        rw [hp] at h1
        simp [sStep, h1, h2]))
      rw [hp] at hpm
      rcases rsf_step x ho with ⟨_, _, _, h2⟩ | ⟨h1, _⟩ | ⟨h1, _⟩
      · exact ⟨m + 1, by omega, h2⟩
      · rw [hpm] at h1; simp at h1
      · rw [hpm] at h1; simp at h1
    | stopping => exact absurd hp (live n).1
    | exited => exact absurd hp (live n).2
  obtain ⟨m, ha⟩ := hf.stops fun n => by
    obtain ⟨m, hm, hp⟩ := select (max n (n0 + 1))
    exact ⟨m, by omega, hp, rsf_cancelled x hc m (by omega)⟩
  have ho : OfForwarder (x.act m) := by rw [ha]; trivial
  rcases rsf_step x ho with ⟨k, e, h1, h2⟩ | ⟨_, _, h3⟩ | ⟨h1, _⟩
  · rcases rs_fwd x m with ⟨a, ha', he⟩ | ⟨_, _, _, h⟩
    · rw [ha] at ha'
      obtain rfl := RAct.fwd.inj ha'
      revert he h2
      generalize (x.state (m + 1)).fwd = f
      intro h2 he
      cases he with
      | selDone j1 j2 => rw [h1] at j1; simp at j1
    · exact h _ ha
  · exact (live (m + 1)).1 (h3 ha)
  · exact (live m).1 h1

theorem rsf_read (x : RsExec cfg ce now on) (n : Nat) (h : ∀ a, x.act n ≠ .fwd a) : (x.state (n + 1)).fwd.read = (x.state n).fwd.read := by
  have he := (rsStep_effect (x.next n)).2
  revert he h
  generalize x.act n = a
  generalize x.state (n + 1) = s'
  intro h he
  cases he with
  | sys => rfl
  | fwd a f hown hf => exact absurd rfl (h a)
  | call k retry fetch f sys' hf hs =>
    obtain ⟨_, _, _, _, rfl, _, _⟩ := sStep_child hf
    rfl
  | ret k e i ok f hi hr hf =>
    obtain ⟨_, _, _, _, rfl, _, _⟩ := sStep_child hf
    rfl

/-- **C80**.  When that goroutine has returned, the last of what was read from the channel or can still be read is the error of the context, the
context was cancelled, and so it stays: nothing is added. -/
theorem C80_last (cfg : SysCfg) (ce : Str) (now : Int) (on : LKind → Bool) (x : RsExec cfg ce now on) (n : Nat) (h : ForwarderGone (x.state n)) :
    (∃ m, m < n ∧ x.act m = .fwd .cancel) ∧ ((x.state n).fwd.read ++ (x.state n).fwd.ech).getLast? = some ce ∧
    ∀ m, n ≤ m → ForwarderGone (x.state m) ∧ (x.state m).fwd.read ++ (x.state m).fwd.ech = (x.state n).fwd.read ++ (x.state n).fwd.ech := by
  refine ⟨?_, ?_, ?_⟩
  · have key : ∀ n, ((x.state n).fwd.cancelled = true → ∃ m, m < n ∧ x.act m = .fwd .cancel) ∧
        ((x.state n).fwd.pc = .stopping ∨ (x.state n).fwd.pc = .exited → (x.state n).fwd.cancelled = true) := by
      intro n
      induction n with
      | zero => rw [x.init]; simp [rsInit, sInit]
      | succ n ih =>
        obtain ⟨i1, i2⟩ := ih
        have up : (∃ m, m < n ∧ x.act m = .fwd .cancel) → ∃ m, m < n + 1 ∧ x.act m = .fwd .cancel := fun ⟨m, h1, h2⟩ => ⟨m, by omega, h2⟩
        rcases rs_fwd x n with ⟨a, ha, he⟩ | ⟨h1, h2, h3, _⟩
        · revert he
          generalize (x.state (n + 1)).fwd = f
          intro he
          cases he with
          | child k a c c' h1 h2 h3 h4 => exact ⟨fun h => up (i1 h), i2⟩
          | cancel => exact ⟨fun _ => ⟨n, by omega, ha⟩, fun _ => rfl⟩
          | take k c e es h1 h2 h3 => exact ⟨fun h => up (i1 h), by simp⟩
          | closed k c h1 h2 h3 h4 => exact ⟨fun h => up (i1 h), i2⟩
          | send k e h1 h2 => exact ⟨fun h => up (i1 h), by simp⟩
          | selDone h1 h2 => exact ⟨fun h => up (i1 h), fun _ => h2⟩
          | stop h1 h2 => exact ⟨fun h => up (i1 h), fun _ => i2 (.inl h1)⟩
          | recv e es h1 => exact ⟨fun h => up (i1 h), i2⟩
        · rw [h1, h3]; exact ⟨fun h => up (i1 h), i2⟩
    exact (key n).1 ((key n).2 (.inr h))
  · have key : ∀ n, (x.state n).fwd.pc = .exited → ((x.state n).fwd.read ++ (x.state n).fwd.ech).getLast? = some ce := by
      intro n
      induction n with
      | zero => rw [x.init]; simp [rsInit, sInit]
      | succ n ih =>
        rcases rs_fwd x n with ⟨a, ha, he⟩ | ⟨h1, h2, h3, h4⟩
        · revert he
          generalize (x.state (n + 1)).fwd = f
          intro he
          cases he with
          | child k a c c' h1 h2 h3 h4 => exact ih
          | cancel => exact ih
          | take k c e es h1 h2 h3 => simp
          | closed k c h1 h2 h3 h4 => exact ih
          | send k e h1 h2 => simp
          | selDone h1 h2 => simp
          | stop h1 h2 => intro _; simp
          | recv e es h1 => intro h; rw [← ih h, h1]; simp
        · rw [h1, h2, rsf_read x n h4]; exact ih
    exact key n h
  · refine from_ind ⟨h, rfl⟩ ?_
    intro m _ ⟨j1, j2⟩
    unfold ForwarderGone at j1 ⊢
    rcases rs_fwd x m with ⟨a, ha, he⟩ | ⟨h1, h2, h3, h4⟩
    · revert he
      generalize (x.state (m + 1)).fwd = f
      intro he
      cases he with
      | child k a c c' h1 h2 h3 h4 => exact ⟨j1, j2⟩
      | cancel => exact ⟨j1, j2⟩
      | take k c e es h1 h2 h3 => rw [j1] at h1; simp at h1
      | closed k c h1 h2 h3 h4 => exact ⟨j1, j2⟩
      | send k e h1 h2 => rw [j1] at h1; simp at h1
      | selDone h1 h2 => rw [j1] at h1; simp at h1
      | stop h1 h2 => rw [j1] at h1; simp at h1
      | recv e es h1 => exact ⟨j1, by rw [← j2, h1]; simp⟩
    · rw [h1, h2, rsf_read x m h4]; exact ⟨j1, j2⟩

/-! ## The goroutines of the children -/

theorem rs_cancelled (x : RsExec cfg ce now on) {k : LKind} (hon : on k = true) {n0 : Nat} (hc : x.act n0 = .fwd .cancel) (m : Nat) (hm : n0 + 1 ≤ m) :
    (x.loop k m).cancelled = true := by
  refine from_ind (P := fun m => (x.loop k m).cancelled = true) ?_ ?_ m hm
  · have hl := (rs_loop x hon n0).1
    have he := (rsStep_effect (x.next n0)).2
    unfold RsExec.loop
    rw [hc] at he
    revert he
    generalize x.state (n0 + 1) = s'
    intro he
    cases he with
    | fwd a f hown hf =>
      cases sStep_effect hf
      simp [hl]
  · intro m _ ih
    have he := (rs_loop x hon m).2.2
    revert he
    generalize x.act m = a
    generalize x.loop k (m + 1) = c'
    generalize x.state (m + 1) = s'
    intro he
    cases he with
    | idle a h1 h2 h0 h3 h4 => rw [h3]; exact ih
    | own a h1 h2 h3 h4 h5 =>
      have hle := lStep_effect h4
      clear h4
      cases hle <;> simp_all
    | cancel h1 h2 => simp only [lStep, Option.some.injEq] at h1; subst h1; rfl
    | take h1 => have hle := lStep_effect h1; clear h1; cases hle; exact ih
    | closed h1 h3 h4 => rw [h3]; exact ih
    | call retry fetch h1 h2 => rw [(lStep_sel h1).2.2.2]; exact ih
    | ret e i ok h1 h2 h3 h4 => rw [(lStep_upd h3).2.2.2.1]; exact ih

/-- What becomes of the place of the goroutine in a step. -/
theorem child_step (x : RsExec cfg ce now on) {k : LKind} (hon : on k = true) (n : Nat) :
    (¬ OfChild k (x.act n) → (x.loop k (n + 1)).pc = (x.loop k n).pc) ∧
    (OfChild k (x.act n) → (x.loop k n).pc ≠ .exited ∧ ((x.loop k n).pc = .stopping → (x.loop k (n + 1)).pc = .exited) ∧
      ((x.loop k n).pc ≠ .stopping → (x.loop k n).pc ≠ .select → (x.loop k (n + 1)).pc.rest k < (x.loop k n).pc.rest k ∧ (x.loop k (n + 1)).pc ≠ .stopping) ∧
      (x.act n = .fwd (.child k .selDone) → (x.loop k (n + 1)).pc = .stopping)) := by
  have he := (rs_loop x hon n).2.2
  revert he
  generalize x.act n = a
  generalize x.loop k (n + 1) = c'
  generalize x.state (n + 1) = s'
  intro he
  cases he with
  | idle a h1 h2 h0 h3 h4 => exact ⟨fun _ => by rw [h3], fun h => absurd h h1⟩
  | own a h1 h2 h3 h4 h5 =>
    have hle := lStep_effect h4
    clear h4
    cases hle <;> simp_all [OfChild, LAct.own, LPc.rest, LPc.far]
  | cancel h1 h2 => simp only [lStep, Option.some.injEq] at h1; subst h1; exact ⟨fun _ => rfl, fun h => h.elim⟩
  | take h1 => have hle := lStep_effect h1; clear h1; cases hle; exact ⟨fun _ => rfl, fun h => h.elim⟩
  | closed h1 h3 h4 => rw [h3]; exact ⟨fun _ => rfl, fun h => h.elim⟩
  | call retry fetch h1 h2 =>
    obtain ⟨g1, g2, _⟩ := lStep_sel h1
    exact ⟨fun h => absurd rfl h, fun _ => by simp [g1, g2]⟩
  | ret e i ok h1 h2 h3 h4 =>
    refine ⟨fun h => absurd rfl h, fun _ => ?_⟩
    have hle := lStep_effect h3
    clear h3
    cases ok with
    | true => simp only [if_true] at hle; cases hle; simp_all [LPc.rest, LPc.far]
    | false => simp only [Bool.false_eq_true, if_false] at hle; cases hle <;> simp_all [LPc.rest, LPc.far]

/-- If the goroutine makes no steps any more, it has returned or is blocked. -/
theorem child_rests (x : RsExec cfg ce now on) {k : LKind} (hon : on k = true) (hf : StopFair x k) (hret : CallsReturn x k) {n n0 : Nat}
    (hc : x.act n0 = .fwd .cancel) (hn : n0 + 1 ≤ n) (hno : ∀ i, n ≤ i → ¬ OfChild k (x.act i)) :
    (x.loop k n).pc = .exited ∨ ∀ m, n ≤ m → ChildBlocked (x.state m) k := by
  have key : ∀ (n' : Nat) (a : RAct), n ≤ n' → OfChild k a → (∀ m, n' ≤ m → (rsStep cfg ce (x.state m) a).isSome) → False := by
    intro n' a hn' ha hen
    obtain ⟨m, hm, ho⟩ := hf.goes n' (fun m hm => ⟨a, ha, hen m hm⟩)
    exact hno m (by omega) ho
  have hdead : ∀ m, (x.state m).sys.dead = false := fun m => (rsStep_effect (x.next m)).1
  obtain ⟨_, hinv, _⟩ := rs_loop x hon n
  have full : ∀ (b : LAct), b.own = true → b ≠ .tick → b ≠ .recv → b ≠ .cancel →
      (∀ m, n ≤ m → (x.loop k m).pc = (x.loop k n).pc → (x.loop k m).ech.length < echCap → (lStep k ce (x.loop k m) b).isSome) →
      ∀ m, n ≤ m → (x.loop k m).ech.length = 100 := by
    intro b hb1 hb2 hb3 hb4 hb5 m0 hm0
    have hcap : (x.loop k m0).ech.length ≤ echCap := (rs_loop x hon m0).2.1.cap
    refine Nat.le_antisymm hcap (Nat.le_of_not_lt fun hlt => ?_)
    refine key m0 (.fwd (.child k b)) hm0 ⟨rfl, hb2⟩ ?_
    intro m hm
    have h1 := (rs_stays x hon (show n ≤ m by omega) hno).1
    have h2 := (rs_stays x hon hm (fun i hi => hno i (by omega))).2.2.2
    have hch := (rs_loop x hon m).1
    have h3 : (x.loop k m).ech.length < echCap := Nat.lt_of_le_of_lt h2 hlt
    obtain ⟨c', hs⟩ := Option.isSome_iff_exists.mp (hb5 m (by omega) h1 h3)
    simp [rsStep, SAct.own, hb1, sStep, hch, hs, hdead m, hb3, hb4]
  cases hpc : (x.loop k n).pc with
  | exited => exact .inl rfl
  | select =>
    exfalso
    refine key n (.fwd (.child k .selDone)) (Nat.le_refl n) ⟨rfl, by simp⟩ ?_
    intro m hm
    have h1 := (rs_stays x hon hm hno).1
    have h2 := rs_cancelled x hon hc m (by omega)
    have hch := (rs_loop x hon m).1
    rw [hpc] at h1
    simp [rsStep, SAct.own, LAct.own, sStep, hch, lStep, h1, h2, hdead m]
  | updating r =>
    exfalso
    cases hcu : (x.state n).cur k with
    | none => exact hinv.busy r hpc hcu
    | some i =>
      obtain ⟨m0, hm0, hr⟩ := hret n i hcu
      refine key m0 (.ret k []) hm0 rfl ?_
      intro m hm
      obtain ⟨h1, h2, _⟩ := rs_stays x hon (show n ≤ m by omega) hno
      rw [hpc] at h1
      rw [hcu] at h2
      have h4 := hdead m
      have hch := (rs_loop x hon m).1
      cases ho : (x.state m).sys.updateRet i k with
      | none => exact absurd ho (hr m hm)
      | some ok => cases ok <;> simp [rsStep, sStep, hch, lStep, h1, h2, h4, ho]
  | report r e =>
    by_cases hk : k = .jwkd
    · exfalso
      subst hk
      refine key n (.fwd (.child .jwkd .send)) (Nat.le_refl n) ⟨rfl, by simp⟩ ?_
      intro m hm
      have h1 := (rs_stays x hon hm hno).1
      have hch := (rs_loop x hon m).1
      rw [hpc] at h1
      by_cases hl : (x.loop .jwkd m).ech.length < echCap <;> simp [rsStep, SAct.own, LAct.own, sStep, hch, lStep, h1, hdead m, hl]
    · refine .inr fun m hm => ⟨_, (rs_loop x hon m).1, full .send rfl (by simp) (by simp) (by simp) ?_ m hm, .inr ⟨hk, r, e, ?_⟩⟩
      · intro m _ h1 h2
        rw [hpc] at h1
        simp [lStep, h1, h2, hk]
      · rw [(rs_stays x hon hm hno).1, hpc]
  | sleeping r e =>
    exfalso
    refine key n (.fwd (.child k .wake)) (Nat.le_refl n) ⟨rfl, by simp⟩ ?_
    intro m hm
    have h1 := (rs_stays x hon hm hno).1
    have hch := (rs_loop x hon m).1
    rw [hpc] at h1
    simp [rsStep, SAct.own, LAct.own, sStep, hch, lStep, h1, hdead m]
  | offer =>
    exfalso
    refine key n (.fwd (.child k .offer)) (Nat.le_refl n) ⟨rfl, by simp⟩ ?_
    intro m hm
    have h1 := (rs_stays x hon hm hno).1
    have hch := (rs_loop x hon m).1
    rw [hpc] at h1
    simp [rsStep, SAct.own, LAct.own, sStep, hch, lStep, h1, hdead m]
  | stopping =>
    refine .inr fun m hm => ⟨_, (rs_loop x hon m).1, full .stop rfl (by simp) (by simp) (by simp) ?_ m hm, .inl ?_⟩
    · intro m _ h1 h2
      rw [hpc] at h1
      simp [lStep, h1, h2]
    · rw [(rs_stays x hon hm hno).1, hpc]

/-- **C80**, exactly what becomes of a child after the cancellation: its goroutine returns, or from some moment on it is blocked for ever with 100
errors in its channel that nobody takes. -/
theorem C80_child (cfg : SysCfg) (ce : Str) (now : Int) (on : LKind → Bool) (x : RsExec cfg ce now on) (k : LKind) (hon : on k = true)
    (hf : StopFair x k) (hw : Works x.sys k) (n0 : Nat) (hc : x.act n0 = .fwd .cancel) :
    (∃ m, ChildGone (x.state m) k) ∨ ∃ m, ∀ m', m ≤ m' → ChildBlocked (x.state m') k := by
  by_cases hx : ∃ m, (x.loop k m).pc = .exited
  · obtain ⟨m, hm⟩ := hx
    exact .inl ⟨m, _, (rs_loop x hon m).1, hm⟩
  have hx : ∀ m, (x.loop k m).pc ≠ .exited := fun m hm => hx ⟨m, hm⟩
  by_cases hrest : ∃ n, n0 + 1 ≤ n ∧ ∀ i, n ≤ i → ¬ OfChild k (x.act i)
  · obtain ⟨n, hn, hno⟩ := hrest
    rcases child_rests x hon hf (rs_returns x k hw) hc hn hno with h | h
    · exact absurd h (hx n)
    · exact .inr ⟨n, h⟩
  exfalso
  -- the next step, from a moment on
  have next : ∀ n, n0 + 1 ≤ n → ∃ m, n ≤ m ∧ OfChild k (x.act m) ∧ (x.loop k m).pc = (x.loop k n).pc := by
    intro n hn
    obtain ⟨m0, hm0, ho⟩ : ∃ m, n ≤ m ∧ OfChild k (x.act m) :=
      Classical.byContradiction fun h => hrest ⟨n, hn, fun i hi ho => h ⟨i, hi, ho⟩⟩
    induction m0 using Nat.strongRecOn with
    | _ m0 ih =>
      by_cases hlt : ∃ j, j < m0 ∧ n ≤ j ∧ OfChild k (x.act j)
      · obtain ⟨j, h1, h2, h3⟩ := hlt; exact ih j h1 h2 h3
      · refine ⟨m0, hm0, ho, ?_⟩
        have : ∀ m, n ≤ m → m ≤ m0 → (x.loop k m).pc = (x.loop k n).pc := by
          intro m hm
          induction hm with
          | refl => intro _; rfl
          | @step m hm ihm =>
            intro hle
            exact ((child_step x hon m).1 fun h => hlt ⟨m, by omega, hm, h⟩).trans (ihm (by omega))
        exact this m0 hm0 (Nat.le_refl _)
  have nostop : ∀ n, n0 + 1 ≤ n → (x.loop k n).pc ≠ .stopping := by
    intro n hn hp
    obtain ⟨m, hm, ho, hpm⟩ := next n hn
    exact hx (m + 1) (((child_step x hon m).2 ho).2.1 (hpm.trans hp))
  have select : ∀ v n, n0 + 1 ≤ n → (x.loop k n).pc.rest k = v → ∃ m, n ≤ m ∧ (x.loop k m).pc = .select := by
    intro v
    induction v using Nat.strongRecOn with
    | _ v ih =>
      intro n hn hv
      by_cases hp : (x.loop k n).pc = .select
      · exact ⟨n, Nat.le_refl n, hp⟩
      obtain ⟨m, hm, ho, hpm⟩ := next n hn
      have hd := (((child_step x hon m).2 ho).2.2.1 (by rw [hpm]; exact nostop n hn) (by rw [hpm]; exact hp)).1
      rw [hpm, hv] at hd
      obtain ⟨m', h1, h2⟩ := ih _ hd (m + 1) (by omega) rfl
      exact ⟨m', by omega, h2⟩
  obtain ⟨m, ha⟩ := hf.stops fun n => by
    obtain ⟨m, hm, hp⟩ := select _ (max n (n0 + 1)) (by omega) rfl
    exact ⟨m, _, by omega, (rs_loop x hon m).1, hp, rs_cancelled x hon hc m (by omega)⟩
  have ho : OfChild k (x.act m) := by rw [ha]; exact ⟨rfl, by simp⟩
  have hst := ((child_step x hon m).2 ho).2.2.2 ha
  -- it stays there until the next step, which is its end
  have stays : ∀ m', m + 1 ≤ m' → (x.loop k m').pc = .stopping := by
    refine from_ind hst ?_
    intro m' _ ih
    by_cases ho' : OfChild k (x.act m')
    · exact absurd (((child_step x hon m').2 ho').2.1 ih) (hx (m' + 1))
    · rw [(child_step x hon m').1 ho', ih]
  exact nostop (max (m + 1) (n0 + 1)) (by omega) (stays _ (by omega))

theorem child_exited (x : RsExec cfg ce now on) {k : LKind} (hon : on k = true) {n : Nat} (h : (x.loop k n).pc = .exited) (m : Nat) (hm : n ≤ m) :
    (x.loop k m).pc = .exited ∧ ¬ OfChild k (x.act m) := by
  have hp : (x.loop k m).pc = .exited := by
    refine from_ind (P := fun m => (x.loop k m).pc = .exited) h ?_ m hm
    intro m _ ih
    rw [(child_step x hon m).1 fun ho => ((child_step x hon m).2 ho).1 ih]
    exact ih
  exact ⟨hp, fun ho => ((child_step x hon m).2 ho).1 hp⟩

/-- **C80**.  When the goroutine of a child has returned it stays so, and calls `Update` no more. -/
theorem C80_gone (cfg : SysCfg) (ce : Str) (now : Int) (on : LKind → Bool) (x : RsExec cfg ce now on) (k : LKind) (hon : on k = true) (n : Nat)
    (h : ChildGone (x.state n) k) (m : Nat) (hm : n ≤ m) : ChildGone (x.state m) k ∧ ∀ r f, x.act m ≠ .call k r f := by
  obtain ⟨c, h1, h2⟩ := h
  have h3 := (rs_loop x hon n).1
  rw [h1] at h3
  obtain rfl := Option.some.inj h3
  obtain ⟨g1, g2⟩ := child_exited x hon h2 m hm
  exact ⟨⟨_, (rs_loop x hon m).1, g1⟩, fun r f ha => g2 (by rw [ha]; rfl)⟩

/-- The error of the last update is still to be sent. -/
def LPc.unsent (k : LKind) : LPc → Nat
  | .report _ _ => 1
  | .sleeping _ _ => if k = .jwkd then 1 else 0
  | _ => 0

theorem countFrom_snoc {P : Nat → Prop} {n d : Nat} : (P (n + d) → countFrom P n (d + 1) = countFrom P n d + 1) ∧
    (¬ P (n + d) → countFrom P n (d + 1) = countFrom P n d) := by
  constructor
  · intro h; simp [countFrom, h]
  · intro h; simp [countFrom, h]

/-- No more errors are sent than updates have failed, but for the last one. -/
theorem sent_le (x : RsExec cfg ce now on) {k : LKind} (hon : on k = true) (n : Nat) :
    (x.loop k n).ech.length + (x.loop k n).pc.unsent k ≤ countFrom (fun m => FailedReturn (x.state m) k (x.act m)) 0 n +
      (if (x.loop k n).pc = .exited then 1 else 0) := by
  induction n with
  | zero =>
    unfold RsExec.loop
    rw [x.init]
    simp [rsInit, sInit, hon, lInit, LPc.unsent]
  | succ n ih =>
    have hcnt := countFrom_snoc (P := fun m => FailedReturn (x.state m) k (x.act m)) (n := 0) (d := n)
    rw [Nat.zero_add] at hcnt
    have hmono : countFrom (fun m => FailedReturn (x.state m) k (x.act m)) 0 n ≤ countFrom (fun m => FailedReturn (x.state m) k (x.act m)) 0 (n + 1) := by
      simp [countFrom]
    have he := (rs_loop x hon n).2.2
    revert he hcnt hmono
    generalize countFrom (fun m => FailedReturn (x.state m) k (x.act m)) 0 (n + 1) = d'
    revert ih
    generalize countFrom (fun m => FailedReturn (x.state m) k (x.act m)) 0 n = d
    generalize x.act n = a
    generalize x.loop k (n + 1) = c'
    generalize x.state (n + 1) = s'
    intro ih hcnt hmono he
    cases he with
    | idle a h1 h2 h0 h3 h4 => rw [h3]; omega
    | own a h1 h2 h3 h4 h5 =>
      have hle := lStep_effect h4
      clear h4
      cases hle <;> simp_all [LPc.unsent, LAct.own] <;> omega
    | cancel h1 h2 => simp only [lStep, Option.some.injEq] at h1; subst h1; simp only; omega
    | take h1 =>
      have hle := lStep_effect h1
      clear h1
      cases hle with
      | recv e es he => rw [he] at ih; simp only [List.length_cons] at ih ⊢; omega
    | closed h1 h3 h4 => rw [h3]; omega
    | call retry fetch h1 h2 =>
      obtain ⟨g1, g2, g3, _⟩ := lStep_sel h1
      rw [g2, g3]
      simp only [g1, LPc.unsent] at ih ⊢
      simp at ih ⊢
      omega
    | ret e i ok h1 h2 h3 h4 =>
      have hle := lStep_effect h3
      clear h3
      cases ok with
      | true => simp only [if_true] at hle; cases hle; simp_all [LPc.unsent]; omega
      | false =>
        have hd := hcnt.1 ⟨e, i, rfl, h1, h2⟩
        clear hcnt hmono
        simp only [Bool.false_eq_true, if_false] at hle
        cases hle <;> simp_all [LPc.unsent] <;> omega

/-- **C80**.  A child of whose updates fewer than 100 fail returns after the cancellation.  Missing: that it returns however many fail (refuted). -/
theorem C80_few_partial (cfg : SysCfg) (ce : Str) (now : Int) (on : LKind → Bool) (x : RsExec cfg ce now on) (k : LKind) (hon : on k = true)
    (hf : StopFair x k) (hw : Works x.sys k) (n0 : Nat) (hc : x.act n0 = .fwd .cancel)
    (hfew : ∀ n, countFrom (fun m => FailedReturn (x.state m) k (x.act m)) 0 n < 100) : ∃ m, ChildGone (x.state m) k := by
  rcases C80_child cfg ce now on x k hon hf hw n0 hc with h | ⟨m, h⟩
  · exact h
  · exfalso
    obtain ⟨c, h1, h2, h3⟩ := h m (Nat.le_refl m)
    have h4 := (rs_loop x hon m).1
    rw [h1] at h4
    obtain rfl := Option.some.inj h4
    have h5 := sent_le x hon m
    have h6 := hfew m
    rcases h3 with h3 | ⟨_, r, e, h3⟩ <;> simp [h3, h2] at h5 <;> omega

/-- **C80**, all together: if of none of the daemons 100 updates fail, some time after the cancellation all goroutines that `Start` began have
returned, they call `Update` no more, and the last item of the channel is the error of the context. -/
theorem C80_all_partial (cfg : SysCfg) (ce : Str) (now : Int) (on : LKind → Bool) (x : RsExec cfg ce now on) (hf : ForwarderFair x) (hr : ChannelRead x)
    (hch : ∀ k, on k = true → StopFair x k ∧ Works x.sys k) (n0 : Nat) (hc : x.act n0 = .fwd .cancel)
    (hfew : ∀ k, on k = true → ∀ n, countFrom (fun m => FailedReturn (x.state m) k (x.act m)) 0 n < 100) :
    ∃ m, ∀ m', m ≤ m' → ForwarderGone (x.state m') ∧ (∀ k, on k = true → ChildGone (x.state m') k ∧ ∀ r f, x.act m' ≠ .call k r f) ∧
      ((x.state m').fwd.read ++ (x.state m').fwd.ech).getLast? = some ce := by
  obtain ⟨mf, hmf⟩ := C80_forwarder cfg ce now on x hf hr n0 hc
  have each : ∀ k, ∃ m, on k = true → ChildGone (x.state m) k := by
    intro k
    by_cases hon : on k = true
    · obtain ⟨m, hm⟩ := C80_few_partial cfg ce now on x k hon (hch k hon).1 (hch k hon).2 n0 hc (hfew k hon)
      exact ⟨m, fun _ => hm⟩
    · exact ⟨0, fun h => absurd h hon⟩
  obtain ⟨m1, h1⟩ := each .policyd
  obtain ⟨m2, h2⟩ := each .pubkeyd
  obtain ⟨m3, h3⟩ := each .jwkd
  refine ⟨max mf (max m1 (max m2 m3)), fun m hm => ?_⟩
  obtain ⟨g1, g2⟩ := (C80_last cfg ce now on x mf hmf).2.2 m (by omega)
  refine ⟨g1, fun k hon => ?_, (C80_last cfg ce now on x m g1).2.1⟩
  cases k with
  | policyd => exact C80_gone cfg ce now on x _ hon m1 (h1 hon) m (by omega)
  | pubkeyd => exact C80_gone cfg ce now on x _ hon m2 (h2 hon) m (by omega)
  | jwkd => exact C80_gone cfg ce now on x _ hon m3 (h3 hon) m (by omega)

/-! ## How many updates are begun -/

/-- A retry is to come. -/
def LPc.retrying : LPc → Nat
  | .report _ _ => 1
  | .sleeping _ _ => 1
  | .offer => 1
  | _ => 0

/-- What is there to begin updates with. -/
def LState.pending (c : LState) : Nat := (if c.tick = true then 1 else 0) + max c.fch c.pc.retrying

theorem pending_le {c : LState} (hf : c.fch ≤ 1) : c.pending ≤ 2 := by
  unfold LState.pending
  have : c.pc.retrying ≤ 1 := by cases c.pc <;> simp [LPc.retrying]
  split <;> omega

theorem pending_own {k : LKind} {c c' : LState} {a : LAct} (h : lStep k ce c a = some c') (ha : a.own = true) (hf : c.fch ≤ 1) :
    c'.pending ≤ c.pending + if a = .tick then 1 else 0 := by
  have hle := lStep_effect h
  clear h
  have hif : ∀ p : Prop, [Decidable p] → (if p then 1 else 0) ≤ 1 := fun p _ => by split <;> omega
  cases hle <;> simp_all [LState.pending, LPc.retrying, LAct.own] <;> (repeat' split) <;> omega

theorem rs_fch (x : RsExec cfg ce now on) {k : LKind} (hon : on k = true) (n : Nat) : (x.loop k n).fch ≤ 1 := by
  induction n with
  | zero =>
    unfold RsExec.loop
    rw [x.init]
    simp [rsInit, sInit, hon, lInit]
  | succ n ih =>
    have he := (rs_loop x hon n).2.2
    revert he
    generalize x.act n = a
    generalize x.loop k (n + 1) = c'
    generalize x.state (n + 1) = s'
    intro he
    have hl : ∀ b, lStep k ce (x.loop k n) b = some c' → c'.fch ≤ 1 := by
      intro b hb
      have hle := lStep_effect hb
      clear hb
      cases hle <;> simp_all <;> split <;> omega
    cases he with
    | idle a h1 h2 h0 h3 h4 => rw [h3]; exact ih
    | own a h1 h2 h3 h4 h5 => exact hl _ h4
    | cancel h1 h2 => exact hl _ h1
    | take h1 => exact hl _ h1
    | closed h1 h3 h4 => rw [h3]; exact ih
    | call retry fetch h1 h2 => exact hl _ h1
    | ret e i ok h1 h2 h3 h4 => exact hl _ h3

/-- **C80**.  From any moment on, so also from the cancellation on, the goroutine of a child begins at most two updates more than its ticker fires
and its updates fail.  Missing: that it begins none (refuted). -/
theorem C80_begun_partial (cfg : SysCfg) (ce : Str) (now : Int) (on : LKind → Bool) (x : RsExec cfg ce now on) (k : LKind) (hon : on k = true) (n d : Nat) :
    countFrom (fun m => ∃ r f, x.act m = .call k r f) n d ≤
      2 + countFrom (fun m => x.act m = .fwd (.child k .tick)) n d + countFrom (fun m => FailedReturn (x.state m) k (x.act m)) n d := by
  have key : countFrom (fun m => ∃ r f, x.act m = .call k r f) n d + (x.loop k (n + d)).pending ≤
      (x.loop k n).pending + countFrom (fun m => x.act m = .fwd (.child k .tick)) n d + countFrom (fun m => FailedReturn (x.state m) k (x.act m)) n d := by
    induction d with
    | zero => simp [countFrom]
    | succ d ih =>
      have h1 := countFrom_snoc (P := fun m => ∃ r f, x.act m = .call k r f) (n := n) (d := d)
      have h2 := countFrom_snoc (P := fun m => x.act m = .fwd (.child k .tick)) (n := n) (d := d)
      have h3 := countFrom_snoc (P := fun m => FailedReturn (x.state m) k (x.act m)) (n := n) (d := d)
      have m2 : countFrom (fun m => x.act m = .fwd (.child k .tick)) n d ≤ countFrom (fun m => x.act m = .fwd (.child k .tick)) n (d + 1) := by simp [countFrom]
      have m3 : countFrom (fun m => FailedReturn (x.state m) k (x.act m)) n d ≤ countFrom (fun m => FailedReturn (x.state m) k (x.act m)) n (d + 1) := by
        simp [countFrom]
      have hfch := rs_fch x hon (n + d)
      have he := (rs_loop x hon (n + d)).2.2
      rw [← Nat.add_assoc]
      revert ih h1 h2 h3 m2 m3 he
      generalize countFrom (fun m => ∃ r f, x.act m = .call k r f) n d = c0
      generalize countFrom (fun m => ∃ r f, x.act m = .call k r f) n (d + 1) = c1
      generalize countFrom (fun m => x.act m = .fwd (.child k .tick)) n d = t0
      generalize countFrom (fun m => x.act m = .fwd (.child k .tick)) n (d + 1) = t1
      generalize countFrom (fun m => FailedReturn (x.state m) k (x.act m)) n d = f0
      generalize countFrom (fun m => FailedReturn (x.state m) k (x.act m)) n (d + 1) = f1
      generalize (x.loop k n).pending = p
      generalize x.act (n + d) = a
      generalize x.loop k (n + d + 1) = c'
      generalize x.state (n + d + 1) = s'
      intro ih h1 h2 h3 m2 m3 he
      cases he with
      | idle a j1 j2 j0 j3 j4 =>
        have e1 := h1.2 (by rintro ⟨r, f, rfl⟩; exact j1 rfl)
        rw [j3, e1]
        omega
      | own a j1 j2 j3 j4 j5 =>
        have e1 := h1.2 (by simp)
        rw [e1]
        have hp := pending_own j4 j1 hfch
        by_cases ht : a = .tick
        · subst ht
          have e2 := h2.1 rfl
          rw [if_pos rfl] at hp
          omega
        · rw [if_neg ht] at hp
          omega
      | cancel j1 j2 =>
        have e1 := h1.2 (by simp)
        simp only [lStep, Option.some.injEq] at j1
        subst j1
        rw [e1]
        simp only [LState.pending] at ih ⊢
        omega
      | take j1 =>
        have e1 := h1.2 (by simp)
        have hle := lStep_effect j1
        clear j1
        cases hle
        rw [e1]
        simp only [LState.pending] at ih ⊢
        omega
      | closed j1 j3 j4 =>
        have e1 := h1.2 (by simp)
        rw [j3, e1]
        omega
      | call retry fetch j1 j2 =>
        have e1 := h1.1 ⟨retry, fetch, rfl⟩
        have hle := lStep_effect j1
        clear j1 h1 h3
        cases retry with
        | true => simp only [if_true] at hle; cases hle; simp_all [LState.pending, LPc.retrying]; omega
        | false => simp only [Bool.false_eq_true, if_false] at hle; cases hle; simp_all [LState.pending, LPc.retrying]; omega
      | ret e i ok j1 j2 j3 j4 =>
        have e1 := h1.2 (by simp)
        have hle := lStep_effect j3
        clear j3 h1
        cases ok with
        | true => simp only [if_true] at hle; cases hle; simp_all [LState.pending, LPc.retrying]; omega
        | false =>
          have e3 := h3.1 ⟨e, i, rfl, j1, j2⟩
          clear h3
          simp only [Bool.false_eq_true, if_false] at hle
          cases hle <;> simp_all [LState.pending, LPc.retrying] <;> omega
  have := pending_le (rs_fch x hon n)
  omega

/-! ## Examples -/

theorem countFrom_le {P : Nat → Prop} {N : Nat} (h : ∀ m, N ≤ m → ¬ P m) (n : Nat) : countFrom P 0 n ≤ N := by
  have h1 : ∀ n, countFrom P 0 n ≤ n := by
    intro n
    induction n with
    | zero => simp [countFrom]
    | succ n ih => simp only [countFrom]; split <;> omega
  induction n with
  | zero => simp [countFrom]
  | succ n ih =>
    by_cases hn : n < N
    · exact Nat.le_trans (h1 (n + 1)) hn
    · rw [countFrom, if_neg (by rw [Nat.zero_add]; exact h n (by omega))]
      exact ih

namespace Ex

/-- A schedule and then nothing. -/
def sdExec {cfg : SysCfg} {ce : Str} {now : Int} {on : LKind → Bool} {pre : List RAct} {s : RSys}
    (hp : rsRun cfg ce (rsInit (sysInit cfg now) on) pre = some s) (hd : s.sys.dead = false) : RsExec cfg ce now on :=
  rsRounds (T := 1) (pre := pre) (round := fun _ _ => .sys (.tick 0)) (st := fun _ _ => s) (by omega) hp
    (fun _ _ _ => by simp [rsStep, hd, sysStep_tick0 hd]) (fun _ => rfl)

section
variable {cfg : SysCfg} {ce : Str} {now : Int} {on : LKind → Bool} {pre : List RAct} {s : RSys}
    (hp : rsRun cfg ce (rsInit (sysInit cfg now) on) pre = some s) (hd : s.sys.dead = false)

theorem sd_state {n : Nat} (hn : pre.length ≤ n) : (sdExec hp hd).state n = s := by
  have := rsRounds_state (T := 1) (pre := pre) (round := fun _ _ => .sys (.tick 0)) (st := fun _ _ => s) (by omega) hp
    (fun _ _ _ => by simp [rsStep, hd, sysStep_tick0 hd]) (fun _ => rfl) (n - pre.length) 0 (by omega)
  rw [show pre.length + (1 * (n - pre.length) + 0) = n by omega] at this
  exact this

theorem sd_act {n : Nat} (hn : pre.length ≤ n) : (sdExec hp hd).act n = .sys (.tick 0) := by
  have := rsRounds_act (T := 1) (pre := pre) (round := fun _ _ => .sys (.tick 0)) (st := fun _ _ => s) (by omega) hp
    (fun _ _ _ => by simp [rsStep, hd, sysStep_tick0 hd]) (fun _ => rfl) (n - pre.length) 0 (by omega)
  rw [show pre.length + (1 * (n - pre.length) + 0) = n by omega] at this
  exact this

theorem sd_early {n : Nat} (hn : n < pre.length) : (sdExec hp hd).act n = pre[n] := rsRounds_early _ hp _ _ hn

/-- At the end the goroutine that passes errors on has returned. -/
theorem sd_forwarder (hx : s.fwd.pc = .exited) : ForwarderFair (sdExec hp hd) := by
  refine ⟨fun n hen => ?_, fun h => ?_⟩
  · exfalso
    obtain ⟨a, ha, hs⟩ := hen (max n pre.length) (by omega)
    rw [sd_state hp hd (by omega)] at hs
    obtain ⟨s', hs⟩ := Option.isSome_iff_exists.mp hs
    cases (rsStep_effect hs).2 with
    | fwd a f hown hf => cases sStep_effect hf <;> simp_all [OfForwarder]
    | _ => exact ha
  · exfalso
    obtain ⟨m, hm, h1, _⟩ := h pre.length
    rw [sd_state hp hd hm, hx] at h1
    simp at h1

theorem sd_read (hx : s.fwd.ech = []) : ChannelRead (sdExec hp hd) := by
  intro n h
  exact absurd (by rw [sd_state hp hd (by omega)]; exact hx) (h (max n pre.length) (by omega))

/-- At the end the goroutine of the child has returned or is blocked. -/
theorem sd_child {k : LKind} {c : LState} (hc : s.fwd.child k = some c) (hx : c.pc = .exited ∨ c.pc = .stopping ∧ c.ech.length = 100) :
    StopFair (sdExec hp hd) k := by
  refine ⟨fun n hen => ?_, fun h => ?_⟩
  · exfalso
    obtain ⟨a, ha, hs⟩ := hen (max n pre.length) (by omega)
    rw [sd_state hp hd (by omega)] at hs
    obtain ⟨s', hs⟩ := Option.isSome_iff_exists.mp hs
    obtain ⟨c', _, he⟩ := childEffect (rsStep_effect hs).2 hc
    have hcap : echCap = 100 := rfl
    cases he with
    | idle a h1 => exact h1 ha
    | own a h1 h2 h3 h4 h5 =>
      have hle := lStep_effect h4
      clear h4
      rcases hx with hx | ⟨hx, hl⟩ <;> cases hle <;> simp_all [OfChild] <;> omega
    | cancel => exact ha
    | take => exact ha
    | closed => exact ha
    | call r f h1 => have := (lStep_sel h1).1; rcases hx with hx | ⟨hx, _⟩ <;> rw [hx] at this <;> simp at this
    | ret e i ok h1 h2 h3 => obtain ⟨r, this⟩ := (lStep_upd h3).1; rcases hx with hx | ⟨hx, _⟩ <;> rw [hx] at this <;> simp at this
  · exfalso
    obtain ⟨m, c', hm, h1, h2, _⟩ := h pre.length
    rw [sd_state hp hd hm, hc] at h1
    obtain rfl := Option.some.inj h1
    rcases hx with hx | ⟨hx, _⟩ <;> rw [hx] at h2 <;> simp at h2

theorem sd_keyFair (h1 : s.sys.pk.jobs = []) (h2 : ∀ b ∈ s.sys.jwk.jobs, b.todo = []) : KeyFair (sdExec hp hd).sys := by
  refine rs_keyFair _ fun n => ⟨max n pre.length, by omega, ?_⟩
  have hs : (sdExec hp hd).sys.state (max n pre.length) = s.sys := congrArg RSys.sys (sd_state hp hd (show pre.length ≤ max n pre.length by omega))
  rw [hs]
  exact ⟨by simp [h1], h2⟩

end

def sdErr : Str := "unreachable".toList

/-- After the cancellation the select takes the case of the ticker.  The update fails; then all return. -/
def sdLate : List RAct := [.fwd (.child .jwkd .tick), .fwd .cancel, .call .jwkd false [], .sys (.jwk (.fetch 0 none)), .ret .jwkd sdErr,
  .fwd (.child .jwkd .wake), .fwd (.child .jwkd .send), .fwd (.child .jwkd .offer), .fwd (.take .jwkd), .fwd .send, .fwd .recv,
  .fwd (.child .jwkd .selDone), .fwd (.child .jwkd .stop), .fwd .selDone, .fwd .stop, .fwd .recv]

theorem sdLate_run : ∃ s, rsRun rwCfg rkCe (rsInit (sysInit rwCfg 0) rwOn) sdLate = some s ∧ (!s.sys.dead && decide (s.fwd.pc = .exited) &&
    decide (s.fwd.ech = []) && (match s.fwd.child .jwkd with | some c => decide (c.pc = .exited) | none => false) && decide (s.sys.pk.jobs.length = 0) &&
    (s.sys.jwk.jobs.all fun b => b.todo.isEmpty)) = true :=
  exists_of_map (by decide +kernel)

theorem rwOn_iff {k : LKind} : rwOn k = true ↔ k = .jwkd := by simp [rwOn]

theorem sdLate_exec : ∃ x : RsExec rwCfg rkCe 0 rwOn, ForwarderFair x ∧ ChannelRead x ∧ (∀ k, rwOn k = true → StopFair x k ∧ Works x.sys k) ∧
    x.act 1 = .fwd .cancel ∧ x.act 2 = .call .jwkd false [] ∧
    ∀ k, rwOn k = true → ∀ n, countFrom (fun m => FailedReturn (x.state m) k (x.act m)) 0 n < 100 := by
  obtain ⟨s, hp, hs⟩ := sdLate_run
  simp only [Bool.and_eq_true, decide_eq_true_eq, List.all_eq_true, List.isEmpty_iff, Bool.not_eq_true', List.length_eq_zero_iff] at hs
  obtain ⟨⟨⟨⟨⟨hd, h1⟩, h2⟩, h3⟩, h4⟩, h5⟩ := hs
  cases hc : s.fwd.child .jwkd with
  | none => rw [hc] at h3; simp at h3
  | some c =>
    rw [hc] at h3
    simp only [decide_eq_true_eq] at h3
    refine ⟨sdExec hp hd, sd_forwarder hp hd h1, sd_read hp hd h2, ?_, sd_early hp hd (by decide), sd_early hp hd (by decide), ?_⟩
    · intro k hk
      obtain rfl := rwOn_iff.mp hk
      exact ⟨sd_child hp hd hc (.inl h3), sd_keyFair hp hd h4 h5⟩
    · intro k hk n
      refine Nat.lt_of_le_of_lt (countFrom_le (N := sdLate.length) (fun m hm => ?_) n) (by decide)
      rintro ⟨e, i, ha, _⟩
      rw [sd_act hp hd hm] at ha
      simp at ha

/-- An update that fails. -/
def sdFail (q : Nat) : List RAct := [.fwd (.child .jwkd .tick), .call .jwkd false [], .sys (.jwk (.fetch q none)), .ret .jwkd sdErr,
  .fwd (.child .jwkd .wake), .fwd (.child .jwkd .send), .fwd (.child .jwkd .offer)]

/-- A hundred updates fail before an error is passed on; then the context is cancelled. -/
def sdLeak : List RAct := (List.range 100).flatMap sdFail ++
  [.fwd .cancel, .fwd (.child .jwkd .selDone), .fwd .selDone, .fwd .stop, .fwd .recv]

theorem sdLeak_run : ∃ s, rsRun rwCfg rkCe (rsInit (sysInit rwCfg 0) rwOn) sdLeak = some s ∧ (!s.sys.dead && decide (s.fwd.pc = .exited) &&
    decide (s.fwd.ech = []) && (match s.fwd.child .jwkd with | some c => decide (c.pc = .stopping) && decide (c.ech.length = 100) | none => false) &&
    decide (s.sys.pk.jobs.length = 0) && (s.sys.jwk.jobs.all fun b => b.todo.isEmpty)) = true :=
  exists_of_map (by decide +kernel)

theorem sd_mem {l1 l2 : List RAct} {m : Nat} (h : l1.length ≤ m) {a : RAct} (ha : (l1 ++ l2)[m]? = some a) : a ∈ l2 := by
  rw [List.getElem?_append_right h] at ha
  exact List.mem_of_getElem? ha

theorem sdLeak_exec : ∃ x : RsExec rwCfg rkCe 0 rwOn, ForwarderFair x ∧ ChannelRead x ∧ (∀ k, rwOn k = true → StopFair x k ∧ Works x.sys k) ∧
    x.act 700 = .fwd .cancel ∧ (∀ m, 705 ≤ m → ForwarderGone (x.state m) ∧ ChildBlocked (x.state m) .jwkd) ∧
    ∀ m, 700 ≤ m → ∀ k r f, x.act m ≠ .call k r f := by
  obtain ⟨s, hp, hs⟩ := sdLeak_run
  simp only [Bool.and_eq_true, decide_eq_true_eq, List.all_eq_true, List.isEmpty_iff, Bool.not_eq_true', List.length_eq_zero_iff] at hs
  obtain ⟨⟨⟨⟨⟨hd, h1⟩, h2⟩, h3⟩, h4⟩, h5⟩ := hs
  have hlen : sdLeak.length = 705 := by decide +kernel
  cases hc : s.fwd.child .jwkd with
  | none => rw [hc] at h3; simp at h3
  | some c =>
    rw [hc] at h3
    simp only [Bool.and_eq_true, decide_eq_true_eq] at h3
    refine ⟨sdExec hp hd, sd_forwarder hp hd h1, sd_read hp hd h2, ?_, ?_, ?_, ?_⟩
    · intro k hk
      obtain rfl := rwOn_iff.mp hk
      exact ⟨sd_child hp hd hc (.inr h3), sd_keyFair hp hd h4 h5⟩
    · rw [sd_early hp hd (by rw [hlen]; omega)]
      have : sdLeak[700]? = some (.fwd .cancel) := by
        have h1 : ((List.range 100).flatMap sdFail).length = 700 := by decide +kernel
        unfold sdLeak
        rw [List.getElem?_append_right (by omega), h1]
        rfl
      rw [List.getElem?_eq_getElem (by rw [hlen]; omega)] at this
      exact Option.some.inj this
    · intro m hm
      rw [sd_state hp hd (by omega)]
      exact ⟨h1, c, hc, h3.2, .inl h3.1⟩
    · intro m hm k r f ha
      by_cases hlt : m < sdLeak.length
      · rw [sd_early hp hd hlt] at ha
        have h1 : ((List.range 100).flatMap sdFail).length = 700 := by decide +kernel
        have hmem := sd_mem (l1 := (List.range 100).flatMap sdFail) (m := m) (h1 ▸ hm) ((List.getElem?_eq_getElem hlt).trans (congrArg some ha))
        simp at hmem
      · rw [sd_act hp hd (by omega)] at ha
        simp at ha

end Ex

/-- **C80** is false: the select can take the case of the ticker or of the failure queue although the context is cancelled, and begin an update. -/
theorem C80_late_refuted : ¬ ∀ (cfg : SysCfg) (ce : Str) (now : Int) (on : LKind → Bool) (x : RsExec cfg ce now on), ForwarderFair x → ChannelRead x →
    (∀ k, on k = true → StopFair x k ∧ Works x.sys k) → ∀ n0, x.act n0 = .fwd .cancel → ∀ m, n0 ≤ m → ∀ k r f, x.act m ≠ .call k r f := by
  intro h
  obtain ⟨x, h1, h2, h3, h4, h5, _⟩ := Ex.sdLate_exec
  exact h _ _ _ _ x h1 h2 h3 1 h4 2 (by omega) _ _ _ h5

/-- **C80** is false also in that all goroutines return: when the goroutine that passes errors on has seen the cancellation it takes no errors any
more, and a child whose channel is full waits for ever to send the error of the context. -/
theorem C80_leak_refuted : ¬ ∀ (cfg : SysCfg) (ce : Str) (now : Int) (on : LKind → Bool) (x : RsExec cfg ce now on), ForwarderFair x → ChannelRead x →
    (∀ k, on k = true → StopFair x k ∧ Works x.sys k) → ∀ n0, x.act n0 = .fwd .cancel → (∀ m, n0 ≤ m → ∀ k r f, x.act m ≠ .call k r f) →
    ∃ m, ForwarderGone (x.state m) ∧ ∀ k, on k = true → ChildGone (x.state m) k := by
  intro h
  obtain ⟨x, h1, h2, h3, h4, h5, h6⟩ := Ex.sdLeak_exec
  obtain ⟨m, _, hm⟩ := h _ _ _ _ x h1 h2 h3 700 h4 h6
  have hon : Ex.rwOn .jwkd = true := by decide
  obtain ⟨⟨c, g1, g2⟩, _⟩ := C80_gone _ _ _ _ x .jwkd hon m (hm _ hon) (max m 705) (by omega)
  obtain ⟨_, c', k1, _, k3⟩ := h5 (max m 705) (by omega)
  rw [g1] at k1
  obtain rfl := Option.some.inj k1
  rcases k3 with k3 | ⟨k3, _⟩
  · rw [g2] at k3; simp at k3
  · exact k3 rfl

theorem C80_refuted : ¬ C80_statement := fun h =>
  C80_late_refuted fun cfg ce now on x h1 h2 h3 n0 h4 => (h cfg ce now on x h1 h2 h3 n0 h4).1

/-- The hypotheses of C80_forwarder, C80_child, C80_few_partial and C80_all_partial are met by an execution with a failed update. -/
example : ∃ x : RsExec Ex.rwCfg Ex.rkCe 0 Ex.rwOn, Ex.rwOn .jwkd = true ∧ ForwarderFair x ∧ ChannelRead x ∧
    (∀ k, Ex.rwOn k = true → StopFair x k ∧ Works x.sys k) ∧ x.act 1 = .fwd .cancel ∧
    (∀ k, Ex.rwOn k = true → ∀ n, countFrom (fun m => FailedReturn (x.state m) k (x.act m)) 0 n < 100) ∧
    ∃ m, ForwarderGone (x.state m) ∧ ChildGone (x.state m) .jwkd := by
  obtain ⟨x, h1, h2, h3, h4, h5, h6⟩ := Ex.sdLate_exec
  obtain ⟨m, hm⟩ := C80_all_partial _ _ _ _ x h1 h2 h3 1 h4 h6
  obtain ⟨g1, g2, _⟩ := hm m (Nat.le_refl m)
  exact ⟨x, by decide, h1, h2, h3, h4, h6, m, g1, (g2 _ (by decide)).1⟩

/-- The second case of C80_child occurs. -/
example : ∃ x : RsExec Ex.rwCfg Ex.rkCe 0 Ex.rwOn, StopFair x .jwkd ∧ Works x.sys .jwkd ∧ x.act 700 = .fwd .cancel ∧ ∀ m, 705 ≤ m → ChildBlocked (x.state m) .jwkd := by
  obtain ⟨x, _, _, h3, h4, h5, _⟩ := Ex.sdLeak_exec
  exact ⟨x, (h3 _ (by decide)).1, (h3 _ (by decide)).2, h4, fun m hm => (h5 m hm).2⟩

end Athenz
