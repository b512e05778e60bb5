import Verif.Spec.Running
import Verif.Proofs.Boot
import Verif.Proofs.Revoke
import Verif.Props.Rotate
import Verif.Props.SystemLoop

/-! # Lemmas for the authorizer that was started -/

namespace Athenz
open Spec

variable {cfg : SysCfg} {ce : Str} {now : Int} {on : LKind → Bool}

/-- What a step does. -/
inductive RsEffect (cfg : SysCfg) (ce : Str) (s : RSys) : RAct → RSys → Prop
  | sys (a : SysAct) (sys' : Sys) : sysStep cfg s.sys a = some sys' → RsEffect cfg ce s (.sys a) { s with sys := sys' }
  | fwd (a : SAct) (f : SState) : a.own = true → sStep ce s.fwd a = some f → RsEffect cfg ce s (.fwd a) { s with fwd := f }
  | call (k : LKind) (retry : Bool) (fetch : List (Option PolicyDoc)) (f : SState) (sys' : Sys) :
      sStep ce s.fwd (.child k (if retry then .selRetry else .selTick)) = some f → sysStep cfg s.sys (k.update fetch) = some sys' →
      RsEffect cfg ce s (.call k retry fetch) ⟨sys', f, fun k' => if k' = k then some (s.sys.nextUpdate k) else s.cur k'⟩
  | ret (k : LKind) (e : Str) (i : Nat) (ok : Bool) (f : SState) : s.cur k = some i → s.sys.updateRet i k = some ok →
      sStep ce s.fwd (.child k (if ok then .updOk else .updFail e)) = some f →
      RsEffect cfg ce s (.ret k e) { s with fwd := f, cur := fun k' => if k' = k then none else s.cur k' }

theorem rsStep_effect {s s' : RSys} {a : RAct} (h : rsStep cfg ce s a = some s') : s.sys.dead = false ∧ RsEffect cfg ce s a s' := by
  unfold rsStep at h
  split at h
  · simp at h
  · rename_i hd
    refine ⟨by simpa using hd, ?_⟩
    cases a with
    | sys a =>
      simp only at h
      split at h
      · simp at h
      · rename_i hs; simp only [Option.some.injEq] at h; subst h; exact .sys a _ hs
    | fwd a =>
      simp only at h
      split at h
      · rename_i hown
        split at h
        · simp at h
        · rename_i f hf; simp only [Option.some.injEq] at h; subst h; exact .fwd a f hown hf
      · simp at h
    | call k retry fetch =>
      simp only at h
      split at h
      · rename_i f sys' hf hs; simp only [Option.some.injEq] at h; subst h; exact .call k retry fetch f sys' hf hs
      · simp at h
    | ret k e =>
      simp only at h
      split at h
      · simp at h
      · rename_i ok hok
        split at h
        · simp at h
        · rename_i f hf
          simp only [Option.some.injEq] at h; subst h
          obtain ⟨i, hi, hr⟩ := Option.bind_eq_some_iff.mp hok
          exact .ret k e i ok f hi hr hf

/-- A step is one of the rest of the system, or none. -/
theorem rs_next (x : RsExec cfg ce now on) (n : Nat) : sysStep cfg (x.state n).sys (x.act n).proj = some (x.state (n + 1)).sys := by
  obtain ⟨hd, he⟩ := rsStep_effect (x.next n)
  revert he
  generalize x.act n = a
  generalize x.state (n + 1) = s'
  intro he
  cases he with
  | sys a sys' hs => exact hs
  | fwd => exact sysStep_tick0 hd
  | call k retry fetch f sys' hf hs => exact hs
  | ret => exact sysStep_tick0 hd

/-- The execution without the goroutines of `Start`. -/
def Spec.RsExec.sys (x : RsExec cfg ce now on) : SysExec cfg now where
  state := fun n => (x.state n).sys
  act := fun n => (x.act n).proj
  init := by rw [x.init]; rfl
  next := rs_next x

/-- What a step means for the goroutine of the child `k`, whose state was `c` and is `c'` afterwards. -/
inductive ChildEffect (ce : Str) (k : LKind) (s s' : RSys) (c c' : LState) : RAct → Prop
  | idle (a : RAct) : ¬ OfChild k a → a ≠ .fwd (.take k) → a ≠ .fwd (.child k .tick) → c' = c → s'.cur k = s.cur k → ChildEffect ce k s s' c c' a
  | own (a : LAct) : a.own = true → a ≠ .recv → a ≠ .cancel → lStep k ce c a = some c' → s'.cur k = s.cur k →
      ChildEffect ce k s s' c c' (.fwd (.child k a))
  | cancel : lStep k ce c .cancel = some c' → s'.cur k = s.cur k → ChildEffect ce k s s' c c' (.fwd .cancel)
  | take : lStep k ce c .recv = some c' → s'.cur k = s.cur k → ChildEffect ce k s s' c c' (.fwd (.take k))
  | closed : c.pc = .exited → c' = c → s'.cur k = s.cur k → ChildEffect ce k s s' c c' (.fwd (.take k))
  | call (retry : Bool) (fetch : List (Option PolicyDoc)) : lStep k ce c (if retry then .selRetry else .selTick) = some c' →
      s'.cur k = some (s.sys.nextUpdate k) → ChildEffect ce k s s' c c' (.call k retry fetch)
  | ret (e : Str) (i : Nat) (ok : Bool) : s.cur k = some i → s.sys.updateRet i k = some ok →
      lStep k ce c (if ok then .updOk else .updFail e) = some c' → s'.cur k = none → ChildEffect ce k s s' c c' (.ret k e)

/-- A step of one child is none of another. -/
theorem sStep_child {s f : SState} {k : LKind} {a : LAct} (h : sStep ce s (.child k a) = some f) :
    ∃ c c', s.child k = some c ∧ lStep k ce c a = some c' ∧ f = s.setChild k c' ∧ a ≠ .recv ∧ a ≠ .cancel := by
  cases sStep_effect h with
  | child _ _ c c' h1 h2 h3 h4 => exact ⟨c, c', h3, h4, rfl, h1, h2⟩

theorem childEffect {s s' : RSys} {a : RAct} (he : RsEffect cfg ce s a s') {k : LKind} {c : LState} (hc : s.fwd.child k = some c) :
    ∃ c', s'.fwd.child k = some c' ∧ ChildEffect ce k s s' c c' a := by
  cases he with
  | sys a sys' => exact ⟨c, hc, .idle _ (fun h => h) (by simp) (by simp) rfl rfl⟩
  | fwd a f hown hf =>
    cases sStep_effect hf with
    | child k' b d d' h1 h2 h3 h4 =>
      by_cases hk : k' = k
      · subst hk
        rw [hc] at h3
        obtain rfl := Option.some.inj h3
        exact ⟨d', by simp [setChild_child], .own b hown h1 h2 h4 rfl⟩
      · exact ⟨c, by simp [setChild_child, Ne.symm hk, hc], .idle _ (fun h => hk h.1) (by simp) (by simpa using fun h => absurd h hk) rfl rfl⟩
    | cancel => exact ⟨{ c with cancelled := true }, by simp [hc], .cancel rfl rfl⟩
    | take k' d e es h1 h2 h3 =>
      by_cases hk : k' = k
      · subst hk
        rw [hc] at h2
        obtain rfl := Option.some.inj h2
        exact ⟨{ c with ech := es, read := c.read ++ [e] }, by simp [setChild_child], .take (by simp [lStep, h3]) rfl⟩
      · refine ⟨c, by simp [setChild_child, Ne.symm hk, hc], .idle _ (fun h => h) ?_ (by simp) rfl rfl⟩
        simpa using hk
    | closed k' d h1 h2 h3 h4 =>
      by_cases hk : k' = k
      · subst hk
        rw [hc] at h2
        obtain rfl := Option.some.inj h2
        exact ⟨c, hc, .closed h4 rfl rfl⟩
      · refine ⟨c, hc, .idle _ (fun h => h) ?_ (by simp) rfl rfl⟩
        simpa using hk
    | send => exact ⟨c, hc, .idle _ (fun h => h) (by simp) (by simp) rfl rfl⟩
    | selDone => exact ⟨c, hc, .idle _ (fun h => h) (by simp) (by simp) rfl rfl⟩
    | stop => exact ⟨c, hc, .idle _ (fun h => h) (by simp) (by simp) rfl rfl⟩
    | recv => exact ⟨c, hc, .idle _ (fun h => h) (by simp) (by simp) rfl rfl⟩
  | call k' retry fetch f sys' hf hs =>
    obtain ⟨d, d', h1, h2, rfl, _, _⟩ := sStep_child hf
    by_cases hk : k' = k
    · subst hk
      rw [hc] at h1
      obtain rfl := Option.some.inj h1
      exact ⟨d', by simp [setChild_child], .call retry fetch h2 (by simp)⟩
    · exact ⟨c, by simp [setChild_child, Ne.symm hk, hc], .idle _ (fun h => hk h) (by simp) (by simp) rfl (by simp [Ne.symm hk])⟩
  | ret k' e i ok f hi hr hf =>
    obtain ⟨d, d', h1, h2, rfl, _, _⟩ := sStep_child hf
    by_cases hk : k' = k
    · subst hk
      rw [hc] at h1
      obtain rfl := Option.some.inj h1
      exact ⟨d', by simp [setChild_child], .ret e i ok hi hr h2 (by simp)⟩
    · exact ⟨c, by simp [setChild_child, Ne.symm hk, hc], .idle _ (fun h => hk h) (by simp) (by simp) rfl (by simp [Ne.symm hk])⟩

/-- What is true of the goroutine of a child at every time: it is in a call of `Update` exactly if `cur` names one, and the channel is no larger than
its capacity. -/
structure ChildInv (k : LKind) (s : RSys) (c : LState) : Prop where
  cur : ∀ i, s.cur k = some i → ∃ r, c.pc = .updating r
  busy : ∀ r, c.pc = .updating r → s.cur k ≠ none
  cap : c.ech.length ≤ echCap
  live : c.cancelled = false → c.pc ≠ .stopping ∧ c.pc ≠ .exited

theorem lStep_sel {k : LKind} {c c' : LState} {retry : Bool} (h : lStep k ce c (if retry then .selRetry else .selTick) = some c') :
    c.pc = .select ∧ c'.pc = .updating retry ∧ c'.ech = c.ech ∧ c'.cancelled = c.cancelled := by
  have hle := lStep_effect h
  cases retry with
  | true => simp only [if_true] at hle; cases hle; simp_all
  | false => simp only [Bool.false_eq_true, if_false] at hle; cases hle; simp_all

theorem lStep_upd {k : LKind} {c c' : LState} {ok : Bool} {e : Str} (h : lStep k ce c (if ok then .updOk else .updFail e) = some c') :
    (∃ r, c.pc = .updating r) ∧ (∀ r, c'.pc ≠ .updating r) ∧ c'.ech = c.ech ∧ c'.cancelled = c.cancelled ∧ c'.pc ≠ .stopping ∧ c'.pc ≠ .exited := by
  have hle := lStep_effect h
  cases ok with
  | true => simp only [if_true] at hle; cases hle; simp_all
  | false => simp only [Bool.false_eq_true, if_false] at hle; cases hle <;> simp_all

theorem childInv_step {k : LKind} {s s' : RSys} {c c' : LState} {a : RAct} (he : ChildEffect ce k s s' c c' a) (ih : ChildInv k s c) :
    ChildInv k s' c' := by
  have hlp : ∀ b, b.own = true → lStep k ce c b = some c' → s'.cur k = s.cur k → ChildInv k s' c' := by
    intro b hown hl hcur
    have hpc : (∀ r, c'.pc = .updating r ↔ c.pc = .updating r) ∧ c'.ech.length ≤ echCap ∧
        (c'.cancelled = false → c'.pc ≠ .stopping ∧ c'.pc ≠ .exited) := by
      have hc := ih.cap
      have hlv := ih.live
      have hle := lStep_effect hl
      clear hl
      cases hle <;> simp_all [LAct.own] <;> omega
    refine ⟨fun i hi => ?_, fun r hr => by rw [hcur]; exact ih.busy r ((hpc.1 r).mp hr), hpc.2.1, hpc.2.2⟩
    obtain ⟨r, h⟩ := ih.cur i (hcur ▸ hi)
    exact ⟨r, (hpc.1 r).mpr h⟩
  cases he with
  | idle a h1 h2 h0 h3 h4 => subst h3; exact ⟨fun i hi => ih.cur i (h4 ▸ hi), fun r hr => h4 ▸ ih.busy r hr, ih.cap, ih.live⟩
  | own a h1 h2 h3 h4 h5 => exact hlp a h1 h4 h5
  | cancel h1 h2 => exact hlp _ rfl h1 h2
  | take h1 h2 => exact hlp _ rfl h1 h2
  | closed h1 h3 h4 => subst h3; exact ⟨fun i hi => ih.cur i (h4 ▸ hi), fun r hr => h4 ▸ ih.busy r hr, ih.cap, ih.live⟩
  | call retry fetch h1 h2 =>
    obtain ⟨_, g2, g3, _⟩ := lStep_sel h1
    exact ⟨fun i hi => ⟨retry, g2⟩, fun r _ => by rw [h2]; simp, by rw [g3]; exact ih.cap, fun _ => by rw [g2]; simp⟩
  | ret e i ok h1 h2 h3 h4 =>
    obtain ⟨_, g2, g3, _, g5⟩ := lStep_upd h3
    exact ⟨fun i hi => by rw [h4] at hi; simp at hi, fun r hr => absurd hr (g2 r), by rw [g3]; exact ih.cap, fun _ => g5⟩

/-- The goroutine of a child that was started is there. -/
theorem rs_child (x : RsExec cfg ce now on) {k : LKind} (hon : on k = true) (n : Nat) :
    ∃ c, (x.state n).fwd.child k = some c ∧ ChildInv k (x.state n) c := by
  induction n with
  | zero =>
    rw [x.init]
    exact ⟨lInit, by simp [rsInit, sInit, hon], fun i h => by simp [rsInit] at h, fun r h => by simp [lInit] at h, by simp [lInit], fun _ => by simp [lInit]⟩
  | succ n ih =>
    obtain ⟨c, hc, hi⟩ := ih
    obtain ⟨c', hc', he⟩ := childEffect (rsStep_effect (x.next n)).2 hc
    exact ⟨c', hc', childInv_step he hi⟩

/-- The state of the goroutine of a child. -/
def Spec.RsExec.loop (x : RsExec cfg ce now on) (k : LKind) (n : Nat) : LState := ((x.state n).fwd.child k).getD lInit

theorem rs_loop (x : RsExec cfg ce now on) {k : LKind} (hon : on k = true) (n : Nat) :
    (x.state n).fwd.child k = some (x.loop k n) ∧ ChildInv k (x.state n) (x.loop k n) ∧
    ChildEffect ce k (x.state n) (x.state (n + 1)) (x.loop k n) (x.loop k (n + 1)) (x.act n) := by
  obtain ⟨c, hc, hi⟩ := rs_child x hon n
  have h1 : x.loop k n = c := by unfold RsExec.loop; rw [hc]; rfl
  obtain ⟨c', hc', he⟩ := childEffect (rsStep_effect (x.next n)).2 hc
  have h2 : x.loop k (n + 1) = c' := by unfold RsExec.loop; rw [hc']; rfl
  rw [h1, h2]
  exact ⟨hc, hi, he⟩

theorem rs_notCancelled (x : RsExec cfg ce now on) (hns : Uncancelled x) {k : LKind} (hon : on k = true) (n : Nat) : (x.loop k n).cancelled = false := by
  induction n with
  | zero =>
    unfold RsExec.loop
    rw [x.init]
    simp [rsInit, sInit, hon, lInit]
  | succ n ih =>
    obtain ⟨_, _, he⟩ := rs_loop x hon n
    have hc := hns n
    revert he hc
    generalize x.act n = a
    generalize x.loop k (n + 1) = c'
    generalize x.state (n + 1) = s'
    intro he hc
    cases he with
    | idle a h1 h2 h0 h3 h4 => rw [h3]; exact ih
    | own a h1 h2 h3 h4 h5 =>
      have hle := lStep_effect h4
      clear h4
      cases hle <;> simp_all
    | cancel => exact absurd rfl hc
    | take h1 => have hle := lStep_effect h1; clear h1; cases hle; exact ih
    | closed h1 h3 h4 => rw [h3]; exact ih
    | call retry fetch h1 h2 => rw [(lStep_sel h1).2.2.2]; exact ih
    | ret e i ok h1 h2 h3 h4 => rw [(lStep_upd h3).2.2.2.1]; exact ih

/-- If the goroutine does nothing it stays where it is. -/
theorem rs_stays (x : RsExec cfg ce now on) {k : LKind} (hon : on k = true) {n m : Nat} (h : n ≤ m) (hno : ∀ i, n ≤ i → ¬ OfChild k (x.act i)) :
    (x.loop k m).pc = (x.loop k n).pc ∧ (x.state m).cur k = (x.state n).cur k ∧
    ((x.loop k n).tick = true → (x.loop k m).tick = true) ∧ (x.loop k m).ech.length ≤ (x.loop k n).ech.length := by
  refine from_ind (P := fun m => (x.loop k m).pc = (x.loop k n).pc ∧ (x.state m).cur k = (x.state n).cur k ∧
    ((x.loop k n).tick = true → (x.loop k m).tick = true) ∧ (x.loop k m).ech.length ≤ (x.loop k n).ech.length) (by simp) ?_ m h
  intro m hm ih
  obtain ⟨_, _, he⟩ := rs_loop x hon m
  have hd := hno m hm
  revert he hd
  generalize x.act m = a
  generalize x.loop k (m + 1) = c'
  generalize x.state (m + 1) = s'
  intro he hd
  obtain ⟨i1, i2, i3, i4⟩ := ih
  cases he with
  | idle a h1 h2 h0 h3 h4 => rw [h3, h4]; exact ⟨i1, i2, i3, i4⟩
  | own a h1 h2 h3 h4 h5 =>
    have : a = .tick := Classical.byContradiction fun h => hd ⟨rfl, h⟩
    subst this
    simp only [lStep, Option.some.injEq] at h4
    subst h4
    rw [h5]
    exact ⟨i1, i2, fun _ => rfl, i4⟩
  | cancel h1 h2 => simp only [lStep, Option.some.injEq] at h1; subst h1; rw [h2]; exact ⟨i1, i2, i3, i4⟩
  | take h1 h2 =>
    have hle := lStep_effect h1
    clear h1
    cases hle with
    | recv e es he => rw [h2]; rw [he] at i4; simp only [List.length_cons] at i4; exact ⟨i1, i2, i3, by simp only; omega⟩
  | closed h1 h3 h4 => rw [h3, h4]; exact ⟨i1, i2, i3, i4⟩
  | call => exact absurd rfl hd
  | ret => exact absurd rfl hd

/-! ## The goroutine that passes errors on -/

theorem rs_fwd (x : RsExec cfg ce now on) (n : Nat) :
    (∃ a, x.act n = .fwd a ∧ SEffect ce (x.state n).fwd a (x.state (n + 1)).fwd) ∨
    ((x.state (n + 1)).fwd.pc = (x.state n).fwd.pc ∧ (x.state (n + 1)).fwd.ech = (x.state n).fwd.ech ∧
      (x.state (n + 1)).fwd.cancelled = (x.state n).fwd.cancelled ∧ ∀ a, x.act n ≠ .fwd a) := by
  have he := (rsStep_effect (x.next n)).2
  revert he
  generalize x.act n = a
  generalize x.state (n + 1) = s'
  intro he
  cases he with
  | sys => exact .inr ⟨rfl, rfl, rfl, by simp⟩
  | fwd a f hown hf => exact .inl ⟨a, rfl, sStep_effect hf⟩
  | call k retry fetch f sys' hf hs =>
    obtain ⟨_, _, _, _, rfl, _, _⟩ := sStep_child hf
    exact .inr ⟨rfl, rfl, rfl, by simp⟩
  | ret k e i ok f hi hr hf =>
    obtain ⟨_, _, _, _, rfl, _, _⟩ := sStep_child hf
    exact .inr ⟨rfl, rfl, rfl, by simp⟩

theorem rs_fwdInv (x : RsExec cfg ce now on) (hns : Uncancelled x) (n : Nat) :
    (x.state n).fwd.cancelled = false ∧ (x.state n).fwd.ech.length ≤ fwdCap ∧ (x.state n).fwd.pc ≠ .stopping ∧ (x.state n).fwd.pc ≠ .exited := by
  induction n with
  | zero => rw [x.init]; simp [rsInit, sInit]
  | succ n ih =>
    obtain ⟨i1, i2, i3, i4⟩ := ih
    rcases rs_fwd x n with ⟨a, ha, he⟩ | ⟨h1, h2, h3, _⟩
    · have hc := hns n
      rw [ha] at hc
      revert he
      generalize (x.state (n + 1)).fwd = f
      intro he
      cases he with
      | child k a c c' h1 h2 h3 h4 => exact ⟨i1, i2, i3, i4⟩
      | cancel => exact absurd rfl hc
      | take k c e es h1 h2 h3 => exact ⟨i1, i2, by simp, by simp⟩
      | closed k c h1 h2 h3 h4 => exact ⟨i1, i2, i3, i4⟩
      | send k e h1 h2 => exact ⟨i1, by simp; omega, by simp, by simp⟩
      | selDone h1 h2 => rw [i1] at h2; simp at h2
      | stop h1 h2 => exact absurd h1 i3
      | recv e es h1 => rw [h1] at i2; exact ⟨i1, by simp at i2 ⊢; omega, i3, i4⟩
    · rw [h1, h2, h3]; exact ⟨i1, i2, i3, i4⟩

/-- The goroutine comes back to its select. -/
theorem rs_select (x : RsExec cfg ce now on) (hns : Uncancelled x) (hr : ErrorsRead x) (n : Nat) : ∃ m, n ≤ m ∧ (x.state m).fwd.pc = .select := by
  refine Classical.byContradiction fun hno => ?_
  have hno' : ∀ m, n ≤ m → (x.state m).fwd.pc ≠ .select := fun m hm hc => hno ⟨m, hm, hc⟩
  have hold : ∀ m, n ≤ m → ∃ k e, (x.state m).fwd.pc = .holding k e := by
    intro m hm
    cases hp : (x.state m).fwd.pc with
    | select => exact absurd hp (hno' m hm)
    | holding k e => exact ⟨k, e, rfl⟩
    | stopping => exact absurd hp (rs_fwdInv x hns m).2.2.1
    | exited => exact absurd hp (rs_fwdInv x hns m).2.2.2
  have nosend : ∀ m, n ≤ m → x.act m ≠ .fwd .send := by
    intro m hm ha
    have h' := hno' (m + 1) (by omega)
    rcases rs_fwd x m with ⟨a, ha', he⟩ | ⟨_, _, _, h⟩
    · rw [ha] at ha'
      obtain rfl := RAct.fwd.inj ha'
      revert he h'
      generalize (x.state (m + 1)).fwd = f
      intro h' he
      cases he
      exact h' rfl
    · exact h _ ha
  have keep : ∀ m, n ≤ m → (x.state m).fwd.ech.length < fwdCap → ∀ m', m ≤ m' → (x.state m').fwd.ech.length < fwdCap := by
    intro m hm hl
    refine from_ind hl ?_
    intro m' hm' ih
    rcases rs_fwd x m' with ⟨a, ha, he⟩ | ⟨_, h2, _⟩
    · have hs := nosend m' (by omega)
      have hp := hno' m' (by omega)
      have hv := (rs_fwdInv x hns m').2.2
      rw [ha] at hs
      revert he
      generalize (x.state (m' + 1)).fwd = f
      intro he
      cases he with
      | child k a c c' h1 h2 h3 h4 => exact ih
      | cancel => exact ih
      | take k c e es h1 h2 h3 => exact ih
      | closed k c h1 h2 h3 h4 => exact ih
      | send k e h1 h2 => exact absurd rfl hs
      | selDone h1 h2 => exact ih
      | stop h1 h2 => exact absurd h1 hv.1
      | recv e es h1 => rw [h1] at ih; simp at ih ⊢; omega
    · rw [h2]; exact ih
  have hdead : ∀ m, (x.state m).sys.dead = false := fun m => (rsStep_effect (x.next m)).1
  have full : ∀ m, n ≤ m → fwdCap ≤ (x.state m).fwd.ech.length := by
    intro m hm
    refine Nat.le_of_not_lt fun hl => ?_
    obtain ⟨m', hm', ha⟩ := hr.sends m fun m' hm' => by
      obtain ⟨k, e, hp⟩ := hold m' (by omega)
      have hk := keep m hm hl m' hm'
      simp [rsStep, hdead m', SAct.own, sStep, hp, hk]
    exact nosend m' (by omega) ha
  obtain ⟨m, hm, ha⟩ := hr.reads n fun m hm hc => by
    have := full m hm
    rw [hc] at this
    exact absurd this (by decide)
  have hle := (rs_fwdInv x hns m).2.1
  have hge := full (m + 1) (by omega)
  rcases rs_fwd x m with ⟨a, ha', he⟩ | ⟨_, _, _, h⟩
  · rw [ha] at ha'
    obtain rfl := RAct.fwd.inj ha'
    revert he hge
    generalize (x.state (m + 1)).fwd = f
    intro hge he
    cases he with
    | recv e' es hs =>
      rw [hs] at hle
      simp only [List.length_cons] at hle
      simp only at hge
      omega
  · exact h _ ha

/-- What stays in the channel of a child is taken. -/
theorem rs_taken (x : RsExec cfg ce now on) (hns : Uncancelled x) (hr : ErrorsRead x) {k : LKind} (hon : on k = true) (n : Nat)
    (h : ∀ m, n ≤ m → (x.loop k m).ech ≠ []) : ∃ m, n ≤ m ∧ x.act m = .fwd (.take k) := by
  refine hr.choice k (fun N => ?_) n
  obtain ⟨m, hm, hp⟩ := rs_select x hns hr (max N n)
  exact ⟨m, by omega, hp, _, (rs_loop x hon m).1, h m (by omega)⟩

/-! ## The goroutine of a child goes on -/

/-- The calls of `Update` of the goroutine return. -/
def CallsReturn (x : RsExec cfg ce now on) (k : LKind) : Prop :=
  ∀ n i, (x.state n).cur k = some i → ∃ m, n ≤ m ∧ ∀ m', m ≤ m' → (x.state m').sys.updateRet i k ≠ none

theorem sysStep_update {s : Sys} (hd : s.dead = false) (hb : s.pd.crashed = false ∧ s.pk.crashed = false) (k : LKind) :
    (sysStep cfg s (k.update (List.replicate cfg.domains.length none))).isSome := by
  cases k with
  | policyd => simp [LKind.update, sysStep, sysPd, pdStep, hd, hb.1]
  | pubkeyd => simp [LKind.update, sysStep, pkStep, hd, hb.2]
  | jwkd => simp [LKind.update, sysStep, jwkStep, hd]

theorem rs_moves (x : RsExec cfg ce now on) {k : LKind} (hon : on k = true) (hl : ChildFair x k) (hrd : k ≠ .jwkd → ErrorsRead x)
    (hns : Uncancelled x) (hret : CallsReturn x k) (n : Nat) : ∃ m, n ≤ m ∧ OfChild k (x.act m) := by
  refine Classical.byContradiction fun hno => ?_
  have hno : ∀ i, n ≤ i → ¬ OfChild k (x.act i) := fun i hi ho => hno ⟨i, hi, ho⟩
  have key : ∀ (n' : Nat) (a : RAct), n ≤ n' → OfChild k a → (∀ m, n' ≤ m → (rsStep cfg ce (x.state m) a).isSome) → False := by
    intro n' a hn' ha hen
    obtain ⟨m, hm, ho⟩ := hl.goes n' (fun m hm => ⟨a, ha, hen m hm⟩)
    exact hno m (by omega) ho
  have hdead : ∀ m, (x.state m).sys.dead = false := fun m => (rsStep_effect (x.next m)).1
  obtain ⟨_, hinv, _⟩ := rs_loop x hon n
  have hlive := hinv.live (rs_notCancelled x hns hon n)
  cases hpc : (x.loop k n).pc with
  | select =>
    obtain ⟨m0, hm0, hat⟩ := hl.ticks n
    have ht : (x.loop k (m0 + 1)).tick = true := by
      have he := (rs_loop x hon m0).2.2
      rw [hat] at he
      revert he
      generalize x.loop k (m0 + 1) = c'
      generalize x.state (m0 + 1) = s'
      intro he
      cases he with
      | idle a h1 h2 h0 => exact absurd rfl h0
      | own a h1 h2 h3 h4 h5 => simp only [lStep, Option.some.injEq] at h4; subst h4; rfl
    refine key (m0 + 1) (.call k false (List.replicate cfg.domains.length none)) (by omega) rfl ?_
    intro m hm
    have h1 := (rs_stays x hon (show n ≤ m by omega) hno).1
    have h2 := (rs_stays x hon hm (fun i hi => hno i (by omega))).2.2.1 ht
    have h3 := (sysRuns_run (SysExec.run x.sys m)).1.alive (SysExec.alive x.sys m)
    have hc := (rs_loop x hon m).1
    rw [hpc] at h1
    have h4 := hdead m
    obtain ⟨s1, hs1⟩ := Option.isSome_iff_exists.mp (sysStep_update (cfg := cfg) h4 ⟨h3.2.1, h3.1⟩ k)
    simp [rsStep, h4, sStep, hc, lStep, h1, h2, hs1]
  | updating r =>
    cases hc : (x.state n).cur k with
    | none => exact hinv.busy r hpc hc
    | some i =>
      obtain ⟨m0, hm0, hr⟩ := hret n i hc
      refine key m0 (.ret k []) hm0 rfl ?_
      intro m hm
      obtain ⟨h1, h2, _⟩ := rs_stays x hon (show n ≤ m by omega) hno
      rw [hpc] at h1
      rw [hc] at h2
      have h4 := hdead m
      have hch := (rs_loop x hon m).1
      cases ho : (x.state m).sys.updateRet i k with
      | none => exact absurd ho (hr m hm)
      | some ok => cases ok <;> simp [rsStep, sStep, hch, lStep, h1, h2, h4, ho]
  | report r e =>
    by_cases hk : k = .jwkd
    · subst hk
      refine key n (.fwd (.child .jwkd .send)) (Nat.le_refl n) ⟨rfl, by simp⟩ ?_
      intro m hm
      have h1 := (rs_stays x hon hm hno).1
      have hch := (rs_loop x hon m).1
      rw [hpc] at h1
      by_cases hl : (x.loop .jwkd m).ech.length < echCap <;> simp [rsStep, SAct.own, LAct.own, sStep, hch, lStep, h1, hdead m, hl]
    · have room : ∀ m0, n ≤ m0 → ¬ (x.loop k m0).ech.length < echCap := by
        intro m0 hm0 hlt
        refine key m0 (.fwd (.child k .send)) hm0 ⟨rfl, by simp⟩ ?_
        intro m hm
        have h1 := (rs_stays x hon (show n ≤ m by omega) hno).1
        have h2 := (rs_stays x hon hm (fun i hi => hno i (by omega))).2.2.2
        have hch := (rs_loop x hon m).1
        rw [hpc] at h1
        have h3 : (x.loop k m).ech.length < echCap := by omega
        simp [rsStep, SAct.own, LAct.own, sStep, hch, lStep, h1, h3, hdead m, hk]
      obtain ⟨m, hm, ha⟩ := rs_taken x hns (hrd hk) hon n (fun m hm h => room m hm (by rw [h]; simp [echCap]))
      obtain ⟨_, hi, he⟩ := rs_loop x hon m
      refine room (m + 1) (by omega) ?_
      have hnx := (hi.live (rs_notCancelled x hns hon m)).2
      have hcap := hi.cap
      rw [ha] at he
      revert he
      generalize x.loop k (m + 1) = c'
      generalize x.state (m + 1) = s'
      intro he
      cases he with
      | idle a h1 h2 => exact absurd rfl h2
      | take h1 =>
        have hle := lStep_effect h1
        clear h1
        cases hle with
        | recv e es he => rw [he] at hcap; simp only [List.length_cons] at hcap; exact hcap
      | closed h1 => exact absurd h1 hnx
  | sleeping r e =>
    refine key n (.fwd (.child k .wake)) (Nat.le_refl n) ⟨rfl, by simp⟩ ?_
    intro m hm
    have h1 := (rs_stays x hon hm hno).1
    have hch := (rs_loop x hon m).1
    rw [hpc] at h1
    simp [rsStep, SAct.own, LAct.own, sStep, hch, lStep, h1, hdead m]
  | offer =>
    refine key n (.fwd (.child k .offer)) (Nat.le_refl n) ⟨rfl, by simp⟩ ?_
    intro m hm
    have h1 := (rs_stays x hon hm hno).1
    have hch := (rs_loop x hon m).1
    rw [hpc] at h1
    simp [rsStep, SAct.own, LAct.own, sStep, hch, lStep, h1, hdead m]
  | stopping => exact hlive.1 hpc
  | exited => exact hlive.2 hpc

end Athenz
