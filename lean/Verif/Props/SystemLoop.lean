import Verif.Spec.SystemLoop
import Verif.Props.Withdraw
import Verif.Proofs.Loop

/-! # C75: once started, the policy daemon keeps the policies up to date by itself -/

namespace Athenz
open Spec

/-- No time passes. -/
theorem sysStep_tick0 {cfg : SysCfg} {s : Sys} (h : s.dead = false) : sysStep cfg s (.tick 0) = some s := by
  obtain ⟨auth, pk, jwk, pd, fs, doms, waits, checkOf, dead⟩ := s
  simp only at h
  subst h
  simp [sysStep]

/-- A step is one of the rest of the system, or none. -/
theorem ls_next {cfg : SysCfg} {ce : Str} {now : Int} (x : LsExec cfg ce now) :
    ∀ n, sysStep cfg (x.state n).sys (x.act n).proj = some (x.state (n + 1)).sys := by
  intro n
  have h := x.next n
  unfold lsStep at h
  split at h
  · simp at h
  · rename_i hd
    have hd : (x.state n).sys.dead = false := by simpa using hd
    generalize x.state (n + 1) = s' at h
    cases ha : x.act n with
    | sys a =>
      simp only [ha] at h
      split at h
      · simp at h
      · rename_i s1 hs
        simp only [Option.some.injEq] at h
        subst h
        exact hs
    | loop a =>
      simp only [ha] at h
      split at h
      · split at h
        · simp at h
        · simp only [Option.some.injEq] at h
          subst h
          exact sysStep_tick0 hd
      · simp at h
    | call retry fetch =>
      simp only [ha] at h
      split at h
      · rename_i s1 hs
        simp only [Option.some.injEq] at h
        subst h
        exact hs
      · simp at h
    | ret e =>
      simp only [ha] at h
      split at h
      · simp at h
      · split at h
        · simp at h
        · simp only [Option.some.injEq] at h
          subst h
          exact sysStep_tick0 hd

/-- The execution without the goroutine. -/
def Spec.LsExec.sys {cfg : SysCfg} {ce : Str} {now : Int} (x : LsExec cfg ce now) : SysExec cfg now where
  state := fun n => (x.state n).sys
  act := fun n => (x.act n).proj
  init := by rw [x.init]; rfl
  next := ls_next x

/-- What a step does with the goroutine. -/
inductive LsEffect (ce : Str) (s : LSys) : LsAct → LSys → Prop
  | sys (a : SysAct) (sys' : Sys) : LsEffect ce s (.sys a) { s with sys := sys' }
  | loop (a : LAct) (l : LState) : a.own = true → lStep .policyd ce s.loop a = some l → LsEffect ce s (.loop a) { s with loop := l }
  | call (retry : Bool) (fetch : List (Option PolicyDoc)) (l : LState) (sys' : Sys) :
      lStep .policyd ce s.loop (if retry then .selRetry else .selTick) = some l →
      LsEffect ce s (.call retry fetch) ⟨sys', l, some s.sys.pd.tasks.length⟩
  | ret (e : Str) (i : Nat) (t : Task) (ok : Bool) (l : LState) : s.cur = some i → s.sys.pd.tasks[i]? = some t → t.ret = some ok →
      lStep .policyd ce s.loop (if ok then .updOk else .updFail e) = some l → LsEffect ce s (.ret e) { s with loop := l, cur := none }

theorem lsStep_effect {cfg : SysCfg} {ce : Str} {s s' : LSys} {a : LsAct} (h : lsStep cfg ce s a = some s') : LsEffect ce s a s' := by
  unfold lsStep at h
  split at h
  · simp at h
  · cases a with
    | sys a =>
      simp only at h
      split at h
      · simp at h
      · simp only [Option.some.injEq] at h; subst h; exact .sys a _
    | loop a =>
      simp only at h
      split at h
      · rename_i hown
        split at h
        · simp at h
        · rename_i l hl
          simp only [Option.some.injEq] at h; subst h; exact .loop a l hown hl
      · simp at h
    | call retry fetch =>
      simp only at h
      split at h
      · rename_i l sys' hl hs
        simp only [Option.some.injEq] at h; subst h; exact .call retry fetch l sys' hl
      · simp at h
    | ret e =>
      simp only at h
      split at h
      · simp at h
      · rename_i ok hok
        split at h
        · simp at h
        · rename_i l hl
          simp only [Option.some.injEq] at h; subst h
          simp only [Option.bind_eq_some_iff] at hok
          obtain ⟨t, ⟨i, hi, ht⟩, hret⟩ := hok
          exact .ret e i t ok l hi ht hret hl

theorem sysUpdate_task {cfg : SysCfg} {s s' : Sys} {fetch : List (Option PolicyDoc)} (hs : sysStep cfg s (.pd (.update fetch)) = some s') :
    ∃ t, s'.pd.tasks[s.pd.tasks.length]? = some t ∧ t.isUpdate = true := by
  obtain ⟨_, he⟩ := sysStep_effect hs
  cases he with
  | pd a pd' D F W ha hp hD hF hbr =>
    unfold pdStep at hp
    split at hp
    · simp at hp
    · simp only [Option.some.injEq] at hp
      subst hp
      exact ⟨⟨s.pd.objs.length, true, false, fetch.map .start, none⟩, by simp, rfl⟩

/-- What is true of the goroutine at every time: it is in a call of `Update` exactly if `cur` names one, and the channel is no larger than its
capacity. -/
structure LsInv (s : LSys) : Prop where
  cur : ∀ i, s.cur = some i → ∃ r t, s.loop.pc = .updating r ∧ s.sys.pd.tasks[i]? = some t ∧ t.isUpdate = true
  busy : ∀ r, s.loop.pc = .updating r → s.cur ≠ none
  cap : s.loop.ech.length ≤ echCap
  live : s.loop.cancelled = false → s.loop.pc ≠ .stopping ∧ s.loop.pc ≠ .exited

theorem lsInv {cfg : SysCfg} {ce : Str} {now : Int} (x : LsExec cfg ce now) (n : Nat) : LsInv (x.state n) := by
  induction n with
  | zero =>
    rw [x.init]
    exact ⟨fun i h => by simp [lsInit] at h, fun r h => by simp [lsInit, lInit] at h, by simp [lsInit, lInit], fun _ => by simp [lsInit, lInit]⟩
  | succ n ih =>
    have he := lsStep_effect (x.next n)
    have hsys : ∀ (i : Nat) (t : Task), (x.state n).sys.pd.tasks[i]? = some t → t.isUpdate = true →
        ∃ t', (x.state (n + 1)).sys.pd.tasks[i]? = some t' ∧ t'.isUpdate = true := by
      intro i t ht hu
      obtain ⟨t', h1, h2, _⟩ := sysStep_task (x.sys.next n) ht
      exact ⟨t', h1, h2.trans hu⟩
    have hnew : ∀ retry fetch, x.act n = .call retry fetch →
        ∃ t, (x.state (n + 1)).sys.pd.tasks[(x.state n).sys.pd.tasks.length]? = some t ∧ t.isUpdate = true := by
      intro retry fetch ha
      have := x.sys.next n
      change sysStep cfg (x.state n).sys (x.act n).proj = some (x.state (n + 1)).sys at this
      rw [ha] at this
      exact sysUpdate_task this
    revert hsys hnew he
    generalize x.act n = a
    generalize x.state (n + 1) = s'
    intro he hsys hnew
    cases he with
    | sys a sys' =>
      refine ⟨fun i hi => ?_, ih.busy, ih.cap, ih.live⟩
      obtain ⟨r, t, h1, h2, h3⟩ := ih.cur i hi
      obtain ⟨t', h4, h5⟩ := hsys i t h2 h3
      exact ⟨r, t', h1, h4, h5⟩
    | loop a l hown hl =>
      have hpc : (∀ r, l.pc = .updating r ↔ (x.state n).loop.pc = .updating r) ∧ l.ech.length ≤ echCap ∧
          (l.cancelled = false → l.pc ≠ .stopping ∧ l.pc ≠ .exited) := by
        have hc := ih.cap
        have hlv := ih.live
        have hle := lStep_effect hl
        clear hl
        cases hle <;> simp_all [LAct.own] <;> omega
      refine ⟨fun i hi => ?_, fun r hr => ih.busy r ((hpc.1 r).mp hr), hpc.2.1, hpc.2.2⟩
      obtain ⟨r, t, h1, h2, h3⟩ := ih.cur i hi
      exact ⟨r, t, (hpc.1 r).mpr h1, h2, h3⟩
    | call retry fetch l sys' hl =>
      obtain ⟨t, ht, hu⟩ := hnew retry fetch rfl
      have hpc : l.pc = .updating retry ∧ l.ech = (x.state n).loop.ech := by
        have hle := lStep_effect hl
        clear hl
        cases retry with
        | true => simp only [if_true] at hle; cases hle; exact ⟨rfl, rfl⟩
        | false => simp only [Bool.false_eq_true, if_false] at hle; cases hle; exact ⟨rfl, rfl⟩
      refine ⟨fun i hi => ?_, fun r _ => by simp, by rw [hpc.2]; exact ih.cap, fun _ => by rw [hpc.1]; simp⟩
      simp only [Option.some.injEq] at hi
      subst hi
      exact ⟨retry, t, hpc.1, ht, hu⟩
    | ret e i t ok l hi ht hr hl =>
      have hpc : (∀ r, l.pc ≠ .updating r) ∧ l.ech = (x.state n).loop.ech ∧ l.pc ≠ .stopping ∧ l.pc ≠ .exited := by
        have hle := lStep_effect hl
        clear hl
        cases ok with
        | true => simp only [if_true] at hle; cases hle; simp
        | false =>
          simp only [Bool.false_eq_true, if_false] at hle
          cases hle with
          | failJwk r e h hk => simp at hk
          | fail r e h hk => simp
      exact ⟨fun i h => by simp at h, fun r hr => absurd hr (hpc.1 r), by rw [hpc.2.1]; exact ih.cap, fun _ => hpc.2.2⟩

/-- **C75**.  The goroutine is in one call of `Update` at most: when it makes a call, the one before has returned. -/
theorem C75_serial (cfg : SysCfg) (ce : Str) (now : Int) (x : LsExec cfg ce now) (n m : Nat) (hnm : n < m) (r r' : Bool)
    (f f' : List (Option PolicyDoc)) (hn : x.act n = .call r f) (hm : x.act m = .call r' f') :
    ∃ t, (x.state m).sys.pd.tasks[(x.state n).sys.pd.tasks.length]? = some t ∧ t.ret ≠ none := by
  have key : ∀ d, (x.state (n + 1 + d)).cur = some (x.state n).sys.pd.tasks.length ∨
      ∃ t, (x.state (n + 1 + d)).sys.pd.tasks[(x.state n).sys.pd.tasks.length]? = some t ∧ t.ret ≠ none := by
    intro d
    induction d with
    | zero =>
      left
      have he := lsStep_effect (x.next n)
      rw [hn] at he
      simp only [Nat.add_zero]
      generalize x.state (n + 1) = s' at he
      cases he; rfl
    | succ d ih =>
      rw [show n + 1 + (d + 1) = n + 1 + d + 1 by omega]
      rcases ih with hc | ⟨t, ht, hr⟩
      · have he := lsStep_effect (x.next (n + 1 + d))
        have hst : ∀ (i : Nat) (t : Task), (x.state (n + 1 + d)).sys.pd.tasks[i]? = some t → t.ret ≠ none →
            ∃ t', (x.state (n + 1 + d + 1)).sys.pd.tasks[i]? = some t' ∧ t'.ret ≠ none := by
          intro i t ht hr
          obtain ⟨t', h1, _, _, h2⟩ := sysStep_task (x.sys.next (n + 1 + d)) ht
          exact ⟨t', h1, by rw [h2 hr]; exact hr⟩
        have hinv := lsInv x (n + 1 + d)
        revert he hst
        generalize x.act (n + 1 + d) = a
        generalize x.state (n + 1 + d + 1) = s'
        intro he hst
        cases he with
        | sys => exact .inl hc
        | loop => exact .inl hc
        | call retry fetch l sys' hl =>
          exfalso
          obtain ⟨r, t, h1, _⟩ := hinv.cur _ hc
          have hle := lStep_effect hl
          clear hl
          cases retry with
          | true => simp only [if_true] at hle; cases hle; simp_all
          | false => simp only [Bool.false_eq_true, if_false] at hle; cases hle; simp_all
        | ret e i t ok l hi ht hr hl =>
          rw [hc] at hi
          obtain rfl := Option.some.inj hi
          exact .inr ⟨t, ht, by rw [hr]; simp⟩
      · obtain ⟨t', h1, _, _, h2⟩ := sysStep_task (x.sys.next (n + 1 + d)) ht
        exact .inr ⟨t', h1, by rw [h2 hr]; exact hr⟩
  obtain ⟨d, rfl⟩ := Nat.exists_eq_add_of_le (show n + 1 ≤ m by omega)
  rcases key d with hc | h
  · exfalso
    obtain ⟨r, t, h1, _⟩ := (lsInv x (n + 1 + d)).cur _ hc
    have he := lsStep_effect (x.next (n + 1 + d))
    rw [hm] at he
    generalize x.state (n + 1 + d + 1) = s' at he
    cases he with
    | call retry fetch l sys' hl =>
      have hle := lStep_effect hl
      clear hl
      cases r' with
      | true => simp only [if_true] at hle; cases hle; simp_all
      | false => simp only [Bool.false_eq_true, if_false] at hle; cases hle; simp_all
  · exact h

theorem ls_notCancelled {cfg : SysCfg} {ce : Str} {now : Int} (x : LsExec cfg ce now) (hns : NotStopped x) (n : Nat) :
    (x.state n).loop.cancelled = false := by
  induction n with
  | zero => rw [x.init]; rfl
  | succ n ih =>
    have he := lsStep_effect (x.next n)
    have hc := hns n
    revert he hc
    generalize x.act n = a
    generalize x.state (n + 1) = s'
    intro he hc
    cases he with
    | sys => exact ih
    | loop a l hown hl =>
      have hle := lStep_effect hl
      clear hl
      cases hle <;> simp_all
    | call retry fetch l sys' hl =>
      have hle := lStep_effect hl
      clear hl
      cases retry with
      | true => simp only [if_true] at hle; cases hle; exact ih
      | false => simp only [Bool.false_eq_true, if_false] at hle; cases hle; exact ih
    | ret e i t ok l hi ht hr hl =>
      have hle := lStep_effect hl
      clear hl
      cases ok with
      | true => simp only [if_true] at hle; cases hle; exact ih
      | false => simp only [Bool.false_eq_true, if_false] at hle; cases hle <;> exact ih

/-- If the goroutine does nothing it stays where it is. -/
theorem ls_stays {cfg : SysCfg} {ce : Str} {now : Int} (x : LsExec cfg ce now) {n m : Nat} (h : n ≤ m)
    (hno : ∀ k, n ≤ k → ¬ OfLoop (x.act k)) :
    (x.state m).loop.pc = (x.state n).loop.pc ∧ (x.state m).cur = (x.state n).cur ∧
    ((x.state n).loop.tick = true → (x.state m).loop.tick = true) ∧ (x.state m).loop.ech.length ≤ (x.state n).loop.ech.length := by
  obtain ⟨d, rfl⟩ := Nat.exists_eq_add_of_le h
  clear h
  induction d with
  | zero => simp
  | succ d ih =>
    have he := lsStep_effect (x.next (n + d))
    have hd := hno (n + d) (by omega)
    rw [show n + (d + 1) = n + d + 1 by omega]
    revert he hd
    generalize x.act (n + d) = a
    generalize x.state (n + d + 1) = s'
    intro he hd
    cases he with
    | sys => exact ih
    | loop a l hown hl =>
      have hle := lStep_effect hl
      clear hl
      obtain ⟨h1, h2, h3, h4⟩ := ih
      cases hle with
      | tick => exact ⟨h1, h2, fun _ => rfl, h4⟩
      | cancel => exact ⟨h1, h2, h3, h4⟩
      | recv e es he => rw [he] at h4; simp only [List.length_cons] at h4; exact ⟨h1, h2, h3, by simp only; omega⟩
      | _ => simp_all [OfLoop, LAct.own]
    | call => exact absurd trivial hd
    | ret => exact absurd trivial hd

theorem ls_moves (cfg : SysCfg) (ce : Str) (now : Int) (x : LsExec cfg ce now) (hl : LsFair x) (hrd : Reads x) (hns : NotStopped x)
    (hf : UpdFair x.sys) (hfore : Foretold x.sys) (n : Nat) : ∃ m, n ≤ m ∧ OfLoop (x.act m) := by
  apply Classical.byContradiction
  intro hno
  have hno : ∀ k, n ≤ k → ¬ OfLoop (x.act k) := fun k hk ho => hno ⟨k, hk, ho⟩
  -- a step that is possible from some time on is one too many
  have key : ∀ (n' : Nat) (a : LsAct), n ≤ n' → OfLoop a → (∀ m, n' ≤ m → (lsStep cfg ce (x.state m) a).isSome) → False := by
    intro n' a hn' ha hen
    obtain ⟨m, hm, ho⟩ := hl.loop n' (fun m hm => ⟨a, ha, hen m hm⟩)
    exact hno m (by omega) ho
  have hdead : ∀ m, (x.state m).sys.dead = false := fun m => SysExec.alive x.sys m
  have hinv := lsInv x n
  have hlive := hinv.live (ls_notCancelled x hns n)
  cases hpc : (x.state n).loop.pc with
  | select =>
    obtain ⟨m0, hm0, hat⟩ := hl.ticks n
    have ht : (x.state (m0 + 1)).loop.tick = true := by
      have he := lsStep_effect (x.next m0)
      rw [hat] at he
      generalize x.state (m0 + 1) = s' at he
      cases he with
      | loop a l hown hl => have hle := lStep_effect hl; clear hl; cases hle; rfl
    refine key (m0 + 1) (.call false (List.replicate cfg.domains.length none)) (by omega) trivial ?_
    intro m hm
    have h1 := (ls_stays x (show n ≤ m by omega) hno).1
    have h2 := (ls_stays x hm (fun k hk => hno k (by omega))).2.2.1 ht
    have h3 := (SysExec.base x.sys m).1
    change (x.state m).sys.pd.crashed = false at h3
    rw [hpc] at h1
    have h4 := hdead m
    simp [lsStep, lStep, sysStep, sysPd, pdStep, h1, h2, h3, h4]
  | updating r =>
    cases hc : (x.state n).cur with
    | none => exact hinv.busy r hpc hc
    | some i =>
      obtain ⟨_, t, _, ht, hu⟩ := hinv.cur i hc
      obtain ⟨m0, t', hm0, ht', hu', _, hret⟩ := C72_update_returns cfg now x.sys hf hfore n i t ht
      have hret := hret (hu'.trans hu)
      refine key m0 (.ret []) hm0 trivial ?_
      intro m hm
      obtain ⟨t2, g1, _, g2⟩ := ret_stays x.sys hm ht'
      have g2 := g2 hret
      change (x.state m).sys.pd.tasks[i]? = some t2 at g1
      obtain ⟨h1, h2, _⟩ := ls_stays x (show n ≤ m by omega) hno
      rw [hpc] at h1
      rw [hc] at h2
      have h4 := hdead m
      cases ho : t'.ret with
      | none => exact absurd ho hret
      | some ok =>
        rw [ho] at g2
        cases ok <;> simp [lsStep, lStep, h1, h2, h4, g1, g2]
  | report r e =>
    have room : ∀ m0, n ≤ m0 → ¬ (x.state m0).loop.ech.length < echCap := by
      intro m0 hm0 hlt
      refine key m0 (.loop .send) hm0 trivial ?_
      intro m hm
      have h1 := (ls_stays x (show n ≤ m by omega) hno).1
      have h2 := (ls_stays x hm (fun k hk => hno k (by omega))).2.2.2
      rw [hpc] at h1
      have h3 : (x.state m).loop.ech.length < echCap := by omega
      have h4 := hdead m
      simp [lsStep, lStep, LAct.own, h1, h3, h4]
    obtain ⟨m, hm, ha⟩ := hrd n (fun m hm h => room m hm (by rw [h]; simp [echCap]))
    have he := lsStep_effect (x.next m)
    have hcap := (lsInv x m).cap
    refine room (m + 1) (by omega) ?_
    rw [ha] at he
    generalize x.state (m + 1) = s' at he
    cases he with
    | loop a l hown hl =>
      have hle := lStep_effect hl
      clear hl
      cases hle with
      | recv e es he => rw [he] at hcap; simp only [List.length_cons] at hcap; exact hcap
  | sleeping r e =>
    refine key n (.loop .wake) (Nat.le_refl n) trivial ?_
    intro m hm
    have h1 := (ls_stays x hm hno).1
    rw [hpc] at h1
    simp [lsStep, lStep, LAct.own, h1, hdead m]
  | offer =>
    refine key n (.loop .offer) (Nat.le_refl n) trivial ?_
    intro m hm
    have h1 := (ls_stays x hm hno).1
    rw [hpc] at h1
    simp [lsStep, lStep, LAct.own, h1, hdead m]
  | stopping => exact hlive.1 hpc
  | exited => exact hlive.2 hpc

/-- How far the goroutine is from its `select`. -/
def LPc.far : LPc → Nat
  | .select => 0
  | .offer => 1
  | .sleeping _ _ => 2
  | .report _ _ => 3
  | .updating _ => 4
  | .stopping => 0
  | .exited => 0

/-- **C75**.  The goroutine calls `Update` again and again. -/
theorem C75_again (cfg : SysCfg) (ce : Str) (now : Int) (x : LsExec cfg ce now) (hl : LsFair x) (hrd : Reads x) (hns : NotStopped x)
    (hf : UpdFair x.sys) (hfore : Foretold x.sys) (n : Nat) : ∃ m retry fetch, n ≤ m ∧ x.act m = .call retry fetch := by
  apply Classical.byContradiction
  intro hno
  have hno : ∀ k, n ≤ k → ∀ r f, x.act k ≠ .call r f := fun k hk r f h => hno ⟨k, r, f, hk, h⟩
  have down : ∀ k, n ≤ k → (x.state (k + 1)).loop.pc.far ≤ (x.state k).loop.pc.far ∧
      (OfLoop (x.act k) → (x.state (k + 1)).loop.pc.far < (x.state k).loop.pc.far) := by
    intro k hk
    have he := lsStep_effect (x.next k)
    have hd := hno k hk
    have hcan := ls_notCancelled x hns k
    have hlive := (lsInv x k).live hcan
    revert he hd
    generalize x.act k = a
    generalize x.state (k + 1) = s'
    intro he hd
    cases he with
    | sys => exact ⟨Nat.le_refl _, fun h => h.elim⟩
    | loop a l hown hl =>
      have hle := lStep_effect hl
      clear hl
      cases hle <;> simp_all [OfLoop, LAct.own, LPc.far]
    | call => exact absurd rfl (hd _ _)
    | ret e i t ok l hi ht hr hl =>
      have hle := lStep_effect hl
      clear hl
      cases ok with
      | true => simp only [if_true] at hle; cases hle; simp_all [LPc.far]
      | false => simp only [Bool.false_eq_true, if_false] at hle; cases hle <;> simp_all [LPc.far]
  have downs : ∀ d k, n ≤ k → (x.state (k + d)).loop.pc.far ≤ (x.state k).loop.pc.far := by
    intro d k hk
    induction d with
    | zero => exact Nat.le_refl _
    | succ d ih => exact Nat.le_trans (down (k + d) (by omega)).1 ih
  have : ∀ v k, n ≤ k → (x.state k).loop.pc.far = v → False := by
    intro v
    induction v using Nat.strongRecOn with
    | _ v ih =>
      intro k hk hv
      obtain ⟨m, hm, ho⟩ := ls_moves cfg ce now x hl hrd hns hf hfore k
      have h1 := (down m (by omega)).2 ho
      obtain ⟨d, rfl⟩ := Nat.exists_eq_add_of_le hm
      have h2 := downs d k hk
      exact ih _ (by omega) (k + d + 1) (by omega) rfl
  exact this _ n (Nat.le_refl n) rfl

theorem ls_updates {cfg : SysCfg} {ce : Str} {now : Int} {x : LsExec cfg ce now}
    (h : ∀ n, ∃ m retry fetch, n ≤ m ∧ x.act m = .call retry fetch) (n : Nat) : ∃ m fetch, n ≤ m ∧ x.sys.act m = .pd (.update fetch) := by
  obtain ⟨m, retry, fetch, hm, ha⟩ := h n
  refine ⟨m, fetch, hm, ?_⟩
  change (x.act m).proj = _
  rw [ha]; rfl

/-- **C75**.  Nobody but the goroutine has to call `Update`: with new policies on the server these are in force some time later, and stay so. -/
theorem C75_takes_effect (cfg : SysCfg) (ce : Str) (now : Int) (hR : 0 ≤ cfg.fetch.retryAttempts)
    (x : LsExec cfg ce now) (hl : LsFair x) (hrd : Reads x) (hns : NotStopped x) (hf : UpdFair x.sys) (hfore : Foretold x.sys) (N : Nat)
    (D : List PolicyDoc) (hD : NewPolicies x.sys N D) :
    ∃ M, N ≤ M ∧ ∀ m, M ≤ m → InForce cfg (sysInit cfg now) (x.sys.hist m) (x.state m).sys (D.map some) ∧
      ∀ docs, InForce cfg (sysInit cfg now) (x.sys.hist m) (x.state m).sys docs → docs = D.map some :=
  C72_takes_effect cfg now hR x.sys hf hfore N D hD (ls_updates (C75_again cfg ce now x hl hrd hns hf hfore))

/-- **C75**, of `CheckPolicy`: the part with C72. -/
theorem C75_check_partial (cfg : SysCfg) (ce : Str) (now : Int) (hnow : 0 ≤ now)
    (hR : 0 ≤ cfg.fetch.retryAttempts) (x : LsExec cfg ce now) (hl : LsFair x) (hrd : Reads x) (hns : NotStopped x) (hf : UpdFair x.sys)
    (hfore : Foretold x.sys) (N : Nat) (D : List PolicyDoc) (hD : NewPolicies x.sys N D) :
    ∃ M, N ≤ M ∧ ∀ m k c r, M ≤ m → (x.state M).sys.pd.checks.length ≤ k → (x.state m).sys.pd.checks[k]? = some c → c.cs.coll = .ret r →
      (∀ role ∈ c.q.roles,
        RegularAt cfg.auth.U (D.map some) now (x.state m).sys.auth.now (x.state m).sys.auth.now (c.q.domain ++ ":role.".toList ++ role)) →
      Decision cfg.auth.U (allAssertions (D.map some)) c.q r :=
  C72_check_partial cfg now hnow hR x.sys hf hfore N D hD (ls_updates (C75_again cfg ce now x hl hrd hns hf hfore))

namespace Ex

/-- How much of `chExec` has happened before step `n`. -/
def lpAt (n : Nat) : Nat := if n < chLen then n else chLen + (8 * ((n - chLen) / 10) + ((n - chLen) % 10 - 1))

/-- `Init` first; then the ticker, the goroutine calls `Update`, which goes on as in `chExec`, and returns to the goroutine. -/
def lpRound (j : Nat) : Nat → LsAct
  | 0 => .loop .tick
  | 1 => .call false [some chDoc]
  | 9 => .ret []
  | r => .sys (chStep (1 + j) (r - 1))

def lpAct (n : Nat) : LsAct := if n < chLen then .sys (chAct n) else lpRound ((n - chLen) / 10) ((n - chLen) % 10)

def lpLoop : Nat → LState
  | 0 => lInit
  | 1 => { lInit with tick := true }
  | _ => { lInit with pc := .updating false }

def lpStates (n : Nat) : LSys :=
  if n < chLen then lsInit (chStates n)
  else { sys := chStates (lpAt n), loop := lpLoop ((n - chLen) % 10),
         cur := if (n - chLen) % 10 < 2 then none else some (1 + (n - chLen) / 10) }

theorem lpAt_late (j r : Nat) (hr : r < 10) : lpAt (chLen + (10 * j + r)) = chLen + (8 * j + (r - 1)) := by
  unfold lpAt
  rw [if_neg (by omega)]
  omega

theorem lpAct_late (j r : Nat) (hr : r < 10) : lpAct (chLen + (10 * j + r)) = lpRound j r := by
  unfold lpAct
  rw [if_neg (by omega), show chLen + (10 * j + r) - chLen = 10 * j + r by omega, show (10 * j + r) / 10 = j by omega,
    show (10 * j + r) % 10 = r by omega]

theorem lpStates_late (j r : Nat) (hr : r < 10) : lpStates (chLen + (10 * j + r)) =
    { sys := chStates (chLen + (8 * j + (r - 1))), loop := lpLoop r, cur := if r < 2 then none else some (1 + j) } := by
  unfold lpStates
  rw [if_neg (by omega), lpAt_late j r hr, show chLen + (10 * j + r) - chLen = 10 * j + r by omega, show (10 * j + r) / 10 = j by omega,
    show (10 * j + r) % 10 = r by omega]

theorem lpLate {n : Nat} (h : chLen ≤ n) : ∃ j r, r < 10 ∧ n = chLen + (10 * j + r) :=
  ⟨(n - chLen) / 10, (n - chLen) % 10, Nat.mod_lt _ (by omega), by omega⟩

theorem lpRet (j : Nat) : ∃ t, (chStates (chLen + (8 * j + 8))).pd.tasks[1 + j]? = some t ∧ t.ret = some true := by
  have hs := chStage (j + 1) 0 (by omega)
  rw [show 8 * (j + 1) + 0 = 8 * j + 8 by omega] at hs
  obtain ⟨_, _, _, ⟨T, h4, h5, h6⟩, _⟩ := hs
  rw [List.append_nil] at h4
  obtain ⟨t, ht⟩ := getElem?_of_lt (l := T) (i := 1 + j) (by omega)
  have hup : t.isUpdate = true := by
    obtain ⟨o, ⟨_, _, _, ⟨T', g4, g5, _⟩, _⟩, _⟩ := chStage j 7 (by omega)
    obtain ⟨t', e1, e2, _⟩ := ret_stays chExec (show chLen + (8 * j + 7) ≤ chLen + (8 * j + 8) by omega) (i := 1 + j) (t := ⟨o, true, false, [.done none], none⟩)
      (by show (chStates _).pd.tasks[_]? = _; rw [g4, ← g5]; simp)
    change (chStates _).pd.tasks[_]? = _ at e1
    rw [h4, ht] at e1
    obtain rfl := Option.some.inj e1
    exact e2
  have hne := (Task.left_zero (h6 t (List.mem_of_getElem? ht))).2 hup
  cases hr : t.ret with
  | none => exact absurd hr hne
  | some ok =>
    obtain ⟨_, _, _, ⟨T0, g4, g5, _⟩, _⟩ := chFirst
    have := newTask_ret (x := chExec) (chNew.yields (by decide)) (m := chLen + (8 * j + 8)) (by omega) (i := 1 + j)
      (by show (chStates chLen).pd.tasks.length ≤ _; rw [g4, List.append_nil, g5]; omega) (by show (chStates _).pd.tasks[_]? = _; rw [h4]; exact ht) hr
    subst this
    exact ⟨t, by rw [h4]; exact ht, hr⟩

theorem lpNext : ∀ n, lsStep chCfg "context canceled".toList (lpStates n) (lpAct n) = some (lpStates (n + 1)) := by
  intro n
  by_cases hn : n < chLen
  · have hs := chExec.next n
    change sysStep chCfg (chStates n) (chAct n) = some (chStates (n + 1)) at hs
    have hd := SysExec.alive chExec n
    change (chStates n).dead = false at hd
    have h1 : lpStates n = lsInit (chStates n) := if_pos hn
    have h2 : lpAct n = .sys (chAct n) := if_pos hn
    have h3 : lpStates (n + 1) = lsInit (chStates (n + 1)) := by
      by_cases hn' : n + 1 < chLen
      · exact if_pos hn'
      · have e : n + 1 = chLen := by omega
        rw [e]
        exact lpStates_late 0 0 (by omega)
    rw [h1, h2, h3]
    simp [lsStep, lsInit, hd, hs]
  · obtain ⟨j, r, hr, rfl⟩ := lpLate (Nat.le_of_not_lt hn)
    rw [lpAct_late j r hr, lpStates_late j r hr]
    have hd := SysExec.alive chExec (chLen + (8 * j + (r - 1)))
    change (chStates (chLen + (8 * j + (r - 1)))).dead = false at hd
    have hnext : ∀ q, q < 8 → sysStep chCfg (chStates (chLen + (8 * j + q))) (chStep (1 + j) q) = some (chStates (chLen + (8 * j + (q + 1)))) := by
      intro q hq
      have := chExec.next (chLen + (8 * j + q))
      change sysStep chCfg (chStates _) (chAct _) = some (chStates _) at this
      rw [chAct_late j q hq] at this
      exact this
    have mid : ∀ q, 1 ≤ q → q < 8 → r = q + 1 → lsStep chCfg "context canceled".toList
        { sys := chStates (chLen + (8 * j + (r - 1))), loop := lpLoop r, cur := if r < 2 then none else some (1 + j) } (lpRound j r) =
        some (lpStates (chLen + (10 * j + r) + 1)) := by
      intro q hq1 hq hrq
      subst hrq
      rw [show chLen + (10 * j + (q + 1)) + 1 = chLen + (10 * j + (q + 2)) by omega, lpStates_late j (q + 2) (by omega)]
      have e : lpRound j (q + 1) = .sys (chStep (1 + j) q) := by
        unfold lpRound
        split
        · omega
        · omega
        · omega
        · rfl
      have e2 : lpLoop (q + 1) = lpLoop (q + 2) := by
        unfold lpLoop
        split
        · omega
        · omega
        · split
          · omega
          · omega
          · rfl
      have hn := hnext q hq
      have hd' : (chStates (chLen + (8 * j + q))).dead = false := hd
      simp only [e, lsStep, show q + 1 - 1 = q by omega, show q + 2 - 1 = q + 1 by omega, hd', hn, e2,
        show ¬ (q + 1 < 2) by omega, show ¬ (q + 2 < 2) by omega]
      simp
    match r, hr with
    | 0, _ =>
      rw [show chLen + (10 * j + 0) + 1 = chLen + (10 * j + 1) by omega, lpStates_late j 1 (by omega)]
      have hd' : (chStates (chLen + (8 * j + 0))).dead = false := hd
      simp only [lpRound, lsStep, lpLoop, lStep, LAct.own, show 0 - 1 = 0 by omega, hd']
      rfl
    | 1, _ =>
      rw [show chLen + (10 * j + 1) + 1 = chLen + (10 * j + 2) by omega, lpStates_late j 2 (by omega)]
      have hd' : (chStates (chLen + (8 * j + 0))).dead = false := hd
      have hn := hnext 0 (by omega)
      have hlen : (chStates (chLen + (8 * j + 0))).pd.tasks.length = 1 + j := by
        obtain ⟨_, _, _, ⟨T, h4, h5, _⟩, _⟩ := chStage j 0 (by omega)
        rw [h4, List.append_nil, h5]
      change sysStep chCfg _ (.pd (.update [some chDoc])) = _ at hn
      simp only [lpRound, lsStep, lpLoop, lStep, lInit, show 2 - 1 = 1 by omega, show 1 - 1 = 0 by omega, hd', hn, hlen]
      rfl
    | 9, _ =>
      rw [show chLen + (10 * j + 9) + 1 = chLen + (10 * (j + 1) + 0) by omega, lpStates_late (j + 1) 0 (by omega)]
      have hd' : (chStates (chLen + (8 * j + 8))).dead = false := hd
      obtain ⟨t, ht, hr⟩ := lpRet j
      simp only [lpRound, lsStep, lpLoop, lStep, lInit, show 9 - 1 = 8 by omega, hd', show ¬ (9 < 2) by omega, if_false, Option.bind_some, ht, hr,
        show 0 - 1 = 0 by omega, show 8 * (j + 1) + 0 = 8 * j + 8 by omega]
      rfl
    | 2, _ => exact mid 1 (by omega) (by omega) rfl
    | 3, _ => exact mid 2 (by omega) (by omega) rfl
    | 4, _ => exact mid 3 (by omega) (by omega) rfl
    | 5, _ => exact mid 4 (by omega) (by omega) rfl
    | 6, _ => exact mid 5 (by omega) (by omega) rfl
    | 7, _ => exact mid 6 (by omega) (by omega) rfl
    | 8, _ => exact mid 7 (by omega) (by omega) rfl

/-- An execution in which the policy changes, and the goroutine updates again and again. -/
def lpExec : LsExec chCfg "context canceled".toList (auT 1500) where
  state := lpStates
  act := lpAct
  init := rfl
  next := lpNext

theorem lpSys (n : Nat) : lpExec.sys.state n = chExec.state (lpAt n) := by
  show (lpStates n).sys = chStates (lpAt n)
  by_cases hn : n < chLen
  · rw [show lpStates n = lsInit (chStates n) from if_pos hn, show lpAt n = n from if_pos hn]; rfl
  · obtain ⟨j, r, hr, rfl⟩ := lpLate (Nat.le_of_not_lt hn)
    rw [lpStates_late j r hr, lpAt_late j r hr]

theorem lpDoes (n : Nat) : lpExec.sys.act n = .tick 0 ∨ lpExec.sys.act n = chExec.act (lpAt n) := by
  show (lpAct n).proj = _ ∨ (lpAct n).proj = chAct (lpAt n)
  by_cases hn : n < chLen
  · right
    rw [show lpAct n = .sys (chAct n) from if_pos hn, show lpAt n = n from if_pos hn]; rfl
  · obtain ⟨j, r, hr, rfl⟩ := lpLate (Nat.le_of_not_lt hn)
    rw [lpAct_late j r hr, lpAt_late j r hr]
    by_cases h0 : r = 0
    · subst h0; exact .inl rfl
    by_cases h9 : r = 9
    · subst h9; exact .inl rfl
    right
    rw [chAct_late j (r - 1) (by omega)]
    unfold lpRound
    split
    · omega
    · rfl
    · omega
    · rfl

/-- Every step of `chExec` is one here, too, and afterwards it is over. -/
theorem lpHas (p : Nat) : ∃ m, lpAt m = p ∧ lpExec.sys.act m = chExec.act p ∧ ∀ n, lpAt n ≤ p → n ≤ m := by
  by_cases hp : p < chLen
  · refine ⟨p, if_pos hp, ?_, fun n hn => ?_⟩
    · show (lpAct p).proj = chAct p
      rw [show lpAct p = .sys (chAct p) from if_pos hp]; rfl
    · unfold lpAt at hn
      split at hn
      · exact hn
      · omega
  · obtain ⟨j, r, hr, rfl⟩ := chLate (Nat.le_of_not_lt hp)
    have h1 : lpAt (chLen + (10 * j + (r + 1))) = chLen + (8 * j + r) := lpAt_late j (r + 1) (by omega)
    refine ⟨chLen + (10 * j + (r + 1)), h1, ?_, fun n hn => ?_⟩
    · show (lpAct (chLen + (10 * j + (r + 1)))).proj = chAct (chLen + (8 * j + r))
      rw [lpAct_late j (r + 1) (by omega), chAct_late j r hr]
      unfold lpRound
      split
      · omega
      · obtain rfl : r = 0 := by omega
        rfl
      · omega
      · rfl
    · unfold lpAt at hn
      split at hn
      · omega
      · omega

theorem lpFore : Foretold lpExec.sys := by
  intro n
  rw [lpSys n]
  exact chForetold (lpAt n)

theorem lpNew : NewPolicies lpExec.sys chLen [chDoc] := by
  have hge : ∀ n, chLen ≤ n → chLen ≤ lpAt n := by
    intro n hn
    unfold lpAt
    rw [if_neg (by omega)]
    omega
  refine ⟨chNew.len, ?_, chNew.good, ?_⟩
  · intro j dom d hdom hd n hn k r hact
    rw [lpSys n]
    rcases lpDoes n with h | h
    · rw [hact] at h; simp at h
    · rw [hact] at h
      exact chNew.serves j dom d hdom hd (lpAt n) (hge n hn) k r h.symm
  · intro n i hn hact
    rcases lpDoes n with h | h
    · rw [hact] at h; simp at h
    · rw [hact] at h
      exact chNew.noCancel (lpAt n) i (hge n hn) h.symm

theorem lpUpdFair : UpdFair lpExec.sys := by
  intro th n h
  have key : ∀ p, lpAt n ≤ p → ∃ m, n ≤ m ∧ lpAt m = p ∧ lpExec.sys.act m = chExec.act p := by
    intro p hp
    obtain ⟨m, h1, h2, h3⟩ := lpHas p
    exact ⟨m, h3 n hp, h1, h2⟩
  obtain ⟨p, hp, hd⟩ := chFair th (lpAt n) (by
    intro p hp
    obtain ⟨m, hm, hat, _⟩ := key p hp
    have := h m hm
    rw [lpSys m, hat] at this
    exact this)
  obtain ⟨m, hm, _, hact⟩ := key p hp
  exact ⟨m, hm, by rw [hact]; exact hd⟩

theorem lpFair : LsFair lpExec := by
  refine ⟨fun n _ => ⟨chLen + (10 * n + 1), by omega, ?_⟩, fun n => ⟨chLen + (10 * n + 0), by omega, lpAct_late n 0 (by omega)⟩⟩
  show OfLoop (lpAct _)
  rw [lpAct_late n 1 (by omega)]
  trivial

theorem lpQuiet (n : Nat) : (lpExec.state n).loop.ech = [] := by
  show (lpStates n).loop.ech = []
  by_cases hn : n < chLen
  · rw [show lpStates n = lsInit (chStates n) from if_pos hn]; rfl
  · obtain ⟨j, r, hr, rfl⟩ := lpLate (Nat.le_of_not_lt hn)
    rw [lpStates_late j r hr]
    simp only
    unfold lpLoop
    split <;> rfl

theorem lpReads : Reads lpExec := fun n h => absurd (lpQuiet n) (h n (Nat.le_refl n))

theorem lpNotStopped : NotStopped lpExec := by
  intro n h
  change lpAct n = _ at h
  unfold lpAct at h
  split at h
  · simp at h
  · unfold lpRound at h
    split at h <;> simp at h

end Ex

/-- An execution as in the theorems above: a policy is loaded by `Init`, another one is served afterwards, and the goroutine of `Start` fetches it. -/
example : Ex.chCfg.auth.disablePolicyd = false ∧ 0 ≤ Ex.chCfg.fetch.retryAttempts ∧ LsFair Ex.lpExec ∧ Reads Ex.lpExec ∧ NotStopped Ex.lpExec ∧
    UpdFair Ex.lpExec.sys ∧ Foretold Ex.lpExec.sys ∧ NewPolicies Ex.lpExec.sys Ex.chLen [Ex.chDoc] ∧ Ex.lpExec.act (Ex.chLen + 1) = .call false [some Ex.chDoc] :=
  ⟨rfl, by decide, Ex.lpFair, Ex.lpReads, Ex.lpNotStopped, Ex.lpUpdFair, Ex.lpFore, Ex.lpNew, rfl⟩

end Athenz
