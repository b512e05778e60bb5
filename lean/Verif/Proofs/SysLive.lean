import Verif.Proofs.Fair
import Verif.Proofs.InForce
import Verif.Proofs.AuthSess
import Verif.Props.System
import Verif.Spec.SysLive

/-! How far the checks and calls of the assembled authorizer are from their end. -/

namespace Athenz
open Spec

/-! ### Checks -/

def Worker.isStart : Worker → Bool
  | .start _ => true
  | _ => false

/-- The steps of a worker that has looked at the cache, and of the collector on its behalf. -/
def Worker.left : Worker → Nat
  | .start _ => 2
  | .scan _ rest => rest.length + 2
  | .done _ _ => 0

def CheckState.left (s : CheckState) : Nat × Nat :=
  ((s.workers.filter Worker.isStart).length,
    (s.workers.map Worker.left).sum + s.chan.length + (if s.closed then 0 else 1) + (match s.coll with | .loop _ => 1 | .ret _ => 0))

def Chk.left (c : Chk) : Nat × Nat × Nat := (if c.loaded.isSome then 0 else 1, c.cs.left)

abbrev Lex2 : Nat × Nat → Nat × Nat → Prop := Prod.Lex (· < ·) (· < ·)
abbrev Lex3 : Nat × Nat × Nat → Nat × Nat × Nat → Prop := Prod.Lex (· < ·) Lex2
abbrev Lex4 : Nat × Nat × Nat × Nat → Nat × Nat × Nat × Nat → Prop := Prod.Lex (· < ·) Lex3

theorem lex2_wf : WellFounded Lex2 := (Prod.lex Nat.lt_wfRel Nat.lt_wfRel).wf
theorem lex3_wf : WellFounded Lex3 := (Prod.lex Nat.lt_wfRel ⟨_, lex2_wf⟩).wf
theorem lex4_wf : WellFounded Lex4 := (Prod.lex Nat.lt_wfRel ⟨_, lex3_wf⟩).wf

theorem lex2_of {a b a' b' : Nat} (h : a' < a ∨ a' = a ∧ b' < b) : Lex2 (a', b') (a, b) := by
  rcases h with h | ⟨rfl, h⟩
  · exact .left _ _ h
  · exact .right _ h

/-- The worker `i` becomes `w'`. -/
theorem left_set {s : CheckState} {i : Nat} {w : Worker} (hw : s.workers[i]? = some w) (w' : Worker) :
    ((s.workers.set i w').filter Worker.isStart).length + (if w.isStart then 1 else 0) =
      (s.workers.filter Worker.isStart).length + (if w'.isStart then 1 else 0) ∧
    ((s.workers.set i w').map Worker.left).sum + w.left = (s.workers.map Worker.left).sum + w'.left := by
  obtain ⟨a, b, h1, h2⟩ := set_split hw
  rw [h2 w', h1]
  simp only [List.filter_append, List.filter_cons, List.length_append, List.map_append, List.map_cons, List.sum_append, List.sum_cons]
  constructor
  · cases w.isStart <;> cases w'.isStart <;> simp <;> omega
  · omega

theorem left_send {q : CheckReq} {s s' : CheckState} {i : Nat} {w : Worker} {r : Str} {e : Option Err} (hw : s.workers[i]? = some w)
    (hd : w.isDone = false) (h : s.send q i r e = some s') : Lex2 s'.left s.left := by
  obtain ⟨h1, h2⟩ := left_set hw (.done r (some e))
  unfold CheckState.send at h
  split at h
  · simp only [Option.some.injEq] at h
    subst h
    apply lex2_of
    cases w <;> simp_all [Worker.isStart, Worker.left, Worker.isDone] <;> omega
  · split at h
    · simp only [Option.some.injEq] at h
      subst h
      apply lex2_of
      cases w <;> simp_all [Worker.isStart, Worker.left, Worker.isDone] <;> omega
    · simp at h

theorem checkStep_left {U : CaseFns} {q : CheckReq} {s s' : CheckState} {a : CheckAct} (h : checkStep U q s a = some s') :
    (a.internal = true → Lex2 s'.left s.left) ∧ (a.internal = false → s'.left = s.left ∧ s'.coll = s.coll) := by
  have hmove : ∀ {i : Nat} {w : Worker} (w' : Worker), s.workers[i]? = some w →
      (w.isStart = true ∧ w'.isStart = false ∨ w.isStart = w'.isStart ∧ w'.left < w.left) →
      Lex2 ({ s with workers := s.workers.set i w' } : CheckState).left s.left := by
    intro i w w' hw hc
    obtain ⟨h1, h2⟩ := left_set hw w'
    apply lex2_of
    rcases hc with ⟨e1, e2⟩ | ⟨e1, e2⟩
    · left; rw [e1, e2] at h1; simp at h1; simp only; omega
    · right
      rw [e1] at h1
      constructor
      · simp only; omega
      · simp only; omega
  cases a with
  | worker i =>
    refine ⟨fun _ => ?_, by simp [CheckAct.internal]⟩
    simp only [checkStep] at h
    split at h
    · rename_i role hw
      split at h
      · exact left_send hw rfl h
      · split at h
        · simp only [Option.some.injEq] at h; subst h; exact hmove _ hw (.inl ⟨rfl, rfl⟩)
        · simp only [Option.some.injEq] at h; subst h; exact hmove _ hw (.inl ⟨rfl, rfl⟩)
    · rename_i role hw
      simp only [Option.some.injEq] at h; subst h; exact hmove _ hw (.inr ⟨rfl, by simp [Worker.left]⟩)
    · rename_i role a rest hw
      split at h
      · exact left_send hw rfl h
      · split at h
        · exact left_send hw rfl h
        · simp only [Option.some.injEq] at h; subst h; exact hmove _ hw (.inr ⟨rfl, by simp [Worker.left]⟩)
    · simp at h
  | close =>
    refine ⟨fun _ => ?_, by simp [CheckAct.internal]⟩
    simp only [checkStep] at h
    split at h
    · simp at h
    · rename_i hc
      split at h
      · simp only [Option.some.injEq] at h; subst h
        exact lex2_of (.inr ⟨rfl, by simp [hc]⟩)
      · simp at h
  | recv =>
    refine ⟨fun _ => ?_, by simp [CheckAct.internal]⟩
    simp only [checkStep] at h
    split at h
    · simp at h
    · rename_i al hcoll
      split at h
      · rename_i re ch hch
        split at h
        · simp only [Option.some.injEq] at h; subst h
          exact lex2_of (.inr ⟨rfl, by simp [hcoll, hch]; omega⟩)
        · simp only [Option.some.injEq] at h; subst h
          exact lex2_of (.inr ⟨rfl, by simp [hcoll, hch]⟩)
      · split at h
        · rename_i hc
          simp only [Option.some.injEq] at h; subst h
          exact lex2_of (.inr ⟨rfl, by simp [hcoll]⟩)
        · simp at h
  | cancel =>
    refine ⟨by simp [CheckAct.internal], fun _ => ?_⟩
    simp only [checkStep] at h
    split at h
    · simp at h
    · simp only [Option.some.injEq] at h; subst h; exact ⟨rfl, rfl⟩
  | mutate v =>
    refine ⟨by simp [CheckAct.internal], fun _ => ?_⟩
    simp only [checkStep, Option.some.injEq] at h
    subst h; exact ⟨rfl, rfl⟩

/-- The goroutines of check `k`. -/
def PdAct.ofCheck (k : Nat) : PdAct → Bool
  | .load k' => k' == k
  | .chk k' a => k' == k && a.internal
  | _ => false

theorem ofCheck_iff {k : Nat} {a : SysAct} : OfCheck k a ↔ ∃ b, a = .pd b ∧ b.ofCheck k = true := by
  constructor
  · intro h
    cases a with
    | pd b =>
      refine ⟨b, rfl, ?_⟩
      cases b with
      | chk k' a => cases a <;> simp_all [OfCheck, PdAct.ofCheck, CheckAct.internal]
      | load k' => simpa [OfCheck, PdAct.ofCheck] using h
      | _ => simp [OfCheck] at h
    | _ => simp [OfCheck] at h
  · rintro ⟨b, rfl, h⟩
    cases b with
    | chk k' a => cases a <;> simp_all [OfCheck, PdAct.ofCheck, CheckAct.internal]
    | load k' => simpa [OfCheck, PdAct.ofCheck] using h
    | _ => simp [PdAct.ofCheck] at h

/-- What a step does to check `k`. -/
def ChkMoves (k : Nat) (a : PdAct) (c c' : Chk) : Prop :=
  c'.q = c.q ∧ (a.ofCheck k = true → Lex3 c'.left c.left) ∧
    (a.ofCheck k = false → c'.left = c.left ∧ c'.loaded = c.loaded ∧ c'.cs.coll = c.cs.coll) ∧
    (c'.cs.parent = c.cs.parent ∨ c'.cs.parent = false ∨ a = .chk k .cancel)

theorem pdStep_chk {U : CaseFns} {s s' : PdState} {a : PdAct} (h : pdStep U s a = some s') {k : Nat} {c : Chk}
    (hc : s.checks[k]? = some c) : ∃ c', s'.checks[k]? = some c' ∧ ChkMoves k a c c' := by
  have hset : ∀ (k' : Nat) (c0 c' : Chk), s.checks[k']? = some c0 → (k' = k → ChkMoves k a c0 c') → (k' ≠ k → a.ofCheck k = false) →
      ∃ c'', (s.checks.set k' c')[k]? = some c'' ∧ ChkMoves k a c c'' := by
    intro k' c0 c' h0 hq hne
    by_cases hk : k' = k
    · subst hk
      rw [hc] at h0
      simp only [Option.some.injEq] at h0
      subst h0
      exact ⟨c', by rw [List.getElem?_set_self (lt_of_getElem? hc)], hq rfl⟩
    · exact ⟨c, by rw [List.getElem?_set_ne hk]; exact hc, rfl, by simp [hne hk], fun _ => ⟨rfl, rfl, rfl⟩, .inl rfl⟩
  unfold pdStep at h
  split at h
  · simp at h
  cases a with
  | check q =>
    simp only [Option.some.injEq] at h; subst h
    exact ⟨c, by simp only; rw [List.getElem?_append_left (lt_of_getElem? hc)]; exact hc, rfl, by simp [PdAct.ofCheck], fun _ => ⟨rfl, rfl, rfl⟩, .inl rfl⟩
  | load k' =>
    simp only at h
    split at h
    · simp at h
    · rename_i c0 h0
      split at h
      · simp at h
      · rename_i hl
        simp only [Option.some.injEq] at h; subst h
        refine hset k' c0 _ h0 (fun he => ⟨rfl, fun _ => ?_, fun hn => ?_, .inr (.inl rfl)⟩) (fun hn => by simpa [PdAct.ofCheck] using hn)
        · refine .left _ _ ?_
          simp [hl]
        · simp [PdAct.ofCheck, he] at hn
  | chk k' a =>
    simp only at h
    split at h
    · simp at h
    · rename_i c0 h0
      split at h
      · simp at h
      · rename_i o _ _ hl
        split at h
        · simp at h
        · rename_i hnm
          split at h
          · simp at h
          · rename_i cs hcs
            simp only [Option.some.injEq] at h; subst h
            obtain ⟨h1, h2⟩ := checkStep_left hcs
            refine hset k' c0 _ h0 (fun he => ⟨rfl, fun hi => ?_, fun hn => ?_, ?_⟩) (fun hn => by simp [PdAct.ofCheck, hn])
            · simp only [PdAct.ofCheck, Bool.and_eq_true] at hi
              have := h1 hi.2
              exact .right _ this
            · have hn : a.internal = false := by simpa [PdAct.ofCheck, he] using hn
              obtain ⟨e1, e2⟩ := h2 hn
              exact ⟨Prod.ext rfl e1, rfl, e2⟩
            · subst he
              cases a with
              | cancel => exact .inr (.inr rfl)
              | mutate v => exact absurd rfl (hnm v)
              | worker i =>
                left
                simp only [checkStep] at hcs
                unfold CheckState.send at hcs
                repeat' split at hcs
                all_goals first
                  | (simp at hcs; done)
                  | (simp only [Option.some.injEq] at hcs; subst hcs; rfl)
              | close =>
                left
                simp only [checkStep] at hcs
                repeat' split at hcs
                all_goals first
                  | (simp at hcs; done)
                  | (simp only [Option.some.injEq] at hcs; subst hcs; rfl)
              | recv =>
                left
                simp only [checkStep] at hcs
                repeat' split at hcs
                all_goals first
                  | (simp at hcs; done)
                  | (simp only [Option.some.injEq] at hcs; subst hcs; rfl)
  | _ =>
    simp only at h
    repeat' split at h
    all_goals first
      | (simp at h; done)
      | (simp only [Option.some.injEq] at h; subst h; exact ⟨c, hc, rfl, by simp [PdAct.ofCheck], fun _ => ⟨rfl, rfl, rfl⟩, .inl rfl⟩)

/-- Until a check has returned, one of its goroutines can go on. -/
theorem check_ready {cfg : SysCfg} {now : Int} {h : List SysAct} {s : Sys}
    (hr : sysRun cfg (sysInit cfg now) h = some s) (hd : s.dead = false) {k : Nat} {c : Chk} (hc : s.pd.checks[k]? = some c)
    (hn : c.loaded = none ∨ ∀ r, c.cs.coll ≠ .ret r) : ∃ a, OfCheck k a ∧ (sysStep cfg s a).isSome := by
  obtain ⟨hb, ho⟩ := sysOrigin_run hr
  have hcr := (hb.alive hd).2.1
  cases hl : c.loaded with
  | none =>
    refine ⟨.pd (.load k), rfl, ?_⟩
    simp [sysStep, hd, sysPd, pdStep, hcr, hc, hl]
  | some x =>
    obtain ⟨o, t0, g0⟩ := x
    rcases hn with hn | hn
    · rw [hn] at hl; simp at hl
    obtain ⟨A, _, hg⟩ := ho.pd
    obtain ⟨v0, cs, _, hrun, _⟩ := hg.checks c (List.mem_of_getElem? hc) (by simp [hl])
    let cs' : CheckState := { c.cs with view := viewOf ((s.pd.objs[o]?).getD Gache.empty) s.pd.now }
    have hinv : CheckInv cfg.auth.U c.q (fun _ => True) cs' :=
      ((CheckReq.init_inv cfg.auth.U c.q (fun _ => True) v0 trivial).run (fun a _ => by cases a <;> trivial) hrun).step
        (a := .mutate (viewOf ((s.pd.objs[o]?).getD Gache.empty) s.pd.now)) trivial rfl
    obtain ⟨a, s', ha, hs⟩ := hinv.progress fun hf => by
      obtain ⟨r, hr⟩ := hf.2.2
      exact hn r hr
    refine ⟨.pd (.chk k a), ?_, ?_⟩
    · cases a <;> simp_all [OfCheck, CheckAct.internal]
    · cases a <;> simp_all [sysStep, sysPd, pdStep, CheckAct.internal, cs']

/-- What a step does to the check `k`. -/
theorem sysStep_chk {cfg : SysCfg} {s s' : Sys} {a : SysAct} (hs : sysStep cfg s a = some s') {k : Nat} {c : Chk}
    (hc : s.pd.checks[k]? = some c) : ∃ c', s'.pd.checks[k]? = some c' ∧ c'.q = c.q ∧ (OfCheck k a → Lex3 c'.left c.left) ∧
      (¬ OfCheck k a → c'.left = c.left ∧ c'.loaded = c.loaded ∧ c'.cs.coll = c.cs.coll) ∧
      (c'.cs.parent = c.cs.parent ∨ c'.cs.parent = false ∨ a = .pd (.chk k .cancel)) := by
  obtain ⟨_, he⟩ := sysStep_effect hs
  have same : ∀ (s' : Sys), s'.pd.checks = s.pd.checks → ¬ OfCheck k a → ∃ c', s'.pd.checks[k]? = some c' ∧ c'.q = c.q ∧
      (OfCheck k a → Lex3 c'.left c.left) ∧ (¬ OfCheck k a → c'.left = c.left ∧ c'.loaded = c.loaded ∧ c'.cs.coll = c.cs.coll) ∧
      (c'.cs.parent = c.cs.parent ∨ c'.cs.parent = false ∨ a = .pd (.chk k .cancel)) := by
    intro s' h1 h2
    exact ⟨c, by rw [h1]; exact hc, rfl, fun h => absurd h h2, fun _ => ⟨rfl, rfl, rfl⟩, .inl rfl⟩
  cases he with
  | pd b pd' D F W ha hp hD hF hbr =>
    obtain ⟨c', h1, h2, h3, h4, h5⟩ := pdStep_chk hp hc
    refine ⟨c', h1, h2, fun h => ?_, fun h => h4 ?_, ?_⟩
    · obtain ⟨b', hb', h'⟩ := ofCheck_iff.mp h
      simp only [SysAct.pd.injEq] at hb'
      subst hb'; exact h3 h'
    · cases hb : b.ofCheck k with
      | false => rfl
      | true => exact absurd (ofCheck_iff.mpr ⟨b, rfl, hb⟩) h
    · rcases h5 with h5 | h5 | rfl
      · exact .inl h5
      · exact .inr (.inl h5)
      · exact .inr (.inr rfl)
  | beginCheck i q p act res pd' hcall hn hp =>
    obtain ⟨c', h1, h2, h3, h4, h5⟩ := pdStep_chk hp hc
    refine ⟨c', h1, h2, fun h => absurd h (by simp [OfCheck]), fun _ => h4 rfl, ?_⟩
    rcases h5 with h5 | h5 | h5
    · exact .inl h5
    · exact .inr (.inl h5)
    · simp at h5
  | _ => exact same _ rfl (by simp [OfCheck])

/-- A check that has returned has loaded the cache before. -/
theorem returned_loaded {cfg : SysCfg} {now : Int} {h : List SysAct} {s : Sys} (hr : sysRun cfg (sysInit cfg now) h = some s) {k : Nat} {c : Chk}
    (hc : s.pd.checks[k]? = some c) {r : Res (List Str)} (hret : c.cs.coll = .ret r) : c.loaded.isSome := by
  cases hl : c.loaded with
  | none =>
    rw [checksLoad_run hr k c hc hl] at hret
    simp at hret
  | some x => rfl

/-! ### Calls -/

def AAct.ofCall (i : Nat) : AAct → Bool
  | .get j => j == i
  | .validate j => j == i
  | .translate j _ => j == i
  | .check j _ _ => j == i
  | .store j => j == i
  | _ => false

def Pc.rank : Pc → Nat
  | .start => 6
  | .miss => 5
  | .validated _ => 4
  | .translated _ _ _ => 2
  | .checked _ => 1
  | .done _ => 0

theorem aStep_call {cfg : AuthCfg} {s s' : AState} {a : AAct} (h : aStep cfg s a = some s') {i : Nat} {q : AReq} {pc : Pc}
    (hc : s.calls i = some ⟨q, pc⟩) :
    ∃ pc', s'.calls i = some ⟨q, pc'⟩ ∧ (a.ofCall i = false → pc' = pc) ∧ (a.ofCall i = true → pc'.rank < pc.rank) := by
  have move : ∀ (s1 : AState) (j : Nat) (q0 : AReq) (pc0 pc1 : Pc), s1.calls = s.calls → s.calls j = some ⟨q0, pc0⟩ → pc1.rank < pc0.rank →
      ∃ pc', (s1.setPc j q0 pc1).calls i = some ⟨q, pc'⟩ ∧ ((j == i) = false → pc' = pc) ∧ ((j == i) = true → pc'.rank < pc.rank) := by
    intro s1 j q0 pc0 pc1 h1 h2 h3
    by_cases hj : i = j
    · subst hj
      rw [hc] at h2
      simp only [Option.some.injEq, Call.mk.injEq] at h2
      obtain ⟨rfl, rfl⟩ := h2
      exact ⟨pc1, by simp [AState.setPc], by simp, fun _ => h3⟩
    · refine ⟨pc, by simp only [AState.setPc, if_neg hj, h1]; exact hc, fun _ => rfl, fun h => ?_⟩
      simp only [beq_iff_eq] at h
      exact absurd h.symm hj
  have fresh : ∀ (j : Nat) (q0 : AReq) (pc0 : Pc), s.calls j = none → (s.setPc j q0 pc0).calls i = some ⟨q, pc⟩ := by
    intro j q0 pc0 hj
    have : i ≠ j := by rintro rfl; rw [hc] at hj; simp at hj
    simp only [AState.setPc, if_neg this]; exact hc
  cases aStep_effect h with
  | call j q0 h0 => exact ⟨pc, fresh j q0 _ h0, fun _ => rfl, by simp [AAct.ofCall]⟩
  | bad j q0 h0 he => exact move s j q0 _ _ rfl h0 (by simp [Pc.rank])
  | hit j q0 p h0 he hg => exact move s j q0 _ _ rfl h0 (by simp [Pc.rank])
  | miss j q0 h0 he hg => exact move s j q0 _ _ rfl h0 (by simp [Pc.rank])
  | valid j q0 p h0 hv => exact move _ j q0 _ _ rfl h0 (by split <;> simp [Pc.rank])
  | invalid j q0 r h0 hv hr => exact move _ j q0 _ _ rfl h0 (by simp [Pc.rank])
  | trans j seed q0 p act res h0 ht => exact move _ j q0 _ _ rfl h0 (by simp [Pc.rank])
  | transFail j seed q0 p r h0 ht => exact move _ j q0 _ _ rfl h0 (by simp [Pc.rank])
  | check j view sched q0 p act res rs h0 hv => exact move _ j q0 _ _ rfl h0 (by simp [Pc.rank])
  | checkFail j view sched q0 p act res r h0 hv hr => exact move _ j q0 _ _ rfl h0 (by simp [Pc.rank])
  | store j q0 p h0 => exact move _ j q0 _ _ rfl h0 (by simp [Pc.rank])
  | sub k j q0 rest tried hs h0 => exact ⟨pc, fresh j q0 _ h0, fun _ => rfl, by simp [AAct.ofCall]⟩
  | _ => exact ⟨pc, hc, fun _ => rfl, by simp [AAct.ofCall]⟩

/-- How far the check of call `i` is from its end. -/
def Sys.checkLeft (s : Sys) (i : Nat) : Nat × Nat × Nat :=
  match s.checkOf i with
  | none => (0, 0, 0)
  | some k => match s.pd.checks[k]? with
    | none => (0, 0, 0)
    | some c => c.left

def Sys.callRank (s : Sys) (i : Nat) : Nat :=
  match s.auth.calls i with
  | none => 7
  | some ⟨_, .translated _ _ _⟩ => if s.checkOf i = none then 3 else 2
  | some ⟨_, pc⟩ => pc.rank

/-- How far call `i` is from its end. -/
def Sys.callLeft (s : Sys) (i : Nat) : Nat × Nat × Nat × Nat := (s.callRank i, s.checkLeft i)

theorem callRank_some {s : Sys} {i : Nat} {q : AReq} {pc : Pc} (h : s.auth.calls i = some ⟨q, pc⟩) :
    pc.rank ≤ s.callRank i ∧ s.callRank i ≤ pc.rank + 1 ∧ (s.callRank i = pc.rank ∨ s.checkOf i = none ∧ ∃ p act res, pc = .translated p act res) := by
  unfold Sys.callRank
  rw [h]
  cases pc with
  | translated p act res =>
    simp only [Pc.rank]
    split
    · rename_i hn; exact ⟨by omega, by omega, .inr ⟨hn, p, act, res, rfl⟩⟩
    · exact ⟨by omega, by omega, .inl rfl⟩
  | _ => simp [Pc.rank]

/-- Steps that have nothing to do with call `i`. -/
theorem callLeft_same {s s' : Sys} {i : Nat} (h1 : s'.auth.calls i = s.auth.calls i) (h2 : s'.checkOf i = s.checkOf i)
    (h3 : ∀ k, s.checkOf i = some k → ∃ c c', s.pd.checks[k]? = some c ∧ s'.pd.checks[k]? = some c' ∧ c'.left = c.left) :
    s'.callLeft i = s.callLeft i := by
  unfold Sys.callLeft Sys.callRank Sys.checkLeft
  rw [h1, h2]
  cases hk : s.checkOf i with
  | none => rfl
  | some k =>
    obtain ⟨c, c', e1, e2, e3⟩ := h3 k hk
    simp only [e1, e2, e3]

theorem sysStep_call {cfg : SysCfg} {now : Int} {h : List SysAct} {s s' : Sys} {a : SysAct}
    (hr : sysRun cfg (sysInit cfg now) h = some s) (hs : sysStep cfg s a = some s') {i : Nat} {q : AReq} {pc : Pc}
    (hc : s.auth.calls i = some ⟨q, pc⟩) : ∃ pc', s'.auth.calls i = some ⟨q, pc'⟩ ∧
      (OfCall s i a → Lex4 (s'.callLeft i) (s.callLeft i)) ∧ (¬ OfCall s i a → s'.callLeft i = s.callLeft i ∧ pc' = pc) := by
  have hlinks := (sysOrigin_run hr).2.links
  have hchk : ∀ k, s.checkOf i = some k → ∃ c c', s.pd.checks[k]? = some c ∧ s'.pd.checks[k]? = some c' ∧
      (OfCheck k a → Lex3 c'.left c.left) ∧ (¬ OfCheck k a → c'.left = c.left) := by
    intro k hk
    obtain ⟨c, hck, _⟩ := hlinks i k hk
    obtain ⟨c', h1, _, h2, h3, _⟩ := sysStep_chk hs hck
    exact ⟨c, c', hck, h1, h2, fun hn => (h3 hn).1⟩
  -- a step which concerns neither calls nor the goroutines of checks
  have other : s'.auth.calls i = s.auth.calls i → s'.checkOf i = s.checkOf i → (∀ k, ¬ OfCheck k a) → ¬ OfCall s i a →
      ∃ pc', s'.auth.calls i = some ⟨q, pc'⟩ ∧
      (OfCall s i a → Lex4 (s'.callLeft i) (s.callLeft i)) ∧ (¬ OfCall s i a → s'.callLeft i = s.callLeft i ∧ pc' = pc) := by
    intro h1 h2 h3 h4
    refine ⟨pc, by rw [h1]; exact hc, fun h => absurd h h4, fun _ => ⟨callLeft_same h1 h2 fun k hk => ?_, rfl⟩⟩
    obtain ⟨c, c', e1, e2, _, e3⟩ := hchk k hk
    exact ⟨c, c', e1, e2, e3 (h3 k)⟩
  obtain ⟨_, he⟩ := sysStep_effect hs
  cases he with
  | pd b pd' D F W ha hp hD hF hbr =>
    refine ⟨pc, hc, fun hof => ?_, fun hnof => ⟨callLeft_same rfl rfl fun k hk => ?_, rfl⟩⟩
    · rcases hof with ⟨k, hk, hof⟩ | hof
      · obtain ⟨c, c', e1, e2, e3, _⟩ := hchk k hk
        unfold Sys.callLeft Sys.callRank Sys.checkLeft
        simp only at e2
        simp only [hk, e1, e2]
        exact .right _ (e3 hof)
      · exact absurd hof (by simp)
    · obtain ⟨c, c', e1, e2, _, e3⟩ := hchk k hk
      exact ⟨c, c', e1, e2, e3 fun h => hnof (.inl ⟨k, hk, h⟩)⟩
  | beginCheck j q0 p act res pd' hcall hn hp =>
    by_cases hj : j = i
    · subst hj
      rw [hc] at hcall
      simp only [Option.some.injEq, Call.mk.injEq] at hcall
      obtain ⟨rfl, rfl⟩ := hcall
      refine ⟨_, hc, fun _ => ?_, fun h => absurd (.inr rfl) h⟩
      unfold Sys.callLeft Sys.callRank
      simp only [hc, hn]
      refine .left _ _ ?_
      simp
    · refine other rfl ?_ (by simp [OfCheck]) ?_
      · simp only [if_neg fun h : i = j => hj h.symm]
      · rintro (⟨k, _, hof⟩ | hof)
        · simp [OfCheck] at hof
        · exact hj hof
  | endCheck j view sched k c r auth' hk hck hl hret hv hst =>
    obtain ⟨pc', h1, h2, h3⟩ := aStep_call hst hc
    by_cases hj : j = i
    · subst hj
      refine ⟨pc', h1, fun _ => ?_, fun h => absurd (.inr rfl) h⟩
      have hlt := h3 (by simp [AAct.ofCall])
      have e1 : s.callRank j = pc.rank := by
        rcases (callRank_some hc).2.2 with h | ⟨h, _⟩
        · exact h
        · rw [hk] at h; simp at h
      have e2 : ({ s with auth := auth' } : Sys).callRank j = pc'.rank := by
        rcases (callRank_some (s := { s with auth := auth' }) h1).2.2 with h | ⟨h, _⟩
        · exact h
        · simp only at h; rw [hk] at h; simp at h
      exact .left _ _ (by rw [e1, e2]; exact hlt)
    · have := h2 (by simp [AAct.ofCall, hj])
      subst this
      refine other (h1.trans hc.symm) rfl (by simp [OfCheck]) ?_
      rintro (⟨k, _, hof⟩ | hof)
      · simp [OfCheck] at hof
      · exact hj hof
  | auth b auth' ha hst =>
    obtain ⟨pc', h1, h2, h3⟩ := aStep_call hst hc
    have hiff : OfCall s i (.auth b) ↔ b.ofCall i = true := by
      unfold OfCall
      cases b <;> simp_all [OfCheck, AAct.ofCall, AAct.own]
    cases hb : b.ofCall i with
    | false =>
      have := h2 hb
      subst this
      refine other (h1.trans hc.symm) rfl (by simp [OfCheck]) ?_
      rw [hiff, hb]; simp
    | true =>
      refine ⟨pc', h1, fun _ => .left _ _ ?_, fun h => absurd (hiff.mpr hb) h⟩
      have hlt := h3 hb
      have e1 := (callRank_some hc).1
      rcases (callRank_some (s := { s with auth := auth' }) h1).2.2 with h | ⟨hn, p, act, res, rfl⟩
      · rw [h]; omega
      · -- a call that gets to its check comes from the translation
        have e2 := (callRank_some (s := { s with auth := auth' }) h1).2.1
        simp only [Pc.rank] at hlt e2
        have : 3 < pc.rank := by
          rcases pc with _ | _ | _ | _ | _ | _ <;> simp_all [Pc.rank]
        omega
  | _ => exact other rfl rfl (by simp [OfCheck]) (by simp [OfCall, OfCheck])

/-- A call that has not returned can go on. -/
theorem call_ready {cfg : SysCfg} {now : Int} {h : List SysAct} {s : Sys}
    (hr : sysRun cfg (sysInit cfg now) h = some s) (hd : s.dead = false) {i : Nat} {q : AReq} {pc : Pc} (hc : s.auth.calls i = some ⟨q, pc⟩)
    (hn : ∀ r, pc ≠ .done r) : ∃ a, OfCall s i a ∧ (sysStep cfg s a).isSome := by
  cases pc with
  | start =>
    refine ⟨.auth (.get i), .inr rfl, ?_⟩
    obtain ⟨b, hb⟩ : ∃ b, aStep cfg.auth s.auth (.get i) = some b := by
      simp only [aStep, hc]
      split
      · exact ⟨_, rfl⟩
      · split <;> exact ⟨_, rfl⟩
    simp [sysStep, hd, hb]
  | miss =>
    refine ⟨.auth (.validate i), .inr rfl, ?_⟩
    simp only [sysStep, hd, aStep, hc]
    cases validateToken cfg.auth s.auth.keys s.auth.jwkp (clock s.auth.now) q <;> rfl
  | validated p =>
    refine ⟨.auth (.translate i 0), .inr rfl, ?_⟩
    simp only [sysStep, hd, aStep, hc]
    cases translate cfg.auth 0 p.domain q <;> rfl
  | translated p act res =>
    cases hk : s.checkOf i with
    | none =>
      obtain ⟨s', hs⟩ := (C62_check_progress cfg now h s hr hd i q p act res hc).1 hk
      exact ⟨.beginCheck i, .inr rfl, by rw [hs]; rfl⟩
    | some k =>
      obtain ⟨c, hck, _⟩ := (sysOrigin_run hr).2.links i k hk
      by_cases hret : ∃ r, c.cs.coll = .ret r
      · obtain ⟨r, hret⟩ := hret
        obtain ⟨view, sched, s', hs, _⟩ := (C62_check_progress cfg now h s hr hd i q p act res hc).2 k c r hk hck (returned_loaded hr hck hret) hret
        exact ⟨.endCheck i view sched, .inr rfl, by rw [hs]; rfl⟩
      · obtain ⟨a, ha, hs⟩ := check_ready hr hd hck (.inr fun r hr => hret ⟨r, hr⟩)
        exact ⟨a, .inl ⟨k, hk, ha⟩, hs⟩
  | checked p =>
    refine ⟨.auth (.store i), .inr rfl, ?_⟩
    simp [sysStep, hd, aStep, hc]
  | done r => exact absurd rfl (hn r)

/-! ### `Verify` and `Authorize` -/

abbrev Lex6 : Nat × Nat × Nat × Nat × Nat × Nat → Nat × Nat × Nat × Nat × Nat × Nat → Prop := Prod.Lex (· < ·) (Prod.Lex (· < ·) Lex4)

theorem lex6_wf : WellFounded Lex6 := (Prod.lex Nat.lt_wfRel ⟨_, (Prod.lex Nat.lt_wfRel ⟨_, lex4_wf⟩).wf⟩).wf

def Sys.sessLeft (s : Sys) (k : Nat) : Nat × Nat × Nat × Nat × Nat × Nat :=
  match s.auth.sess k with
  | none => (0, 0, 0, 0, 0, 0)
  | some x => (if x.result.isSome then 0 else x.todo.length, match x.cur with
      | none => (1, 0, 0, 0, 0)
      | some i => (0, s.callLeft i))

structure SessReady (s : AState) : Prop where
  todo : ∀ k x, s.sess k = some x → x.result = none → x.todo ≠ []
  cur : ∀ k x i, s.sess k = some x → x.cur = some i → ∃ q pc, s.calls i = some ⟨q, pc⟩
  fresh : ∃ N, ∀ i, N ≤ i → s.calls i = none

theorem SessReady.step {cfg : AuthCfg} {s s' : AState} {a : AAct} (hi : SessReady s) (h : aStep cfg s a = some s') : SessReady s' := by
  have keep : ∀ i q pc, s.calls i = some ⟨q, pc⟩ → ∃ q pc, s'.calls i = some ⟨q, pc⟩ := fun i q pc hc =>
    let ⟨pc', h1, _⟩ := aStep_call h hc
    ⟨q, pc', h1⟩
  obtain ⟨N, hN⟩ := hi.fresh
  have fresh : ∃ N, ∀ i, N ≤ i → s'.calls i = none := by
    have set : ∀ (s1 : AState) (j : Nat) (q : AReq) (pc : Pc), s1.calls = s.calls → ∃ N, ∀ i, N ≤ i → (s1.setPc j q pc).calls i = none := by
      intro s1 j q pc h1
      refine ⟨max N (j + 1), fun i hi => ?_⟩
      have hj : i ≠ j := by omega
      simp only [AState.setPc, if_neg hj, h1]
      exact hN i (by omega)
    cases aStep_effect h with
    | call j q0 h0 => exact set _ _ _ _ rfl
    | bad j q0 h0 he => exact set _ _ _ _ rfl
    | hit j q0 p h0 he hg => exact set _ _ _ _ rfl
    | miss j q0 h0 he hg => exact set _ _ _ _ rfl
    | valid j q0 p h0 hv => exact set _ _ _ _ rfl
    | invalid j q0 r h0 hv hr => exact set _ _ _ _ rfl
    | trans j seed q0 p act res h0 ht => exact set _ _ _ _ rfl
    | transFail j seed q0 p r h0 ht => exact set _ _ _ _ rfl
    | check j view sched q0 p act res rs h0 hv => exact set _ _ _ _ rfl
    | checkFail j view sched q0 p act res r h0 hv hr => exact set _ _ _ _ rfl
    | store j q0 p h0 => exact set { s with cache := s.cache.set s.now (cacheKey cfg q0) p cfg.cacheExp } j q0 _ rfl
    | sub k j q0 rest tried hs h0 => exact set _ _ _ _ rfl
    | _ => exact ⟨N, hN⟩
  have same : s'.sess = s.sess → SessReady s' := fun hs =>
    ⟨fun k x h1 h2 => hi.todo k x (by rw [← hs]; exact h1) h2,
      fun k x i h1 h2 => let ⟨q, pc, hc⟩ := hi.cur k x i (by rw [← hs]; exact h1) h2; keep i q pc hc, fresh⟩
  have upd : ∀ (k : Nat) (y : Sess), s'.sess = (fun j => if j = k then some y else s.sess j) → (y.result = none → y.todo ≠ []) →
      (∀ i, y.cur = some i → ∃ q pc, s'.calls i = some ⟨q, pc⟩) → SessReady s' := by
    intro k y hs h1 h2
    refine ⟨fun k' x h3 => ?_, fun k' x i h3 => ?_, fresh⟩
    · rw [hs] at h3
      simp only at h3
      split at h3
      · simp only [Option.some.injEq] at h3; subst h3; exact h1
      · exact hi.todo k' x h3
    · rw [hs] at h3
      simp only at h3
      split at h3
      · simp only [Option.some.injEq] at h3; subst h3; exact h2 i
      · intro hc
        obtain ⟨q, pc, hc⟩ := hi.cur k' x i h3 hc
        exact keep i q pc hc
  have next : ∀ (x : Sess) (c : AuthCall) (rest : List AuthCall) (i : Option Nat) (r : Res Principal),
      (x.next c rest i r).result = none → (x.next c rest i r).todo ≠ [] := by
    intro x c rest i r
    cases r with
    | ok p => simp [Sess.next]
    | panic => simp [Sess.next]
    | err e =>
      simp only [Sess.next]
      split
      · simp
      · rename_i hne; intro _; exact hne
  cases aStep_effect h with
  | opened k r act res h0 =>
    refine upd k _ rfl ?_ (by simp)
    simp only
    split
    · simp
    · rename_i hne; intro _; exact hne
  | sub k j q0 rest tried hs h0 =>
    refine upd k _ rfl (by simp) ?_
    intro i hi
    simp only [Option.some.injEq] at hi
    subst hi
    exact ⟨q0, .start, by simp [AState.setPc, AState.setSess, AState.note]⟩
  | finFails k e rest tried hs => exact upd k _ rfl (next _ _ _ _ _) (by simp [Sess.next])
  | fin k c rest i tried q r hs h0 => exact upd k _ rfl (next _ _ _ _ _) (by simp [Sess.next])
  | _ => exact same rfl

theorem sessReady_run {cfg : SysCfg} {now : Int} {h : List SysAct} {s : Sys} (hr : sysRun cfg (sysInit cfg now) h = some s) : SessReady s.auth := by
  obtain ⟨_, ⟨acts, ha⟩, _⟩ := sysRuns_run hr
  refine aRun_ind (P := SessReady) (fun _ _ _ hp hs => hp.step hs) ?_ ha
  exact ⟨by simp [aInit], by simp [aInit], 0, by simp [aInit]⟩

theorem sess_ready {cfg : SysCfg} {now : Int} {h : List SysAct} {s : Sys}
    (hr : sysRun cfg (sysInit cfg now) h = some s) (hd : s.dead = false) {k : Nat} {x : Sess} (hx : s.auth.sess k = some x)
    (hn : x.result = none) : ∃ a, OfSess s k a ∧ (sysStep cfg s a).isSome := by
  have hi := sessReady_run hr
  have htodo := hi.todo k x hx hn
  obtain ⟨todo, cur, result, tried⟩ := x
  simp only at hn htodo
  subst hn
  match todo, cur, htodo with
  | .fails e :: rest, none, _ =>
    exact ⟨.auth (.fin k), .inr (.inl rfl), by simp [sysStep, hd, aStep, hx]⟩
  | .token q :: rest, none, _ =>
    obtain ⟨N, hN⟩ := hi.fresh
    exact ⟨.auth (.sub k N), .inl ⟨N, rfl⟩, by simp [sysStep, hd, aStep, hx, hN N (Nat.le_refl _)]⟩
  | c :: rest, some i, _ =>
    obtain ⟨q, pc, hc⟩ := hi.cur k _ i hx rfl
    by_cases hdone : ∃ r, pc = .done r
    · obtain ⟨r, rfl⟩ := hdone
      exact ⟨.auth (.fin k), .inr (.inl rfl), by simp [sysStep, hd, aStep, hx, hc]⟩
    · obtain ⟨a, ha, hs⟩ := call_ready hr hd hc fun r hr => hdone ⟨r, hr⟩
      exact ⟨a, .inr (.inr ⟨_, i, hx, rfl, ha⟩), hs⟩

theorem sess_next_left (x : Sess) (c : AuthCall) (rest : List AuthCall) (i : Option Nat) (r : Res Principal) :
    (if (x.next c rest i r).result.isSome then 0 else (x.next c rest i r).todo.length) < (c :: rest).length := by
  cases r with
  | ok p => simp [Sess.next]
  | panic => simp [Sess.next]
  | err e =>
    simp only [Sess.next]
    split <;> simp

theorem aStep_sess {cfg : AuthCfg} {s s' : AState} {a : AAct} (h : aStep cfg s a = some s') {k : Nat} {x : Sess} (hx : s.sess k = some x) :
    (s'.sess k = some x ∧ (∀ i, a ≠ .sub k i) ∧ a ≠ .fin k) ∨
    (∃ i x', a = .sub k i ∧ s'.sess k = some x' ∧ x.result = none ∧ x'.result = none ∧ x'.todo = x.todo ∧ x.cur = none ∧ x'.cur = some i) ∨
    (∃ x', a = .fin k ∧ s'.sess k = some x' ∧ x.result = none ∧ (if x'.result.isSome then 0 else x'.todo.length) < x.todo.length) := by
  cases aStep_effect h with
  | opened k' r act res h0 =>
    have : k ≠ k' := by rintro rfl; rw [hx] at h0; simp at h0
    exact .inl ⟨by simp only [AState.note, AState.setSess, if_neg this]; exact hx, by simp, by simp⟩
  | sub k' j q0 rest tried hs h0 =>
    by_cases hk : k = k'
    · subst hk
      rw [hx] at hs
      simp only [Option.some.injEq] at hs
      subst hs
      exact .inr (.inl ⟨j, ⟨.token q0 :: rest, some j, none, tried⟩, rfl, by simp [AState.note, AState.setSess], rfl, rfl, rfl, rfl, rfl⟩)
    · exact .inl ⟨by simp only [AState.note, AState.setSess, if_neg hk]; exact hx, by simpa using fun h : k' = k => hk h.symm, by simp⟩
  | finFails k' e rest tried hs =>
    by_cases hk : k = k'
    · subst hk
      rw [hx] at hs
      simp only [Option.some.injEq] at hs
      subst hs
      exact .inr (.inr ⟨_, rfl, by simp [AState.setSess]; rfl, rfl, sess_next_left _ _ _ _ _⟩)
    · exact .inl ⟨by simp only [AState.setSess, if_neg hk]; exact hx, by simp, by simpa using fun h : k' = k => hk h.symm⟩
  | fin k' c rest i tried q r hs h0 =>
    by_cases hk : k = k'
    · subst hk
      rw [hx] at hs
      simp only [Option.some.injEq] at hs
      subst hs
      exact .inr (.inr ⟨_, rfl, by simp [AState.setSess]; rfl, rfl, sess_next_left _ _ _ _ _⟩)
    · exact .inl ⟨by simp only [AState.setSess, if_neg hk]; exact hx, by simp, by simpa using fun h : k' = k => hk h.symm⟩
  | _ => exact .inl ⟨hx, by simp, by simp⟩

theorem sysStep_sess {cfg : SysCfg} {now : Int} {h : List SysAct} {s s' : Sys} {a : SysAct}
    (hr : sysRun cfg (sysInit cfg now) h = some s) (hs : sysStep cfg s a = some s') {k : Nat} {x : Sess}
    (hx : s.auth.sess k = some x) : ∃ x', s'.auth.sess k = some x' ∧
      (OfSess s k a → Lex6 (s'.sessLeft k) (s.sessLeft k)) ∧ (¬ OfSess s k a → s'.sessLeft k = s.sessLeft k) := by
  -- the session is not concerned itself
  have still : s'.auth.sess k = some x → (∀ i, a ≠ .auth (.sub k i)) → a ≠ .auth (.fin k) → ∃ x', s'.auth.sess k = some x' ∧
      (OfSess s k a → Lex6 (s'.sessLeft k) (s.sessLeft k)) ∧ (¬ OfSess s k a → s'.sessLeft k = s.sessLeft k) := by
    intro h1 h2 h3
    refine ⟨x, h1, ?_, ?_⟩
    · rintro (⟨i, h⟩ | h | ⟨y, i, hy, hi, hof⟩)
      · exact absurd h (h2 i)
      · exact absurd h h3
      · rw [hx] at hy
        simp only [Option.some.injEq] at hy
        subst hy
        obtain ⟨q, pc, hc⟩ := (sessReady_run hr).cur k x i hx hi
        obtain ⟨_, _, hlt, _⟩ := sysStep_call hr hs hc
        unfold Sys.sessLeft
        simp only [hx, h1, hi]
        exact .right _ (.right _ (hlt hof))
    · intro hn
      unfold Sys.sessLeft
      simp only [hx, h1]
      cases hi : x.cur with
      | none => rfl
      | some i =>
        obtain ⟨q, pc, hc⟩ := (sessReady_run hr).cur k x i hx hi
        obtain ⟨_, _, _, hsame⟩ := sysStep_call hr hs hc
        simp only [(hsame fun hof => hn (.inr (.inr ⟨x, i, hx, hi, hof⟩))).1]
  obtain ⟨_, he⟩ := sysStep_effect hs
  cases he with
  | auth b auth' ha hst =>
    rcases aStep_sess hst hx with ⟨h1, h2, h3⟩ | ⟨i, x', rfl, h2, h3, h4, h5, h6, h7⟩ | ⟨x', rfl, h2, h3, h4⟩
    · exact still h1 (fun i h => h2 i (by simpa using h)) (by simpa using h3)
    · refine ⟨x', h2, fun _ => ?_, fun hn => absurd (.inl ⟨i, rfl⟩) hn⟩
      unfold Sys.sessLeft
      simp only [hx, h2, h3, h4, h5, h6, h7]
      exact .right _ (.left _ _ (by omega))
    · refine ⟨x', h2, fun _ => ?_, fun hn => absurd (.inr (.inl rfl)) hn⟩
      unfold Sys.sessLeft
      simp only [hx, h2, h3]
      exact .left _ _ (by simpa using h4)
  | endCheck j view sched k' c r auth' hk hck hl hret hv hst =>
    refine still ?_ (by simp) (by simp)
    rcases aStep_sess hst hx with ⟨h1, _⟩ | ⟨i, x', h, _⟩ | ⟨x', h, _⟩
    · exact h1
    · simp at h
    · simp at h
  | _ => exact still hx (by simp) (by simp)

end Athenz
