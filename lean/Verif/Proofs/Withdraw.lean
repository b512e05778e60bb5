import Verif.Proofs.SysLive
import Verif.Proofs.AuthTime

/-! # The calls in the assembled authorizer, step by step -/

namespace Athenz
open Spec

/-- A step of the assembled authorizer is one of the authorization calls, or leaves them alone. -/
theorem sysStep_auth {cfg : SysCfg} {s s' : Sys} {a : SysAct} (hs : sysStep cfg s a = some s') :
    (s'.auth.calls = s.auth.calls ∧ s'.auth.log = s.auth.log ∧ s'.auth.sess = s.auth.sess ∧ s.auth.now ≤ s'.auth.now) ∨
    ∃ b, (a = .auth b ∨ ∃ i view sched, a = .endCheck i view sched ∧ b = .check i view sched) ∧ aStep cfg.auth s.auth b = some s'.auth ∧
      s'.auth.now = s.auth.now := by
  obtain ⟨_, he⟩ := sysStep_effect hs
  cases he with
  | tick d => exact .inl ⟨rfl, rfl, rfl, by simp only; omega⟩
  | pk => exact .inl ⟨rfl, rfl, rfl, Int.le_refl _⟩
  | endCheck i view sched k c r auth' hk hc hl hr hv h =>
    refine .inr ⟨_, .inr ⟨i, view, sched, rfl, rfl⟩, h, ?_⟩
    cases aStep_effect h <;> rfl
  | auth b auth' hb h =>
    refine .inr ⟨b, .inl rfl, h, ?_⟩
    cases aStep_effect h with
    | tick d => simp [AAct.own] at hb
    | _ => rfl
  | _ => exact .inl ⟨rfl, rfl, rfl, Int.le_refl _⟩

theorem sysStep_now {cfg : SysCfg} {s s' : Sys} {a : SysAct} (hs : sysStep cfg s a = some s') : s.auth.now ≤ s'.auth.now := by
  rcases sysStep_auth hs with ⟨_, _, _, h⟩ | ⟨_, _, _, h⟩
  · exact h
  · omega

theorem sysRun_now {cfg : SysCfg} {s s' : Sys} {h : List SysAct} (hr : sysRun cfg s h = some s') : s.auth.now ≤ s'.auth.now := by
  induction h generalizing s with
  | nil => simp only [sysRun, Option.some.injEq] at hr; subst hr; exact Int.le_refl _
  | cons a h ih =>
    simp only [sysRun] at hr
    split at hr
    · simp at hr
    · rename_i s1 hs
      have := sysStep_now hs
      have := ih hr
      omega

/-- What a step does to the calls: nothing is forgotten, and what is returned stays. -/
theorem aStep_calls {cfg : AuthCfg} {s s' : AState} {b : AAct} (h : aStep cfg s b = some s') {i : Nat} {q : AReq} {pc : Pc}
    (hc : s.calls i = some ⟨q, pc⟩) : ∃ pc', s'.calls i = some ⟨q, pc'⟩ ∧ ((∃ r, pc = .done r) → pc' = pc) := by
  have same : s'.calls = s.calls → ∃ pc', s'.calls i = some ⟨q, pc'⟩ ∧ ((∃ r, pc = .done r) → pc' = pc) := by
    intro h; exact ⟨pc, by rw [h]; exact hc, fun _ => rfl⟩
  have set : ∀ (j : Nat) (q' : AReq) (pc0 pc1 : Pc), s.calls j = some ⟨q', pc0⟩ → (∀ r, pc0 ≠ .done r) →
      s'.calls = (fun i => if i = j then some ⟨q', pc1⟩ else s.calls i) → ∃ pc', s'.calls i = some ⟨q, pc'⟩ ∧ ((∃ r, pc = .done r) → pc' = pc) := by
    intro j q' pc0 pc1 hj hnd hcalls
    by_cases hij : i = j
    · subst hij
      rw [hc] at hj
      simp only [Option.some.injEq, Call.mk.injEq] at hj
      obtain ⟨rfl, rfl⟩ := hj
      refine ⟨pc1, by rw [hcalls]; simp, ?_⟩
      rintro ⟨r, rfl⟩
      exact absurd rfl (hnd r)
    · exact ⟨pc, by rw [hcalls]; simp only [if_neg hij]; exact hc, fun _ => rfl⟩
  have new : ∀ (j : Nat) (q' : AReq) (pc1 : Pc), s.calls j = none →
      s'.calls = (fun i => if i = j then some ⟨q', pc1⟩ else s.calls i) → ∃ pc', s'.calls i = some ⟨q, pc'⟩ ∧ ((∃ r, pc = .done r) → pc' = pc) := by
    intro j q' pc1 hj hcalls
    have hij : i ≠ j := by rintro rfl; rw [hc] at hj; simp at hj
    exact ⟨pc, by rw [hcalls]; simp only [if_neg hij]; exact hc, fun _ => rfl⟩
  cases aStep_effect h with
  | call j q' hj => exact new j q' _ hj rfl
  | sub k j q' rest tried hs hj => exact new j q' _ hj rfl
  | bad j q' hj => exact set j q' _ _ hj (by simp) rfl
  | hit j q' p hj => exact set j q' _ _ hj (by simp) rfl
  | miss j q' hj => exact set j q' _ _ hj (by simp) rfl
  | valid j q' p hj => exact set j q' _ _ hj (by simp) rfl
  | invalid j q' r hj => exact set j q' _ _ hj (by simp) rfl
  | trans j seed q' p act res hj => exact set j q' _ _ hj (by simp) rfl
  | transFail j seed q' p r hj => exact set j q' _ _ hj (by simp) rfl
  | check j view sched q' p act res rs hj => exact set j q' _ _ hj (by simp) rfl
  | checkFail j view sched q' p act res r hj => exact set j q' _ _ hj (by simp) rfl
  | store j q' p hj => exact set j q' _ _ hj (by simp) rfl
  | _ => exact same rfl

theorem sysStep_calls {cfg : SysCfg} {s s' : Sys} {a : SysAct} (h : sysStep cfg s a = some s') {i : Nat} {q : AReq} {pc : Pc}
    (hc : s.auth.calls i = some ⟨q, pc⟩) : ∃ pc', s'.auth.calls i = some ⟨q, pc'⟩ ∧ ((∃ r, pc = .done r) → pc' = pc) := by
  rcases sysStep_auth h with ⟨h1, _⟩ | ⟨b, _, hb, _⟩
  · exact ⟨pc, by rw [h1]; exact hc, fun _ => rfl⟩
  · exact aStep_calls hb hc

theorem sysRun_calls {cfg : SysCfg} {s s' : Sys} {h : List SysAct} (hr : sysRun cfg s h = some s') {i : Nat} {q : AReq} {pc : Pc}
    (hc : s.auth.calls i = some ⟨q, pc⟩) : ∃ pc', s'.auth.calls i = some ⟨q, pc'⟩ ∧ ((∃ r, pc = .done r) → pc' = pc) := by
  induction h generalizing s pc with
  | nil => simp only [sysRun, Option.some.injEq] at hr; subst hr; exact ⟨pc, hc, fun _ => rfl⟩
  | cons a h ih =>
    simp only [sysRun] at hr
    split at hr
    · simp at hr
    · rename_i s1 hs
      obtain ⟨pc1, h1, h2⟩ := sysStep_calls hs hc
      obtain ⟨pc2, h3, h4⟩ := ih hr h1
      refine ⟨pc2, h3, fun hd => ?_⟩
      have := h2 hd
      subst this
      exact h4 hd

/-- Events are only added: a store of call `j` by a step at which call `j` had its decision, a beginning by one before which the call did not
exist. -/
theorem aStep_log {cfg : AuthCfg} {s s' : AState} {b : AAct} (h : aStep cfg s b = some s') :
    (∀ e ∈ s.log, e ∈ s'.log) ∧
    (∀ j t k p, AEvent.stored j t k p ∈ s'.log → AEvent.stored j t k p ∈ s.log ∨
      t = s.now ∧ ∃ q, b = .store j ∧ s.calls j = some ⟨q, .checked p⟩ ∧ k = cacheKey cfg q) ∧
    ∀ i t, AEvent.begun i t ∈ s'.log → AEvent.begun i t ∈ s.log ∨ t = s.now ∧ s.calls i = none := by
  have same : s'.log = s.log → (∀ e ∈ s.log, e ∈ s'.log) ∧
    (∀ j t k p, AEvent.stored j t k p ∈ s'.log → AEvent.stored j t k p ∈ s.log ∨
      t = s.now ∧ ∃ q, b = .store j ∧ s.calls j = some ⟨q, .checked p⟩ ∧ k = cacheKey cfg q) ∧
    ∀ i t, AEvent.begun i t ∈ s'.log → AEvent.begun i t ∈ s.log ∨ t = s.now ∧ s.calls i = none := by
    intro h; rw [h]; exact ⟨fun _ h => h, fun _ _ _ _ h => .inl h, fun _ _ h => .inl h⟩
  cases aStep_effect h with
  | call j q' hj =>
    refine ⟨fun e he => List.mem_append_left _ he, ?_, ?_⟩
    · intro j t k p hm; simp [AState.note, AState.setPc] at hm; exact .inl hm
    · intro i t hm
      simp only [AState.note, AState.setPc, List.mem_append, List.mem_singleton, AEvent.begun.injEq] at hm
      rcases hm with hm | ⟨rfl, rfl⟩
      · exact .inl hm
      · exact .inr ⟨rfl, hj⟩
  | sub k j q' rest tried hs hj =>
    refine ⟨fun e he => List.mem_append_left _ he, ?_, ?_⟩
    · intro j t k p hm; simp [AState.note, AState.setPc, AState.setSess] at hm; exact .inl hm
    · intro i t hm
      simp only [AState.note, AState.setPc, AState.setSess, List.mem_append, List.mem_singleton, AEvent.begun.injEq] at hm
      rcases hm with hm | ⟨rfl, rfl⟩
      · exact .inl hm
      · exact .inr ⟨rfl, hj⟩
  | store j q' p' hj =>
    refine ⟨fun e he => List.mem_append_left _ he, ?_, ?_⟩
    · intro j t k p hm
      simp only [AState.note, AState.setPc, List.mem_append, List.mem_singleton, AEvent.stored.injEq] at hm
      rcases hm with hm | ⟨rfl, rfl, rfl, rfl⟩
      · exact .inl hm
      · exact .inr ⟨rfl, q', rfl, hj, rfl⟩
    · intro i t hm; simp [AState.note, AState.setPc] at hm; exact .inl hm
  | bad => exact same rfl
  | miss => exact same rfl
  | finFails => exact same rfl
  | fin => exact same rfl
  | tick => exact same rfl
  | setKeys => exact same rfl
  | setJwkp => exact same rfl
  | sweep => exact same rfl
  | clear => exact same rfl
  | _ =>
    refine ⟨fun e he => List.mem_append_left _ he, ?_, ?_⟩
    · intro j t k p hm; simp [AState.note, AState.setPc, AState.setSess] at hm; exact .inl hm
    · intro i t hm; simp [AState.note, AState.setPc, AState.setSess] at hm; exact .inl hm

theorem sysStep_log {cfg : SysCfg} {s s' : Sys} {a : SysAct} (h : sysStep cfg s a = some s') :
    (∀ e ∈ s.auth.log, e ∈ s'.auth.log) ∧
    (∀ j t k p, AEvent.stored j t k p ∈ s'.auth.log → AEvent.stored j t k p ∈ s.auth.log ∨
      t = s.auth.now ∧ ∃ q, s.auth.calls j = some ⟨q, .checked p⟩ ∧ s'.auth.calls j = some ⟨q, .done (.ok p)⟩ ∧ k = cacheKey cfg.auth q) ∧
    ∀ i t, AEvent.begun i t ∈ s'.auth.log → AEvent.begun i t ∈ s.auth.log ∨ t = s.auth.now ∧ s.auth.calls i = none := by
  rcases sysStep_auth h with ⟨_, h1, _⟩ | ⟨b, _, hb, _⟩
  · rw [h1]; exact ⟨fun _ h => h, fun _ _ _ _ h => .inl h, fun _ _ h => .inl h⟩
  · obtain ⟨h1, h2, h3⟩ := aStep_log hb
    refine ⟨h1, fun j t k p hm => ?_, h3⟩
    rcases h2 j t k p hm with h | ⟨ht, q, rfl, hq, hk⟩
    · exact .inl h
    · refine .inr ⟨ht, q, hq, ?_, hk⟩
      generalize s'.auth = s2 at hb
      cases aStep_effect hb with
      | store _ q' p' hc =>
        rw [hq] at hc
        simp only [Option.some.injEq, Call.mk.injEq, Pc.checked.injEq] at hc
        obtain ⟨rfl, rfl⟩ := hc
        simp [AState.note, AState.setPc]

/-- What a call that had returned at `s` has stored, it had stored at `s`. -/
theorem sysRun_stored {cfg : SysCfg} {s s' : Sys} {h : List SysAct} (hr : sysRun cfg s h = some s') {j : Nat} {q : AReq} {r : Res Principal}
    (hc : s.auth.calls j = some ⟨q, .done r⟩) {t : Int} {k : Str} {p : Principal} (hm : AEvent.stored j t k p ∈ s'.auth.log) :
    AEvent.stored j t k p ∈ s.auth.log := by
  induction h generalizing s with
  | nil => simp only [sysRun, Option.some.injEq] at hr; subst hr; exact hm
  | cons a h ih =>
    simp only [sysRun] at hr
    split at hr
    · simp at hr
    · rename_i s1 hs
      obtain ⟨pc', h1, h2⟩ := sysStep_calls hs hc
      obtain rfl := h2 ⟨r, rfl⟩
      rcases (sysStep_log hs).2.1 j t k p (ih hr h1) with h | ⟨_, q', hq', _⟩
      · exact h
      · rw [hc] at hq'; simp at hq'

/-- A call that existed at `s` had begun at `s`. -/
theorem sysRun_begun {cfg : SysCfg} {s s' : Sys} {h : List SysAct} (hr : sysRun cfg s h = some s') {i : Nat} {q : AReq} {pc : Pc}
    (hc : s.auth.calls i = some ⟨q, pc⟩) {t : Int} (hm : AEvent.begun i t ∈ s'.auth.log) : AEvent.begun i t ∈ s.auth.log := by
  induction h generalizing s pc with
  | nil => simp only [sysRun, Option.some.injEq] at hr; subst hr; exact hm
  | cons a h ih =>
    simp only [sysRun] at hr
    split at hr
    · simp at hr
    · rename_i s1 hs
      obtain ⟨pc', h1, _⟩ := sysStep_calls hs hc
      rcases (sysStep_log hs).2.2 i t (ih hr h1) with h | ⟨_, hn⟩
      · exact h
      · rw [hc] at hn; simp at hn

/-- Events have happened. -/
theorem log_past {cfg : SysCfg} {now : Int} {h : List SysAct} {s : Sys} (hr : sysRun cfg (sysInit cfg now) h = some s) :
    (∀ j t k p, AEvent.stored j t k p ∈ s.auth.log → t ≤ s.auth.now) ∧ ∀ i t, AEvent.begun i t ∈ s.auth.log → t ≤ s.auth.now := by
  refine sysRun_ind (fun _ s => (∀ j t k p, AEvent.stored j t k p ∈ s.auth.log → t ≤ s.auth.now) ∧
    ∀ i t, AEvent.begun i t ∈ s.auth.log → t ≤ s.auth.now) ⟨by simp [sysInit, aInit], by simp [sysInit, aInit]⟩ ?_ h s hr
  intro h s a s' ih _ hs
  have hnow := sysStep_now hs
  obtain ⟨_, h2, h3⟩ := sysStep_log hs
  refine ⟨fun j t k p hm => ?_, fun i t hm => ?_⟩
  · rcases h2 j t k p hm with h | ⟨h, _⟩
    · have := ih.1 j t k p h; omega
    · omega
  · rcases h3 i t hm with h | ⟨h, _⟩
    · have := ih.2 i t h; omega
    · omega

/-- A call that asks for its check exists. -/
theorem beginCheck_call {cfg : SysCfg} {now : Int} {h : List SysAct} {s : Sys} (hr : sysRun cfg (sysInit cfg now) h = some s) {i : Nat}
    (hm : SysAct.beginCheck i ∈ h) : ∃ q pc, s.auth.calls i = some ⟨q, pc⟩ := by
  revert hm
  refine sysRun_ind (fun h s => SysAct.beginCheck i ∈ h → ∃ q pc, s.auth.calls i = some ⟨q, pc⟩) (by simp) ?_ h s hr
  intro h s a s' ih _ hs hm
  rcases List.mem_append.mp hm with hm | hm
  · obtain ⟨q, pc, h1⟩ := ih hm
    obtain ⟨pc', h2, _⟩ := sysStep_calls hs h1
    exact ⟨q, pc', h2⟩
  · rw [List.mem_singleton] at hm
    subst hm
    obtain ⟨_, he⟩ := sysStep_effect hs
    cases he with
    | beginCheck _ q p act res pd' hc hn h => exact ⟨q, _, hc⟩

end Athenz
