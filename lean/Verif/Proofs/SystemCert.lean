import Verif.Spec.SystemCert
import Verif.Props.SysLive
import Verif.Proofs.RoleCert

/-! Calls of `VerifyRoleCert` in the assembled authorizer. -/

namespace Athenz
open Spec

/-! ### Checks that have returned -/

theorem checkStep_ret {U : CaseFns} {q : CheckReq} {s s' : CheckState} {a : CheckAct} (h : checkStep U q s a = some s') {r : Res (List Str)}
    (hr : s.coll = .ret r) : s'.coll = .ret r := by
  unfold checkStep CheckState.send at h
  cases a with
  | recv => simp [hr] at h
  | _ =>
    simp only at h
    repeat' split at h
    all_goals first
      | (simp at h; done)
      | (simp only [Option.some.injEq] at h; subst h; exact hr)

theorem pdStep_ret {U : CaseFns} {s s' : PdState} {a : PdAct} (h : pdStep U s a = some s') {k : Nat} {c : Chk} (hc : s.checks[k]? = some c)
    {r : Res (List Str)} (hl : c.loaded.isSome) (hr : c.cs.coll = .ret r) :
    ∃ c', s'.checks[k]? = some c' ∧ c'.q = c.q ∧ c'.cs.coll = .ret r := by
  have hset : ∀ (k' : Nat) (c' : Chk), (k' = k → c'.q = c.q ∧ c'.cs.coll = .ret r) →
      ∃ c'', (s.checks.set k' c')[k]? = some c'' ∧ c''.q = c.q ∧ c''.cs.coll = .ret r := by
    intro k' c' hq
    by_cases hk : k' = k
    · subst hk
      exact ⟨c', by rw [List.getElem?_set_self (lt_of_getElem? hc)], hq rfl⟩
    · exact ⟨c, by rw [List.getElem?_set_ne hk]; exact hc, rfl, hr⟩
  unfold pdStep at h
  split at h
  · simp at h
  cases a with
  | load k' =>
    simp only at h
    repeat' split at h
    · simp at h
    · simp at h
    · rename_i c0 h0 hn
      simp only [Option.some.injEq] at h; subst h
      refine hset k' _ fun hk => ?_
      subst hk
      rw [hc] at h0
      simp only [Option.some.injEq] at h0
      subst h0
      exact absurd hl hn
  | chk k' b =>
    have hgo : ∀ (cs : CheckState) (c0 : Chk) (v : PolicyView), s.checks[k']? = some c0 → checkStep U c0.q { c0.cs with view := v } b = some cs →
        ∃ c'', (s.checks.set k' { c0 with cs := cs })[k]? = some c'' ∧ c''.q = c.q ∧ c''.cs.coll = .ret r := by
      intro cs c0 v h0 hst
      refine hset k' _ fun hk => ?_
      subst hk
      rw [hc] at h0
      simp only [Option.some.injEq] at h0
      subst h0
      exact ⟨rfl, checkStep_ret hst hr⟩
    simp only at h
    repeat' split at h
    all_goals first
      | (simp at h; done)
      | (simp only [Option.some.injEq] at h; subst h
         exact hgo _ _ _ (by assumption) (by assumption))
  | check q =>
    simp only [Option.some.injEq] at h; subst h
    exact ⟨c, by rw [List.getElem?_append_left (lt_of_getElem? hc)]; exact hc, rfl, hr⟩
  | _ =>
    simp only at h
    repeat' split at h
    all_goals first
      | (simp at h; done)
      | (simp only [Option.some.injEq] at h; subst h; exact ⟨c, hc, rfl, hr⟩)

theorem sysStep_ret {cfg : SysCfg} {s s' : Sys} {a : SysAct} (hs : sysStep cfg s a = some s') {k : Nat} {c : Chk}
    (hc : s.pd.checks[k]? = some c) {r : Res (List Str)} (hl : c.loaded.isSome) (hr : c.cs.coll = .ret r) :
    ∃ c', s'.pd.checks[k]? = some c' ∧ c'.q = c.q ∧ c'.cs.coll = .ret r := by
  obtain ⟨_, he⟩ := sysStep_effect hs
  cases he with
  | pd b pd' D F W ha hp hD hF hbr => exact pdStep_ret hp hc hl hr
  | beginCheck i q p act res pd' h1 h2 hp => exact pdStep_ret hp hc hl hr
  | _ => exact ⟨c, hc, rfl, hr⟩

/-- Checks are never forgotten. -/
theorem checks_grow {cfg : SysCfg} {h2 : List SysAct} {s1 s2 : Sys} (hr2 : sysRun cfg s1 h2 = some s2) : s1.pd.checks.length ≤ s2.pd.checks.length := by
  have step : ∀ (s s' : Sys) (a : SysAct), sysStep cfg s a = some s' → s.pd.checks.length ≤ s'.pd.checks.length := by
    intro s s' a hs
    refine Classical.byContradiction fun hlt => ?_
    obtain ⟨c, hc⟩ : ∃ c, s.pd.checks[s'.pd.checks.length]? = some c := ⟨_, List.getElem?_eq_getElem (by omega)⟩
    obtain ⟨c', hc', _⟩ := sysStep_chk hs hc
    simpa using lt_of_getElem? hc'
  induction h2 generalizing s1 with
  | nil => simp only [sysRun, Option.some.injEq] at hr2; subst hr2; exact Nat.le_refl _
  | cons a h2 ih =>
    simp only [sysRun] at hr2
    split at hr2
    · simp at hr2
    · rename_i s' hs
      exact Nat.le_trans (step _ _ _ hs) (ih hr2)

/-- A context is done only after it was cancelled. -/
theorem parent_history {cfg : SysCfg} {now : Int} : ∀ h s, sysRun cfg (sysInit cfg now) h = some s →
    ∀ k c, s.pd.checks[k]? = some c → c.cs.parent = true → SysAct.pd (.chk k .cancel) ∈ h := by
  refine sysRun_ind _ (by simp [sysInit, pdInit]) ?_
  intro h s a s' ih _ hs k c hc hp
  cases h0 : s.pd.checks[k]? with
  | some c0 =>
    obtain ⟨c', h1, _, _, _, h2⟩ := sysStep_chk hs h0
    rw [hc] at h1
    simp only [Option.some.injEq] at h1
    subst h1
    rcases h2 with h2 | h2 | h2
    · exact List.mem_append_left _ (ih k c0 h0 (h2 ▸ hp))
    · rw [hp] at h2; simp at h2
    · simp [h2]
  | none =>
    exfalso
    have new : ∀ (pd' : PdState) (b : PdAct), pdStep cfg.auth.U s.pd b = some pd' → pd'.checks[k]? = some c → False := by
      intro pd' b hp' hc'
      unfold pdStep at hp'
      split at hp'
      · simp at hp'
      cases b with
      | check q =>
        simp only [Option.some.injEq] at hp'; subst hp'
        rcases getElem?_append_cases hc' with h1 | ⟨_, h1⟩
        · rw [h0] at h1; simp at h1
        · subst h1; simp [CheckReq.init] at hp
      | load k' =>
        simp only at hp'
        repeat' split at hp'
        all_goals first
          | (simp at hp'; done)
          | (simp only [Option.some.injEq] at hp'; subst hp'
             have := lt_of_getElem? hc'
             rw [List.length_set] at this
             rw [List.getElem?_eq_getElem this] at h0
             simp at h0)
      | chk k' b =>
        simp only at hp'
        repeat' split at hp'
        all_goals first
          | (simp at hp'; done)
          | (simp only [Option.some.injEq] at hp'; subst hp'
             have := lt_of_getElem? hc'
             rw [List.length_set] at this
             rw [List.getElem?_eq_getElem this] at h0
             simp at h0)
      | _ =>
        simp only at hp'
        repeat' split at hp'
        all_goals first
          | (simp at hp'; done)
          | (simp only [Option.some.injEq] at hp'; subst hp'; simp only at hc'; rw [h0] at hc'; simp at hc')
    obtain ⟨_, he⟩ := sysStep_effect hs
    cases he with
    | pd b pd' D F W ha hp' hD hF hbr => exact new _ _ hp' hc
    | beginCheck i q p act res pd' h1 h2 hp' => exact new _ _ hp' hc
    | _ => simp only [Sys.withKeys] at hc; rw [h0] at hc; simp at hc

/-! ### Calls -/

/-- Check number `k` was asked for with `q` and has returned `r`. -/
def Returned (s : Sys) (k : Nat) (q : CheckReq) (r : Res (List Str)) : Prop :=
  ∃ c, s.pd.checks[k]? = some c ∧ c.q = q ∧ c.cs.coll = .ret r

theorem Returned.step {cfg : SysCfg} {now : Int} {h : List SysAct} {s s' : Sys} {a : SysAct} (hr : sysRun cfg (sysInit cfg now) h = some s)
    (hs : sysStep cfg s a = some s') {k : Nat} {q : CheckReq} {r : Res (List Str)} (hc : Returned s k q r) : Returned s' k q r := by
  obtain ⟨c, h1, h2, h3⟩ := hc
  obtain ⟨c', g1, g2, g3⟩ := sysStep_ret hs h1 (returned_loaded hr h1 h3) h3
  exact ⟨c', g1, g2.trans h2, g3⟩

/-- What the call asks for in its turn for `d`. -/
def CertCall.req (c : CertCall) (d : Str × List Str) : CheckReq := ⟨d.1, d.2, c.act, c.res⟩

/-- The first `n` checks of the call have failed. -/
def Failed (s : Sys) (c : CertCall) (n : Nat) : Prop :=
  ∀ (j k : Nat) (d : Str × List Str), j < n → c.checks[j]? = some k → c.order[j]? = some d → ∃ e, Returned s k (c.req d) (.err e)

/-- What is known about a call. -/
structure CertCallInv (cfg : SysCfg) (now : Int) (h : List SysAct) (s : Sys) (c : CertCall) : Prop where
  perm : c.order.Perm (certRoles cfg.auth.roleCertURIPrefix c.certs).roles
  begun : c.begun ≤ h.length
  len : c.checks.length ≤ c.order.length
  asked : ∀ (j k : Nat), c.checks[j]? = some k → ∃ d chk, c.order[j]? = some d ∧ s.pd.checks[k]? = some chk ∧ chk.q = c.req d
  fresh : ∀ k ∈ c.checks, ∀ h1 h2 s1, h = h1 ++ h2 → sysRun cfg (sysInit cfg now) h1 = some s1 → h1.length ≤ c.begun → s1.pd.checks.length ≤ k
  pc : match c.pc with
    | .next => c.checks.length < c.order.length ∧ Failed s c c.checks.length
    | .wait => c.checks ≠ [] ∧ Failed s c (c.checks.length - 1)
    | .done r => (c.order = [] ∧ r = .err (.other "invalid role certificate")) ∨
        ∃ k d r', c.checks.getLast? = some k ∧ c.order[c.checks.length - 1]? = some d ∧ Returned s k (c.req d) r' ∧
          match r' with
          | .ok _ => r = .ok ()
          | .err e => r = .err e ∧ c.checks.length = c.order.length ∧ Failed s c c.checks.length
          | .panic => r = .panic

theorem Failed.step {cfg : SysCfg} {now : Int} {h : List SysAct} {s s' : Sys} {a : SysAct} (hr : sysRun cfg (sysInit cfg now) h = some s)
    (hs : sysStep cfg s a = some s') {c : CertCall} {n : Nat} (hf : Failed s c n) : Failed s' c n := by
  intro j k d h1 h2 h3
  obtain ⟨e, he⟩ := hf j k d h1 h2 h3
  exact ⟨e, he.step hr hs⟩

theorem split_snoc {α : Type} {h h1 h2 : List α} {a : α} (he : h ++ [a] = h1 ++ h2) : (h2 = [] ∧ h1 = h ++ [a]) ∨ ∃ h3, h = h1 ++ h3 := by
  rcases List.eq_nil_or_concat h2 with rfl | ⟨h3, b, rfl⟩
  · left; exact ⟨rfl, by simpa using he.symm⟩
  · right
    refine ⟨h3, ?_⟩
    rw [List.concat_eq_append, ← List.append_assoc] at he
    exact (List.append_inj' he rfl).1

theorem CertCallInv.fresh_step {cfg : SysCfg} {now : Int} {h : List SysAct} {s : Sys} {c : CertCall} (hi : CertCallInv cfg now h s c)
    (a : SysAct) : ∀ k ∈ c.checks, ∀ h1 h2 s1, h ++ [a] = h1 ++ h2 → sysRun cfg (sysInit cfg now) h1 = some s1 → h1.length ≤ c.begun →
      s1.pd.checks.length ≤ k := by
  intro k hk h1 h2 s1 he hr hl
  rcases split_snoc he with ⟨_, rfl⟩ | ⟨h3, rfl⟩
  · have := hi.begun
    simp at hl; omega
  · exact hi.fresh k hk h1 h3 s1 rfl hr hl

/-- Other steps do not disturb a call. -/
theorem CertCallInv.step {cfg : SysCfg} {now : Int} {h : List SysAct} {s s' : Sys} {a : SysAct} {c : CertCall}
    (hi : CertCallInv cfg now h s c) (hr : sysRun cfg (sysInit cfg now) h = some s) (hs : sysStep cfg s a = some s') :
    CertCallInv cfg now (h ++ [a]) s' c := by
  refine ⟨hi.perm, by have := hi.begun; simp; omega, hi.len, ?_, hi.fresh_step a, ?_⟩
  · intro j k hj
    obtain ⟨d, chk, h1, h2, h3⟩ := hi.asked j k hj
    obtain ⟨c', g1, g2, _⟩ := sysStep_chk hs h2
    exact ⟨d, c', h1, g1, g2.trans h3⟩
  · have hpc := hi.pc
    cases hc : c.pc with
    | next => simp only [hc] at hpc ⊢; exact ⟨hpc.1, hpc.2.step hr hs⟩
    | wait => simp only [hc] at hpc ⊢; exact ⟨hpc.1, hpc.2.step hr hs⟩
    | done r =>
      simp only [hc] at hpc ⊢
      rcases hpc with h1 | ⟨k, d, r', h1, h2, h3, h4⟩
      · exact .inl h1
      · refine .inr ⟨k, d, r', h1, h2, h3.step hr hs, ?_⟩
        cases r' with
        | ok x => exact h4
        | err e => exact ⟨h4.1, h4.2.1, h4.2.2.step hr hs⟩
        | panic => exact h4

theorem sysStep_tick0 {cfg : SysCfg} {s : Sys} (hd : s.dead = false) : sysStep cfg s (.tick 0) = some s := by
  cases s
  simp only at hd
  subst hd
  simp [sysStep]

theorem sysStep_check {cfg : SysCfg} {s s' : Sys} {q : CheckReq} (hs : sysStep cfg s (.pd (.check q)) = some s') :
    s'.pd.checks = s.pd.checks ++ [⟨q, none, q.init (fun _ => none)⟩] := by
  obtain ⟨_, he⟩ := sysStep_effect hs
  cases he with
  | pd b pd' D F W ha hp hD hF hbr =>
    unfold pdStep at hp
    split at hp
    · simp at hp
    · simp only [Option.some.injEq] at hp
      subst hp
      rfl

/-- The invariant. -/
structure CertInv (cfg : SysCfg) (now : Int) (s : CSys) : Prop where
  run : sysRun cfg (sysInit cfg now) s.trace = some s.sys
  calls : ∀ (i : Nat) (c : CertCall), s.certs[i]? = some c → CertCallInv cfg now s.trace s.sys c

theorem getElem?_snoc {α : Type} {l : List α} {a x : α} {j : Nat} (h : (l ++ [a])[j]? = some x) : (j < l.length ∧ l[j]? = some x) ∨ (j = l.length ∧ x = a) := by
  by_cases hj : j < l.length
  · left; rw [List.getElem?_append_left hj] at h; exact ⟨hj, h⟩
  · right
    have := lt_of_getElem? h
    simp at this
    have : j = l.length := by omega
    subst this
    simp at h
    exact ⟨rfl, h.symm⟩

theorem CertInv.step {cfg : SysCfg} {now : Int} (hpol : cfg.auth.disablePolicyd = false) {s s' : CSys} {a : CAct} (hi : CertInv cfg now s)
    (hs : cStep cfg s a = some s') : CertInv cfg now s' := by
  unfold cStep at hs
  cases a with
  | sys a =>
    simp only at hs
    split at hs
    · simp at hs
    · rename_i sys hsys
      simp only [Option.some.injEq] at hs; subst hs
      exact ⟨sysRun_snoc hi.run hsys, fun i c hc => (hi.calls i c hc).step hi.run hsys⟩
  | call certs act res order =>
    simp only at hs
    split at hs
    · rename_i hc
      simp only [Option.some.injEq] at hs; subst hs
      have htick := sysStep_tick0 (cfg := cfg) hc.1
      refine ⟨sysRun_snoc hi.run htick, fun i c hci => ?_⟩
      rcases getElem?_append_cases hci with h1 | ⟨_, h1⟩
      · exact (hi.calls i c h1).step hi.run htick
      · subst h1
        refine ⟨List.isPerm_iff.mp hc.2, by simp [certBegin], by simp [certBegin], by simp [certBegin], by simp [certBegin], ?_⟩
        simp only [certBegin, hpol, Bool.false_eq_true, if_false]
        by_cases ho : order = []
        · simp only [ho, if_true]; simp
        · simp only [ho, if_false]
          exact ⟨List.length_pos_iff.mpr ho, by intro j k d hj; simp at hj⟩
    · simp at hs
  | next i =>
    simp only at hs
    split at hs
    · simp at hs
    rename_i c hc
    split at hs
    · rename_i d rs hpc hd
      split at hs
      · simp at hs
      rename_i sys hsys
      simp only [Option.some.injEq] at hs; subst hs
      refine ⟨sysRun_snoc hi.run hsys, fun i' c' hc' => ?_⟩
      rcases getElem?_set_cases' hc' with ⟨_, h1⟩ | ⟨_, h1⟩
      · subst h1
        have h0 := (hi.calls i c hc).step hi.run hsys
        have hlen : s.sys.pd.checks.length < sys.pd.checks.length := by rw [sysStep_check hsys]; simp
        have hlt := lt_of_getElem? hd
        refine ⟨h0.perm, h0.begun, by simp; omega, ?_, ?_, ?_⟩
        · intro j k hj
          rcases getElem?_snoc hj with ⟨_, hj⟩ | ⟨rfl, rfl⟩
          · exact h0.asked j k hj
          · refine ⟨(d, rs), ⟨⟨d, rs, c.act, c.res⟩, none, CheckReq.init ⟨d, rs, c.act, c.res⟩ (fun _ => none)⟩, hd, ?_, rfl⟩
            rw [sysStep_check hsys]
            exact List.getElem?_concat_length
        · intro k hk h1 h2 s1 he hr hl
          simp only [List.mem_append, List.mem_singleton] at hk
          rcases hk with hk | rfl
          · exact h0.fresh k hk h1 h2 s1 he hr hl
          · have hb := (hi.calls i c hc).begun
            rcases split_snoc he with ⟨_, rfl⟩ | ⟨h3, he⟩
            · simp at hl; omega
            · have := hi.run
              rw [he, sysRun_append, hr] at this
              exact checks_grow this
        · have hp := h0.pc
          rw [hpc] at hp
          refine ⟨by simp, ?_⟩
          simp only [List.length_append, List.length_singleton, Nat.add_sub_cancel]
          intro j k d' hj hk hd'
          rw [List.getElem?_append_left hj] at hk
          exact hp.2 j k d' hj hk hd'
      · exact (hi.calls i' c' h1).step hi.run hsys
    · simp at hs
  | ret i =>
    simp only at hs
    split at hs
    · simp at hs
    rename_i hdead
    split at hs
    · simp at hs
    rename_i c hc
    split at hs
    · rename_i chk hpc hchk
      split at hs
      · simp at hs
      rename_i r hret
      simp only [Option.some.injEq] at hs; subst hs
      have htick := sysStep_tick0 (cfg := cfg) (by simpa using hdead)
      refine ⟨sysRun_snoc hi.run htick, fun i' c' hc' => ?_⟩
      rcases getElem?_set_cases' hc' with ⟨_, h1⟩ | ⟨_, h1⟩
      · subst h1
        have h0 := (hi.calls i c hc).step hi.run htick
        have hp := h0.pc
        rw [hpc] at hp
        obtain ⟨hne, hf⟩ := hp
        obtain ⟨k, hk, hchk⟩ := Option.bind_eq_some_iff.mp hchk
        have hkl : c.checks[c.checks.length - 1]? = some k := by rw [← List.getLast?_eq_getElem?]; exact hk
        obtain ⟨d, chk', hd, hchk', hq⟩ := h0.asked _ k hkl
        rw [hchk] at hchk'
        simp only [Option.some.injEq] at hchk'
        subst hchk'
        have hR : Returned s.sys k (c.req d) r := ⟨chk, hchk, hq, hret⟩
        have hpos := List.length_pos_iff.mpr hne
        have hall : ∀ e, r = .err e → Failed s.sys c c.checks.length := by
          rintro e rfl j k' d' hj hk' hd'
          by_cases hjl : j < c.checks.length - 1
          · exact hf j k' d' hjl hk' hd'
          · obtain rfl : j = c.checks.length - 1 := by omega
            rw [hkl] at hk'
            rw [hd] at hd'
            simp only [Option.some.injEq] at hk' hd'
            subst hk'; subst hd'
            exact ⟨e, hR⟩
        refine ⟨h0.perm, h0.begun, h0.len, h0.asked, h0.fresh, ?_⟩
        cases r with
        | ok x => exact .inr ⟨k, d, _, hk, hd, hR, rfl⟩
        | panic => exact .inr ⟨k, d, _, hk, hd, hR, rfl⟩
        | err e =>
          simp only [CertCall.after]
          have hlen := h0.len
          by_cases hlt : c.checks.length < c.order.length
          · simp only [if_pos hlt]
            exact ⟨hlt, hall e rfl⟩
          · simp only [if_neg hlt]
            exact .inr ⟨k, d, _, hk, hd, hR, rfl, by omega, hall e rfl⟩
      · exact (hi.calls i' c' h1).step hi.run htick
    · simp at hs

theorem certInv_run {cfg : SysCfg} {now : Int} (hpol : cfg.auth.disablePolicyd = false) {as : List CAct} {s : CSys}
    (hr : cRun cfg (cInit cfg now) as = some s) : CertInv cfg now s := by
  have key : ∀ (as : List CAct) (s0 : CSys), CertInv cfg now s0 → cRun cfg s0 as = some s → CertInv cfg now s := by
    intro as
    induction as with
    | nil => intro s0 h0 h; simp only [cRun, Option.some.injEq] at h; subst h; exact h0
    | cons a as ih =>
      intro s0 h0 h
      simp only [cRun] at h
      split at h
      · simp at h
      · rename_i s1 hs
        exact ih s1 (h0.step hpol hs) h
  refine key as _ ⟨rfl, ?_⟩ hr
  intro i c hc
  simp [cInit] at hc

end Athenz
