import Verif.Proofs.Fresh
import Verif.Proofs.SysOrigin

/-! Which cache object a check reads after an `Update` has returned, and what a grant based on it comes from. -/

namespace Athenz
open Spec

/-- The task numbers from `T` on that are `Update` calls fill objects from number `N` on; if one of them succeeded, such an object is in use. -/
structure LiveInv (N T : Nat) (s : PdState) : Prop where
  objs : N ≤ s.objs.length
  len : T ≤ s.tasks.length
  tasks : ∀ (i : Nat) (t : Task), T ≤ i → s.tasks[i]? = some t → (t.isUpdate = true → N ≤ t.obj) ∧ (t.ret = some true → N ≤ s.live)

theorem LiveInv.setTask {N T : Nat} {s : PdState} (h : LiveInv N T s) {i : Nat} {t t' : Task} (ht : s.tasks[i]? = some t) (hu : t'.isUpdate = t.isUpdate)
    (ho : t'.obj = t.obj) (hr : t'.ret = some true → t.ret = some true) (n : Nat) (x : Task) (hn : T ≤ n) (hx : (s.tasks.set i t')[n]? = some x) :
    (x.isUpdate = true → N ≤ x.obj) ∧ (x.ret = some true → N ≤ s.live) := by
  rcases getElem?_set_cases' hx with ⟨rfl, rfl⟩ | ⟨_, hx⟩
  · obtain ⟨h1, h2⟩ := h.tasks i t hn ht
    exact ⟨fun hxu => ho ▸ h1 (hu ▸ hxu), fun hx => h2 (hr hx)⟩
  · exact h.tasks n x hn hx

theorem LiveInv.step {N T : Nat} {U : CaseFns} {s s' : PdState} {a : PdAct} (h : LiveInv N T s) (hs : pdStep U s a = some s')
    (hf : ∀ i < T, a ≠ .finish i) : LiveInv N T s' ∧ (N ≤ s.live → N ≤ s'.live) := by
  unfold pdStep at hs
  split at hs
  · simp at hs
  cases a with
  | tick d => simp only [Option.some.injEq] at hs; subst hs; exact ⟨⟨h.objs, h.len, h.tasks⟩, id⟩
  | update fetch =>
    simp only [Option.some.injEq] at hs; subst hs
    refine ⟨⟨?_, ?_, ?_⟩, id⟩
    · simp only [List.length_append]; have := h.objs; omega
    · simp only [List.length_append]; have := h.len; omega
    · intro i t hi ht
      rcases getElem?_append_cases ht with ht | ⟨_, rfl⟩
      · exact h.tasks i t hi ht
      · exact ⟨fun _ => h.objs, by simp⟩
  | task i a =>
    simp only at hs
    split at hs
    · simp at hs
    · rename_i t ht
      have fin : ∀ u : UpdState, LiveInv N T { s with
          objs := s.objs.set t.obj u.rp, tasks := s.tasks.set i { t with cancelled := u.cancelled, jobs := u.jobs } } ∧ (N ≤ s.live → N ≤ s.live) := fun u =>
        ⟨⟨by simpa using h.objs, by simpa using h.len, h.setTask ht rfl rfl (fun hx => hx)⟩, id⟩
      split at hs
      · simp at hs
      · split at hs
        · simp at hs
        · rename_i u hu
          simp only [Option.some.injEq] at hs; subst hs
          exact fin u
  | finish i =>
    simp only at hs
    split at hs
    · simp at hs
    · rename_i t ht
      split at hs
      · rename_i hc
        simp only [Bool.and_eq_true] at hc
        have hTi : T ≤ i := Nat.le_of_not_lt fun hlt => hf i hlt rfl
        have hobj := (h.tasks i t hTi ht).1 hc.1.1
        split at hs
        · simp only [Option.some.injEq] at hs; subst hs
          refine ⟨⟨h.objs, by simpa using h.len, ?_⟩, fun _ => hobj⟩
          intro n x hn hx
          rcases getElem?_set_cases' hx with ⟨rfl, rfl⟩ | ⟨_, hx⟩
          · exact ⟨fun _ => hobj, fun _ => hobj⟩
          · exact ⟨(h.tasks n x hn hx).1, fun _ => hobj⟩
        · simp only [Option.some.injEq] at hs; subst hs
          exact ⟨⟨h.objs, by simpa using h.len, h.setTask ht rfl rfl (by simp)⟩, id⟩
      · simp at hs
  | abort i =>
    simp only at hs
    split at hs
    · simp at hs
    · rename_i t ht
      split at hs
      · simp only [Option.some.injEq] at hs; subst hs
        exact ⟨⟨h.objs, by simpa using h.len, h.setTask ht rfl rfl (by simp)⟩, id⟩
      · simp at hs
  | expire o k =>
    simp only at hs
    split at hs
    · split at hs
      · simp at hs
      · split at hs
        · simp at hs
        · split at hs
          · simp at hs
          · simp only [Option.some.injEq] at hs; subst hs
            exact ⟨⟨by simpa using h.objs, h.len, h.tasks⟩, id⟩
    · simp at hs
  | hook j fetch =>
    simp only at hs
    split at hs
    · simp at hs
    · split at hs
      · simp only [Option.some.injEq] at hs; subst hs
        refine ⟨⟨h.objs, ?_, ?_⟩, id⟩
        · simp only [List.length_append]; have := h.len; omega
        · intro i t hi ht
          rcases getElem?_append_cases ht with ht | ⟨_, rfl⟩
          · exact h.tasks i t hi ht
          · simp
      · simp only [Option.some.injEq] at hs; subst hs
        exact ⟨⟨h.objs, h.len, h.tasks⟩, id⟩
  | check q => simp only [Option.some.injEq] at hs; subst hs; exact ⟨⟨h.objs, h.len, h.tasks⟩, id⟩
  | load k =>
    simp only at hs
    split at hs
    · simp at hs
    · split at hs
      · simp at hs
      · simp only [Option.some.injEq] at hs; subst hs; exact ⟨⟨h.objs, h.len, h.tasks⟩, id⟩
  | chk k a =>
    simp only at hs
    split at hs
    · simp at hs
    · split at hs
      · simp at hs
      · split at hs
        · simp at hs
        · split at hs
          · simp at hs
          · simp only [Option.some.injEq] at hs; subst hs; exact ⟨⟨h.objs, h.len, h.tasks⟩, id⟩

/-- If check `k` has loaded an object, it is one from number `N` on. -/
def LoadedFrom (N k : Nat) (s : PdState) : Prop :=
  ∀ (c : Chk) (o : Nat) (t : Int) (g : Gache (List Assertion)), s.checks[k]? = some c → c.loaded = some (o, t, g) → N ≤ o

theorem LoadedFrom.step {N k : Nat} {U : CaseFns} {s s' : PdState} {a : PdAct} (h : LoadedFrom N k s) (hs : pdStep U s a = some s') (hl : N ≤ s.live) :
    LoadedFrom N k s' := by
  unfold pdStep at hs
  split at hs
  · simp at hs
  cases a with
  | tick d => simp only [Option.some.injEq] at hs; subst hs; exact h
  | update fetch => simp only [Option.some.injEq] at hs; subst hs; exact h
  | task i a =>
    simp only at hs
    split at hs
    · simp at hs
    · split at hs
      · simp at hs
      · split at hs
        · simp at hs
        · simp only [Option.some.injEq] at hs; subst hs; exact h
  | finish i =>
    simp only at hs
    split at hs
    · simp at hs
    · split at hs
      · split at hs
        · simp only [Option.some.injEq] at hs; subst hs; exact h
        · simp only [Option.some.injEq] at hs; subst hs; exact h
      · simp at hs
  | abort i =>
    simp only at hs
    split at hs
    · simp at hs
    · split at hs
      · simp only [Option.some.injEq] at hs; subst hs; exact h
      · simp at hs
  | expire o k =>
    simp only at hs
    split at hs
    · split at hs
      · simp at hs
      · split at hs
        · simp at hs
        · split at hs
          · simp at hs
          · simp only [Option.some.injEq] at hs; subst hs; exact h
    · simp at hs
  | hook j fetch =>
    simp only at hs
    split at hs
    · simp at hs
    · split at hs
      · simp only [Option.some.injEq] at hs; subst hs; exact h
      · simp only [Option.some.injEq] at hs; subst hs; exact h
  | check q =>
    simp only [Option.some.injEq] at hs; subst hs
    intro c o t g hc hlo
    rcases getElem?_append_cases hc with hc | ⟨_, rfl⟩
    · exact h c o t g hc hlo
    · simp at hlo
  | load k' =>
    simp only at hs
    split at hs
    · simp at hs
    · split at hs
      · simp at hs
      · simp only [Option.some.injEq] at hs; subst hs
        intro c o t g hc hlo
        rcases getElem?_set_cases' hc with ⟨rfl, rfl⟩ | ⟨_, hc⟩
        · simp only [Option.some.injEq, Prod.mk.injEq] at hlo
          rw [← hlo.1]; exact hl
        · exact h c o t g hc hlo
  | chk k' a =>
    simp only at hs
    split at hs
    · simp at hs
    · rename_i c0 hc0
      split at hs
      · simp at hs
      · split at hs
        · simp at hs
        · split at hs
          · simp at hs
          · simp only [Option.some.injEq] at hs; subst hs
            intro c o t g hc hlo
            rcases getElem?_set_cases' hc with ⟨rfl, rfl⟩ | ⟨_, hc⟩
            · exact h c0 o t g hc0 hlo
            · exact h c o t g hc hlo

/-- A check that has not loaded the cache has not returned. -/
def ChecksLoad (s : PdState) : Prop := ∀ (k : Nat) (c : Chk), s.checks[k]? = some c → c.loaded = none → c.cs.coll = .loop []

theorem ChecksLoad.step {U : CaseFns} {s s' : PdState} {a : PdAct} (h : ChecksLoad s) (hs : pdStep U s a = some s') : ChecksLoad s' := by
  unfold pdStep at hs
  split at hs
  · simp at hs
  cases a with
  | tick d => simp only [Option.some.injEq] at hs; subst hs; exact h
  | update fetch => simp only [Option.some.injEq] at hs; subst hs; exact h
  | task i a =>
    simp only at hs
    split at hs
    · simp at hs
    · split at hs
      · simp at hs
      · split at hs
        · simp at hs
        · simp only [Option.some.injEq] at hs; subst hs; exact h
  | finish i =>
    simp only at hs
    split at hs
    · simp at hs
    · split at hs
      · split at hs
        · simp only [Option.some.injEq] at hs; subst hs; exact h
        · simp only [Option.some.injEq] at hs; subst hs; exact h
      · simp at hs
  | abort i =>
    simp only at hs
    split at hs
    · simp at hs
    · split at hs
      · simp only [Option.some.injEq] at hs; subst hs; exact h
      · simp at hs
  | expire o k =>
    simp only at hs
    split at hs
    · split at hs
      · simp at hs
      · split at hs
        · simp at hs
        · split at hs
          · simp at hs
          · simp only [Option.some.injEq] at hs; subst hs; exact h
    · simp at hs
  | hook j fetch =>
    simp only at hs
    split at hs
    · simp at hs
    · split at hs
      · simp only [Option.some.injEq] at hs; subst hs; exact h
      · simp only [Option.some.injEq] at hs; subst hs; exact h
  | check q =>
    simp only [Option.some.injEq] at hs; subst hs
    intro k c hc hlo
    rcases getElem?_append_cases hc with hc | ⟨_, rfl⟩
    · exact h k c hc hlo
    · rfl
  | load k' =>
    simp only at hs
    split at hs
    · simp at hs
    · split at hs
      · simp at hs
      · simp only [Option.some.injEq] at hs; subst hs
        intro k c hc hlo
        rcases getElem?_set_cases' hc with ⟨rfl, rfl⟩ | ⟨_, hc⟩
        · simp at hlo
        · exact h k c hc hlo
  | chk k' a =>
    simp only at hs
    split at hs
    · simp at hs
    · rename_i c0 hc0
      split at hs
      · simp at hs
      · rename_i hl0
        split at hs
        · simp at hs
        · split at hs
          · simp at hs
          · simp only [Option.some.injEq] at hs; subst hs
            intro k c hc hlo
            rcases getElem?_set_cases' hc with ⟨rfl, rfl⟩ | ⟨_, hc⟩
            · simp only at hlo
              rw [hl0] at hlo
              simp at hlo
            · exact h k c hc hlo

/-- What a step of the system is for the policy daemon. -/
theorem sysStep_pd {cfg : SysCfg} {s s' : Sys} {a : SysAct} (h : sysStep cfg s a = some s') :
    (∃ n, s'.pd = { s.pd with now := n }) ∨ ∃ b, pdStep cfg.auth.U s.pd b = some s'.pd ∧ (a = .pd b ∨ ∃ q, b = .check q) := by
  obtain ⟨hd, he⟩ := sysStep_effect h
  cases he with
  | tick d => exact .inl ⟨_, rfl⟩
  | pk a pk' ha hp => exact .inl ⟨s.pd.now, rfl⟩
  | jwk a jwk' hj => exact .inl ⟨s.pd.now, rfl⟩
  | fetcher dom a f ha hf => exact .inl ⟨s.pd.now, rfl⟩
  | pd a pd' D F W ha hp hD hF hbr => exact .inr ⟨a, hp, .inl rfl⟩
  | nilPolicy i j => exact .inl ⟨s.pd.now, rfl⟩
  | beginCheck i q p act res pd' hc hn hp => exact .inr ⟨_, hp, .inr ⟨_, rfl⟩⟩
  | endCheck i view sched k c r auth' hk hc hl' hr hv hst => exact .inl ⟨s.pd.now, rfl⟩
  | auth a auth' ha hst => exact .inl ⟨s.pd.now, rfl⟩

theorem LiveInv.sysStep {N T : Nat} {cfg : SysCfg} {s s' : Sys} {a : SysAct} (h : LiveInv N T s.pd) (hs : sysStep cfg s a = some s')
    (hf : ∀ i < T, a ≠ .pd (.finish i)) : LiveInv N T s'.pd ∧ (N ≤ s.pd.live → N ≤ s'.pd.live) := by
  rcases sysStep_pd hs with ⟨n, hn⟩ | ⟨b, hb, hab⟩
  · rw [hn]; exact ⟨⟨h.objs, h.len, h.tasks⟩, id⟩
  · refine h.step hb ?_
    rintro i hi rfl
    rcases hab with rfl | ⟨q, hq⟩
    · exact hf i hi rfl
    · simp at hq

theorem LiveInv.run {N T : Nat} {cfg : SysCfg} {h : List SysAct} : ∀ {s s' : Sys}, LiveInv N T s.pd → sysRun cfg s h = some s' →
    (∀ i < T, .pd (.finish i) ∉ h) → LiveInv N T s'.pd ∧ (N ≤ s.pd.live → N ≤ s'.pd.live) := by
  induction h with
  | nil => intro s s' hi hr _; simp only [sysRun, Option.some.injEq] at hr; subst hr; exact ⟨hi, id⟩
  | cons a h ih =>
    intro s s' hi hr hf
    simp only [sysRun] at hr
    split at hr
    · simp at hr
    · rename_i s2 hs
      obtain ⟨h1, h2⟩ := hi.sysStep hs fun i hlt he => hf i hlt (by simp [he])
      obtain ⟨h3, h4⟩ := ih h1 hr fun i hlt hm => hf i hlt (List.mem_cons_of_mem _ hm)
      exact ⟨h3, fun hx => h4 (h2 hx)⟩

theorem LoadedFrom.run {N T k : Nat} {cfg : SysCfg} {h : List SysAct} : ∀ {s s' : Sys}, LiveInv N T s.pd → N ≤ s.pd.live → LoadedFrom N k s.pd →
    sysRun cfg s h = some s' → (∀ i < T, .pd (.finish i) ∉ h) → LoadedFrom N k s'.pd := by
  induction h with
  | nil => intro s s' _ _ hk hr _; simp only [sysRun, Option.some.injEq] at hr; subst hr; exact hk
  | cons a h ih =>
    intro s s' hi hl hk hr hf
    simp only [sysRun] at hr
    split at hr
    · simp at hr
    · rename_i s2 hs
      obtain ⟨h1, h2⟩ := hi.sysStep hs fun i hlt he => hf i hlt (by simp [he])
      refine ih h1 (h2 hl) ?_ hr fun i hlt hm => hf i hlt (List.mem_cons_of_mem _ hm)
      rcases sysStep_pd hs with ⟨n, hn⟩ | ⟨b, hb, _⟩
      · rw [hn]; exact hk
      · exact hk.step hb hl

/-- Nothing that a check grants from an object from number `N` on comes from elsewhere. -/
theorem PdFrom.grant {N : Nat} {U : CaseFns} {A : List RawAssertion} {s : PdState} (h : PdFrom N U A s) {c : Chk} (hc : c ∈ s.checks) {o : Nat} {t : Int}
    {g : Gache (List Assertion)} (hl : c.loaded = some (o, t, g)) (hN : N ≤ o) {rs : List Str} (hr : c.cs.coll = .ret (.ok rs)) :
    rs ≠ [] ∧ ∀ role ∈ rs, role ∈ c.q.roles ∧ ∃ a ∈ A, Applies U a c.q.domain role c.q.action c.q.resource ∧ ¬ IsDeny U a := by
  obtain ⟨v0, cs, hv0, hrun, hm⟩ := h.checks c hc o t g hl hN
  obtain ⟨h1, h2, _⟩ := C04_changing_cache U c.q _ v0 hv0 cs hm rs ⟨_, hrun, hr⟩
  refine ⟨h1, fun role hrole => ?_⟩
  obtain ⟨h3, v, hsv, hdec⟩ := h2 role hrole
  exact ⟨h3, verdict_allow_sound (hsv _) ((decides_iff ..).mp hdec)⟩

theorem checksLoad_run {cfg : SysCfg} {now : Int} {h : List SysAct} {s : Sys} (hr : sysRun cfg (sysInit cfg now) h = some s) : ChecksLoad s.pd := by
  refine sysRun_ind (fun _ s => ChecksLoad s.pd) (by intro k c; simp [sysInit, pdInit]) ?_ h s hr
  intro h s a s' hp _ hs
  rcases sysStep_pd hs with ⟨n, hn⟩ | ⟨b, hb, _⟩
  · rw [hn]; exact hp
  · exact hp.step hb

end Athenz
