import Verif.Proofs.Alike
import Verif.Proofs.Change
import Verif.Proofs.Withdraw

/-! Refreshes of expired entries in the system: where they come from, and what they leave alone. -/

namespace Athenz
open Spec

/-- Goroutines of hooks: each fetches and fills the object that was published when the hook ran. -/
structure HookBorn (cfg : SysCfg) (s0 : Sys) (h : List SysAct) (i : Nat) (t : Task) : Prop where
  one : t.jobs.length = 1
  begun : ∀ (j : Nat) (f : Option PolicyDoc), t.jobs[j]? ≠ some (Job.start f)
  born : ∃ pre n f post s2, h = pre ++ .pd (.hook n f) :: post ∧ sysRun cfg s0 pre = some s2 ∧ s2.pd.tasks.length = i ∧ s2.pd.live = t.obj

theorem hookBorn_run {cfg : SysCfg} {now : Int} {h : List SysAct} {s : Sys} (hr : sysRun cfg (sysInit cfg now) h = some s) :
    ∀ (i : Nat) (t : Task), s.pd.tasks[i]? = some t → t.isUpdate = false → HookBorn cfg (sysInit cfg now) h i t := by
  refine sysRun_ind (fun h s => ∀ (i : Nat) (t : Task), s.pd.tasks[i]? = some t → t.isUpdate = false → HookBorn cfg (sysInit cfg now) h i t)
    (by simp [sysInit, pdInit]) ?_ h s hr
  intro h s a s' ih hrun hs i t' ht' hu
  rcases sysStep_pd hs with ⟨n, hn⟩ | ⟨b, hb, hab⟩
  · rw [hn] at ht'
    obtain ⟨h1, h2, pre, n, f, post, s2, h3, h4⟩ := ih i t' ht' hu
    exact ⟨h1, h2, pre, n, f, post ++ [a], s2, by rw [h3]; simp, h4⟩
  · rcases pdStep_newTask hb ht' with ⟨t, ht⟩ | ⟨hi, _, ⟨_, _, h1, _⟩ | ⟨n, f, rfl, _, ho, hj⟩⟩
    · obtain ⟨t2, k1, k2, k3, _⟩ := pdStep_task hb ht
      rw [ht'] at k1
      obtain rfl := Option.some.inj k1
      obtain ⟨h1, h2, pre, n, f, post, s2, h3, h4, h5, h6⟩ := ih i t ht (by rw [← k2]; exact hu)
      refine ⟨?_, ?_, pre, n, f, post ++ [a], s2, by rw [h3]; simp, h4, h5, by rw [k3]; exact h6⟩
      · rcases pdStep_jobs hb ht' with ⟨t1, m1, m2⟩ | ⟨_, _, m1, _⟩ | ⟨_, _, _, m1⟩
        · rw [ht] at m1
          obtain rfl := Option.some.inj m1
          rcases m2 with m2 | ⟨u, u', _, m2, m3⟩
          · rw [m2]; exact h1
          · rw [m3, (updStep_job m2).1]; exact h1
        · have := lt_of_getElem? ht; omega
        · rw [m1]; rfl
      · rcases pdStep_jobs hb ht' with ⟨t1, m1, m2⟩ | ⟨_, _, m1, _⟩ | ⟨_, _, _, m1⟩
        · rw [ht] at m1
          obtain rfl := Option.some.inj m1
          rcases m2 with m2 | ⟨u, u', _, m2, m3⟩
          · rw [m2]; exact h2
          · rw [m3]
            intro j f hx
            rcases (updStep_job m2).2 j _ hx with hx | ⟨e, he⟩ | ⟨x, _, _, hp⟩ | ⟨f, _, he⟩ | ⟨_, _, _, _, hp⟩
            · exact h2 j f hx
            · simp at he
            · simp [Job.past] at hp
            · simp at he
            · simp [Job.past] at hp
        · have := lt_of_getElem? ht; omega
        · rw [m1]
          intro j f
          cases j <;> simp
    · rw [hu] at h1; simp at h1
    · refine ⟨by rw [hj]; rfl, by rw [hj]; intro j f; cases j <;> simp, h, n, f, [], s, ?_, hrun, hi.symm, ho.symm⟩
      rcases hab with hab | ⟨q, hq⟩
      · rw [hab]
      · simp at hq

/-- What the fetcher gave to a hook stays. -/
theorem hookResult_step {cfg : SysCfg} {now : Int} {h : List SysAct} {s s' : Sys} {a : SysAct} (hr : sysRun cfg (sysInit cfg now) h = some s)
    (hs : sysStep cfg s a = some s') {i : Nat} {t : Task} (ht : s.pd.tasks[i]? = some t) (hu : t.isUpdate = false)
    {r : Option SignedPolicy} (hf : s.fetchResult i 0 = some r) : s'.fetchResult i 0 = some r := by
  have hb := hookBorn_run hr i t ht hu
  obtain ⟨hd, he⟩ := sysStep_effect hs
  cases he with
  | fetcher dom a f ha hfs =>
    refine fetchResult_keep hf (fun _ => id) rfl ?_
    intro x n retry r e hc
    simp only
    split
    · rename_i hx; subst hx; exact fStep_ret_keep hfs hc
    · exact hc
  | pd a pd' D F W ha hp hD hF hbr =>
    have h2 : sysPd cfg s a = some { s with pd := pd', dead := pd'.crashed, doms := D, fs := F, waits := W } := by
      unfold sysStep at hs
      rw [hd] at hs
      simpa using hs
    generalize ({ s with pd := pd', dead := pd'.crashed, doms := D, fs := F, waits := W } : Sys) = s' at h2 hs
    have hl := sysPd_links h2 (forceAny_run hr).len
    obtain ⟨more, hmore⟩ := hl.doms
    refine fetchResult_keep hf (fun _ => domOf_append hmore) ?_ ?_
    · rcases hl.fs with ⟨_, h3⟩ | ⟨i', j', dom', f, _, _, h3, _, h4⟩
      · rw [h3]
      · rw [h3]
        simp only
        split
        · rename_i hij
          obtain ⟨rfl, rfl⟩ := hij
          obtain ⟨f0, hf0⟩ := h4 t ht
          exact absurd hf0 (hb.begun _ _)
        · rfl
    · intro dom n retry r e hc
      rcases hl.fs with ⟨h3, _⟩ | ⟨i, j, dom', f, hf, h3, _⟩
      · rw [h3]; exact hc
      · rw [h3]
        simp only
        split
        · rename_i hx; subst hx; exact fStep_ret_keep hf hc
        · exact hc
  | _ => exact fetchResult_keep hf (fun _ => id) rfl (fun _ _ _ _ _ => id)

theorem hookResult_run {cfg : SysCfg} {now : Int} {h h' : List SysAct} {s s' : Sys} (hr : sysRun cfg (sysInit cfg now) h = some s)
    (hs : sysRun cfg s h' = some s') {i : Nat} {t : Task} (ht : s.pd.tasks[i]? = some t) (hu : t.isUpdate = false)
    {r : Option SignedPolicy} (hf : s.fetchResult i 0 = some r) : s'.fetchResult i 0 = some r := by
  refine sysRun_ind (fun _ s' => s'.fetchResult i 0 = some r) hf ?_ h' s' hs
  intro g s1 a s2 ih hrun hs
  obtain ⟨t1, k1, k2, _⟩ := sysRun_task hrun ht
  exact hookResult_step (h := h ++ g) (by rw [sysRun_append, hr]; exact hrun) hs k1 (by rw [k2]; exact hu) ih

/-- The list of what an object was filled from only grows. -/
theorem pdStep_srcs {U : CaseFns} {s s' : PdState} {a : PdAct} (hs : pdStep U s a = some s') {o : Nat} {l : List (Option PolicyDoc)}
    (h : s.srcs[o]? = some l) : ∃ more, s'.srcs[o]? = some (l ++ more) := by
  have same : s'.srcs = s.srcs → ∃ more, s'.srcs[o]? = some (l ++ more) := fun he => ⟨[], by rw [he, h, List.append_nil]⟩
  unfold pdStep at hs
  split at hs
  · simp at hs
  cases a with
  | update f =>
    simp only [Option.some.injEq] at hs; subst hs
    exact ⟨[], by simp only; rw [List.getElem?_append_left (lt_of_getElem? h), h, List.append_nil]⟩
  | hook n f =>
    simp only at hs
    split at hs
    · simp at hs
    · split at hs
      · simp only [Option.some.injEq] at hs; subst hs
        simp only
        by_cases hl : s.live = o
        · subst hl
          exact ⟨[f], by rw [List.getElem?_set_self (lt_of_getElem? h), h, Option.getD_some]⟩
        · exact ⟨[], by rw [List.getElem?_set_ne hl, h, List.append_nil]⟩
      · simp only [Option.some.injEq] at hs; subst hs
        exact same rfl
  | _ =>
    simp only at hs
    repeat' split at hs
    all_goals first
      | (simp at hs; done)
      | (simp only [Option.some.injEq] at hs; subst hs; exact same rfl)

theorem sysRun_srcs {cfg : SysCfg} {s s' : Sys} {h : List SysAct} (hr : sysRun cfg s h = some s') {o : Nat} {l : List (Option PolicyDoc)}
    (hl : s.pd.srcs[o]? = some l) : ∃ more, s'.pd.srcs[o]? = some (l ++ more) := by
  refine sysRun_ind (fun _ s' => ∃ more, s'.pd.srcs[o]? = some (l ++ more)) ⟨[], by rw [hl, List.append_nil]⟩ ?_ h s' hr
  rintro h s1 a s2 ⟨more, ih⟩ _ hs
  rcases sysStep_pd hs with ⟨n, hn⟩ | ⟨b, hb, _⟩
  · rw [hn]; exact ⟨more, ih⟩
  · obtain ⟨m2, h2⟩ := pdStep_srcs hb ih
    exact ⟨more ++ m2, by rw [h2, List.append_assoc]⟩

/-- The documents in force are what the object was filled from first. -/
theorem Spec.InForce.srcs {cfg : SysCfg} {now : Int} {h : List SysAct} {s : Sys} {docs : List (Option PolicyDoc)}
    (hr : sysRun cfg (sysInit cfg now) h = some s) (hin : InForce cfg (sysInit cfg now) h s docs) {i : Nat} (hl : LastUpdate h s i) {t : Task}
    (ht : s.pd.tasks[i]? = some t) : ∃ extra, s.pd.srcs[t.obj]? = some (docs ++ extra) := by
  have hi := forceAny_run hr
  rcases hin with ⟨_, h1⟩ | ⟨i', hl', hf⟩
  · obtain ⟨⟨t', ht', hret⟩, _⟩ := hl
    exact absurd hret (h1 t' (List.mem_of_getElem? ht'))
  · obtain rfl := lastUpdate_unique hl hl'
    obtain ⟨⟨t', ht', hret⟩, _⟩ := hl
    rw [ht] at ht'
    obtain rfl := Option.some.inj ht'
    have hu := (hi.upd ht hret).1
    obtain ⟨docs', extra, g1, g2, g3, g4⟩ := hi.tasks i t ht hu
    have : docs = docs' := by
      apply List.ext_getElem?
      intro j
      by_cases hj : j < cfg.domains.length
      · obtain ⟨sp, d, _, f2, f3, f4, _⟩ := hf.2 j _ (List.getElem?_eq_getElem hj)
        have hjj : j < t.jobs.length := by rw [g3, g2]; exact hj
        have hok := hi.tinv.ok i t ht hret
        simp only [Task.allOk, List.all_eq_true] at hok
        have hpast : (t.jobs[j]).past = true := by
          have := hok _ (List.getElem_mem hjj)
          split at this
          · rename_i hq; rw [hq]; rfl
          · simp at this
        obtain ⟨sp', d', k1, k2, k3⟩ := (g4 j _ (List.getElem?_eq_getElem hjj)).2.2 hpast
        rw [f2] at k1
        simp only [Option.some.injEq] at k1
        subst k1
        have e := docOf_iff.mpr f3
        rw [docOf_iff.mpr k2] at e
        injection e with e
        rw [f4, k3, e]
      · rw [List.getElem?_eq_none (by rw [hf.1]; omega), List.getElem?_eq_none (by rw [g2]; omega)]
    subst this
    exact ⟨extra, g1⟩

/-- The object that a check loaded was published then. -/
theorem loaded_live {cfg : SysCfg} {now : Int} {h : List SysAct} {s : Sys} (hr : sysRun cfg (sysInit cfg now) h = some s) {k : Nat} {c : Chk}
    (hk : s.pd.checks[k]? = some c) {h1 h2 : List SysAct} {s1 : Sys} (hh : h = h1 ++ .pd (.load k) :: h2)
    (hr1 : sysRun cfg (sysInit cfg now) h1 = some s1) : c.loaded = some (s1.pd.live, s1.pd.now, s1.pd.liveObj) := by
  have h12' : sysRun cfg s1 (.pd (.load k) :: h2) = some s := by rw [hh, sysRun_append, hr1] at hr; exact hr
  simp only [sysRun] at h12'
  split at h12'
  · simp at h12'
  · rename_i s2 hs2
    obtain ⟨b, hb2, hbs⟩ : ∃ b, pdStep cfg.auth.U s1.pd (.load k) = some b ∧ b = s2.pd := by
      obtain ⟨_, he⟩ := sysStep_effect hs2
      cases he with
      | pd a pd' D F W ha hp hD hF hbr => exact ⟨_, hp, rfl⟩
    have hld : ∃ c2, s2.pd.checks[k]? = some c2 ∧ c2.loaded = some (s1.pd.live, s1.pd.now, s1.pd.liveObj) := by
      rw [← hbs]
      unfold pdStep at hb2
      split at hb2
      · simp at hb2
      simp only at hb2
      split at hb2
      · simp at hb2
      · rename_i c' hc'
        split at hb2
        · simp at hb2
        · simp only [Option.some.injEq] at hb2; rw [← hb2]
          exact ⟨_, by simp only; rw [List.getElem?_set_self (lt_of_getElem? hc')], rfl⟩
    obtain ⟨c2, k1, k2⟩ := hld
    obtain ⟨c3, k3, k4, _⟩ := sysRun_loaded h12' k1 k2
    rw [hk] at k3
    obtain rfl := Option.some.inj k3
    exact k4

/-- An object is not published before its update has returned. -/
theorem notLive_before {cfg : SysCfg} {now : Int} {g g' : List SysAct} {a p : Sys} (hrp : sysRun cfg (sysInit cfg now) g = some p)
    (hra : sysRun cfg p g' = some a) {i : Nat} {t : Task} (ht : a.pd.tasks[i]? = some t) (hu : t.isUpdate = true) (hret : t.ret = none) :
    p.pd.live ≠ t.obj := by
  intro hl
  have hr : sysRun cfg (sysInit cfg now) (g ++ g') = some a := by rw [sysRun_append, hrp]; exact hra
  have fp := forceAny_run hrp
  have fa := forceAny_run hr
  have hpos := fa.tinv.pos i t ht hu
  rcases fp.live with ⟨h0, _⟩ | ⟨i', t', hlu, ht', ho'⟩
  · omega
  · obtain ⟨⟨tx, htx, hret'⟩, _⟩ := hlu
    rw [ht'] at htx
    obtain rfl := Option.some.inj htx
    obtain ⟨t2, k1, k2, k3, k4⟩ := sysRun_task hra ht'
    have : i' = i := fa.tinv.distinct i' i t2 t k1 ht (by rw [k2]; exact (fp.upd ht' hret').1) hu (by rw [k3, ho', hl])
    subst this
    rw [ht] at k1
    obtain rfl := Option.some.inj k1
    rw [k4 (by rw [hret']; simp), hret'] at hret
    simp at hret

/-- Where the same object is published, the same update was the last. -/
theorem sameLast_of_live {cfg : SysCfg} {now : Int} {h1 h2 pre post : List SysAct} {s1 s2 s : Sys} (hr1 : sysRun cfg (sysInit cfg now) h1 = some s1)
    (hr : sysRun cfg (sysInit cfg now) (h1 ++ h2) = some s) (hr2 : sysRun cfg (sysInit cfg now) pre = some s2) (he : h1 ++ h2 = pre ++ post)
    (hlive : s2.pd.live = s1.pd.live) : SameLast h1 s1 pre s2 := by
  have f1 := forceAny_run hr1
  have f2 := forceAny_run hr2
  have fs := forceAny_run hr
  have e1 : sysRun cfg s1 h2 = some s := by rw [sysRun_append, hr1] at hr; exact hr
  have e2 : sysRun cfg s2 post = some s := by rw [he, sysRun_append, hr2] at hr; exact hr
  rcases f1.live with ⟨l0, l1⟩ | ⟨i, t, lu, lt, lo⟩
  · rcases f2.live with ⟨_, g1⟩ | ⟨i', t', gu, gt, go⟩
    · right
      constructor
      · intro t ht
        obtain ⟨i, hi⟩ := List.mem_iff_getElem?.mp ht
        exact l1 i t hi
      · intro t ht
        obtain ⟨i, hi⟩ := List.mem_iff_getElem?.mp ht
        exact g1 i t hi
    · obtain ⟨⟨t'', ht'', hret⟩, _⟩ := gu
      rw [gt] at ht''
      obtain rfl := Option.some.inj ht''
      have := (f2.upd gt hret).2
      omega
  · have hlu := lu
    obtain ⟨⟨tx, htx, hret⟩, _⟩ := lu
    rw [lt] at htx
    obtain rfl := Option.some.inj htx
    have hpos := f1.upd lt hret
    rcases f2.live with ⟨g0, _⟩ | ⟨i', t', gu, gt, go⟩
    · omega
    · have hgu := gu
      obtain ⟨⟨t'', ht'', hret'⟩, _⟩ := gu
      rw [gt] at ht''
      obtain rfl := Option.some.inj ht''
      have hpos' := f2.upd gt hret'
      obtain ⟨a1, b1, b2, b3, _⟩ := sysRun_task e1 lt
      obtain ⟨a2, c1, c2, c3, _⟩ := sysRun_task e2 gt
      have : i = i' := fs.tinv.distinct i i' a1 a2 b1 c1 (by rw [b2]; exact hpos.1) (by rw [c2]; exact hpos'.1) (by omega)
      subst this
      exact .inl ⟨i, hlu, hgu⟩

/-- One step of the system, seen by the invariant about one object. -/
theorem RoleInv.sys {cfg : SysCfg} {now : Int} {A : List RawAssertion} {K : Str → Prop} {n1 T : Int} {o : Nat} {h rest : List SysAct} {s s' sE : Sys}
    {a : SysAct} (hi : RoleInv cfg.auth.U A K n1 T o s.pd) (hr : sysRun cfg (sysInit cfg now) h = some s) (hs : sysStep cfg s a = some s')
    (hE : sysRun cfg s' rest = some sE) (hT : s.pd.now ≤ T)
    (hupd : ∀ (i : Nat) (t : Task), s.pd.tasks[i]? = some t → t.obj = o → t.isUpdate = true → t.allDone = true)
    (hgot : ∀ pre n f post s2, h = pre ++ SysAct.pd (.hook n f) :: post → sysRun cfg (sysInit cfg now) pre = some s2 → s2.pd.live = o →
      ∀ sp d, sE.fetchResult s2.pd.tasks.length 0 = some (some sp) → PolicySays sp d → DocAlike A K n1 T d) :
    RoleInv cfg.auth.U A K n1 T o s'.pd := by
  have hr' : sysRun cfg (sysInit cfg now) (h ++ [a]) = some s' := by
    rw [sysRun_append, hr]; simp [sysRun, hs]
  obtain ⟨hd, he⟩ := sysStep_effect hs
  cases he with
  | tick d => exact hi.tick d
  | pd a pd' D F W ha hp hD hF hbr =>
    have h2 : sysPd cfg s a = some { s with pd := pd', dead := pd'.crashed, doms := D, fs := F, waits := W } := by
      unfold sysStep at hs
      rw [hd] at hs
      simpa using hs
    have hl := sysPd_links h2 (forceAny_run hr).len
    refine hi.step hT ?_ hp
    intro i j ord t d hact ht hto hj
    obtain ⟨sp, m1, m2⟩ := hl.brings d i j ord t hact ht hj
    have hu : t.isUpdate = false := by
      cases hu : t.isUpdate with
      | false => rfl
      | true =>
        have := hupd i t ht hto hu
        simp only [Task.allDone, List.all_eq_true] at this
        have := this _ (List.mem_of_getElem? hj)
        simp at this
    obtain ⟨b1, _, pre, n, f, post, s2, b2, b3, b4, b5⟩ := hookBorn_run hr i t ht hu
    have hj0 : j = 0 := by have := lt_of_getElem? hj; omega
    subst hj0
    have m3 := hookResult_step hr hs ht hu m1
    obtain ⟨t', k1, k2, _⟩ := sysStep_task hs ht
    refine hgot pre n f post s2 b2 b3 (by rw [b5]; exact hto) sp d ?_ m2
    rw [b4]
    exact hookResult_run hr' hE k1 (by rw [k2]; exact hu) m3
  | beginCheck i q p act res pd' hc hn hp => exact hi.step hT (by simp) hp
  | _ => exact hi

/-- The invariant holds on, from any moment at which the update of the object has returned. -/
theorem RoleInv.go {cfg : SysCfg} {now : Int} {A : List RawAssertion} {K : Str → Prop} {n1 T : Int} {o : Nat} {g g' : List SysAct} {b s : Sys}
    (hi : RoleInv cfg.auth.U A K n1 T o b.pd) (hrb : sysRun cfg (sysInit cfg now) g = some b) (hrs : sysRun cfg b g' = some s) (hT : s.auth.now ≤ T)
    (hown : o = 0 ∨ ∃ (i : Nat) (t : Task), b.pd.tasks[i]? = some t ∧ t.obj = o ∧ t.ret = some true)
    (hgot : ∀ pre n f post s2, g ++ g' = pre ++ SysAct.pd (.hook n f) :: post → sysRun cfg (sysInit cfg now) pre = some s2 → s2.pd.live = o →
      ∀ sp d, s.fetchResult s2.pd.tasks.length 0 = some (some sp) → PolicySays sp d → DocAlike A K n1 T d) :
    RoleInv cfg.auth.U A K n1 T o s.pd := by
  refine sysRun_ind (fun h st => ∀ rest, g' = h ++ rest → RoleInv cfg.auth.U A K n1 T o st.pd) (fun _ _ => hi) ?_ g' s hrs [] (by simp)
  intro h st a st' ih hrun hstep rest hg
  have hr : sysRun cfg (sysInit cfg now) (g ++ h) = some st := by rw [sysRun_append, hrb]; exact hrun
  have hrest : sysRun cfg st' rest = some s := by
    rw [hg, List.append_assoc, sysRun_append, hrun] at hrs
    simpa [sysRun, hstep] using hrs
  have hst : st.pd.now ≤ T := by
    rw [(sysRuns_run hr).1.clock.2.1]
    have h1 : sysRun cfg st ([a] ++ rest) = some s := by simpa [sysRun, hstep] using hrest
    have := sysRun_now h1
    omega
  refine (ih ([a] ++ rest) (by rw [hg, List.append_assoc])).sys hr hstep hrest hst ?_ ?_
  · intro i t ht hto hu
    have ft := forceAny_run hr
    rcases hown with h0 | ⟨i', t', ht', ho', hret'⟩
    · have := ft.tinv.pos i t ht hu
      omega
    · obtain ⟨t2, k1, k2, k3, k4⟩ := sysRun_task hrun ht'
      have hret2 : t2.ret = some true := by rw [k4 (by rw [hret']; simp), hret']
      have : i = i' := ft.tinv.distinct i i' t t2 ht k1 hu (ft.upd k1 hret2).1 (by rw [k3, ho', hto])
      subst this
      rw [ht] at k1
      obtain rfl := Option.some.inj k1
      exact Task.allOk_done (ft.tinv.ok i t ht hret2)
  · intro pre n f post s2 he
    refine hgot pre n f (post ++ ([a] ++ rest)) s2 ?_
    rw [hg, List.append_assoc, ← List.append_assoc, he]
    simp

theorem Spec.SaysAlike.docAlike {docs : List (Option PolicyDoc)} {t0 n1 T : Int} {K : Str → Prop} {d : PolicyDoc}
    (h : ∀ k, K k → SaysAlike docs t0 T k d) (h1 : t0 ≤ n1) (h0 : 0 ≤ n1) : DocAlike (allAssertions docs) K n1 T d := by
  intro a ha hk
  obtain ⟨h2, h3⟩ := h a.role hk a ha rfl
  exact ⟨mem_allAssertions.mpr h2, h3.imp (fun h => by omega) (fun h => ⟨h0, h⟩)⟩

/-- If refreshes wrote into the published object only what the documents in force say, then it represents them. -/
theorem roleInv_run {cfg : SysCfg} {now : Int} (hnow : 0 ≤ now) {h1 h2 : List SysAct} {s1 s : Sys}
    (hr1 : sysRun cfg (sysInit cfg now) h1 = some s1) (hr : sysRun cfg (sysInit cfg now) (h1 ++ h2) = some s) {docs : List (Option PolicyDoc)}
    (hin : InForce cfg (sysInit cfg now) h1 s1 docs) {t0 : Int} (hsince : InForceSince cfg (sysInit cfg now) h1 s1 t0) {K : Str → Prop}
    (hreg : ∀ k, K k → RegularAt cfg.auth.U docs t0 s.auth.now s.auth.now k)
    (hrw : RefreshedWith cfg (sysInit cfg now) h1 s1 (h1 ++ h2) s (fun d => ∀ k, K k → SaysAlike docs t0 s.auth.now k d)) :
    ∃ n1, RoleInv cfg.auth.U (allAssertions docs) K n1 s.auth.now s1.pd.live s.pd := by
  have h12 : sysRun cfg s1 h2 = some s := by rw [sysRun_append, hr1] at hr; exact hr
  have hgot : ∀ pre n f post s2, h1 ++ h2 = pre ++ SysAct.pd (.hook n f) :: post → sysRun cfg (sysInit cfg now) pre = some s2 →
      s2.pd.live = s1.pd.live → ∀ sp d, s.fetchResult s2.pd.tasks.length 0 = some (some sp) → PolicySays sp d →
        ∀ k, K k → SaysAlike docs t0 s.auth.now k d := fun pre n f post s2 he hr2 hl =>
    hrw pre n f post s2 he hr2 (sameLast_of_live hr1 hr hr2 he hl)
  rcases (forceAny_run hr1).live with ⟨l0, l1⟩ | ⟨i, t, hlu, ht, ho⟩
  · -- no update has returned yet
    have hd : docs = [] := by
      rcases hin with ⟨hd, _⟩ | ⟨i, ⟨⟨t, ht, hret⟩, _⟩, _⟩
      · exact hd
      · exact absurd hret (l1 i t ht)
    subst hd
    refine ⟨now, RoleInv.go (g := []) (b := sysInit cfg now) ?_ rfl hr (Int.le_refl _) (.inl l0) ?_⟩
    · refine ⟨Int.le_refl _, ⟨Gache.empty, by rw [l0]; rfl, fun k _ t _ _ => ?_⟩, by simp [sysInit, pdInit], by simp [sysInit, pdInit]⟩
      exact ⟨by simp [viewOf, Gache.get, Gache.empty], by simp [viewOf, Gache.get, Gache.empty], by simp [allAssertions]⟩
    · intro pre n f post s2 he hr2 hl sp d hf hp a ha hk
      obtain ⟨⟨_, h3, _⟩, _⟩ := hgot pre n f post s2 he hr2 hl sp d hf hp a.role hk a ha rfl
      simp at h3
  · obtain ⟨pre, post, s', hpp, hrp, hlen, ht0⟩ := hsince i hlu
    obtain ⟨extra, hsrc⟩ := hin.srcs hr1 hlu ht
    have hdocs : docs.length = cfg.domains.length := by
      rcases hin with ⟨_, h3⟩ | ⟨_, _, hf⟩
      · obtain ⟨⟨tx, htx, hret⟩, _⟩ := hlu
        exact absurd hret (h3 tx (List.mem_of_getElem? htx))
      · exact hf.1
    obtain ⟨⟨tx, htx, hret⟩, g1, g2, hg, _⟩ := hlu
    rw [ht] at htx
    obtain rfl := Option.some.inj htx
    have hu := ((forceAny_run hr1).upd ht hret).1
    -- the moment at which the update returns
    obtain ⟨a, hra⟩ : ∃ a, sysRun cfg (sysInit cfg now) g1 = some a := by
      cases ha : sysRun cfg (sysInit cfg now) g1 with
      | none => rw [hg, sysRun_append, ha] at hr1; simp at hr1
      | some a => exact ⟨a, rfl⟩
    have hab : sysRun cfg a (.pd (.finish i) :: g2) = some s1 := by rw [hg, sysRun_append, hra] at hr1; exact hr1
    obtain ⟨b, hstep, hbs⟩ : ∃ b, sysStep cfg a (.pd (.finish i)) = some b ∧ sysRun cfg b g2 = some s1 := by
      simp only [sysRun] at hab
      split at hab
      · simp at hab
      · rename_i b hb; exact ⟨b, hb, hab⟩
    have hrb : sysRun cfg (sysInit cfg now) (g1 ++ [.pd (.finish i)]) = some b := by rw [sysRun_append, hra]; simp [sysRun, hstep]
    obtain ⟨ta, hta, hreta, tb, htb, htbo, hrb2, hblive⟩ : ∃ ta, a.pd.tasks[i]? = some ta ∧ ta.ret = none ∧ ∃ tb, b.pd.tasks[i]? = some tb ∧
        tb.obj = ta.obj ∧ tb.ret ≠ none ∧ (tb.ret = some true → b.pd.live = ta.obj) := by
      have hc : pdStep cfg.auth.U a.pd (.finish i) = some b.pd := by
        obtain ⟨_, he⟩ := sysStep_effect hstep
        cases he with
        | pd a' pd' D F W ha hp hD hF hbr => exact hp
      unfold pdStep at hc
      split at hc
      · simp at hc
      simp only at hc
      split at hc
      · simp at hc
      · rename_i ta hta
        have hlt := lt_of_getElem? hta
        split at hc
        · rename_i hcond
          simp only [Bool.and_eq_true, Option.isNone_iff_eq_none] at hcond
          split at hc <;>
          · simp only [Option.some.injEq] at hc
            rw [← hc]
            exact ⟨ta, hta, hcond.1.2, _, List.getElem?_set_self hlt, rfl, by simp, by simp⟩
        · simp at hc
    obtain ⟨tb1, k1, k2, k3, k4⟩ := sysRun_task hbs htb
    rw [ht] at k1
    obtain rfl := Option.some.inj k1
    have hrt : tb.ret = some true := by rw [← k4 hrb2]; exact hret
    have hlo : b.pd.live = s1.pd.live := by rw [hblive hrt, ← htbo, ← k3, ho]
    have hua : ta.isUpdate = true := by
      obtain ⟨t2, m1, m2, _⟩ := sysStep_task hstep hta
      rw [htb] at m1
      obtain rfl := Option.some.inj m1
      rw [← m2, ← k2]; exact hu
    have hoa : ta.obj = b.pd.live := (hblive hrt).symm
    -- before that moment the object was not published
    have hbefore : ∀ pre post p, g1 = pre ++ post → sysRun cfg (sysInit cfg now) pre = some p → p.pd.live ≠ b.pd.live := by
      intro pre post p he hp
      rw [← hoa]
      refine notLive_before hp (g' := post) ?_ hta hua hreta
      rw [he, sysRun_append, hp] at hra
      exact hra
    have split1 : ∀ (pre : List SysAct) (x : SysAct) (post : List SysAct), g1 ++ [SysAct.pd (.finish i)] = pre ++ x :: post → x ≠ .pd (.finish i) →
        ∃ post', g1 = pre ++ post' := by
      intro pre x post he hx
      rcases List.eq_nil_or_concat post with rfl | ⟨post', y, rfl⟩
      · exact absurd (List.append_inj' he rfl).2.symm (by simpa using hx)
      · refine ⟨x :: post', ?_⟩
        have : pre ++ x :: (post' ++ [y]) = (pre ++ x :: post') ++ [y] := by simp
        rw [List.concat_eq_append, this] at he
        exact (List.append_inj' he rfl).1
    have hno : NoHookOn cfg (sysInit cfg now) (g1 ++ [.pd (.finish i)]) b.pd.live := by
      intro pre' n f post' p he hp
      obtain ⟨post2, h3⟩ := split1 pre' _ post' he (by simp)
      exact hbefore pre' post2 p h3 hp
    -- the update was called before that moment
    obtain ⟨mid, hmid⟩ : ∃ mid, g1 = pre ++ mid := by
      have happ : pre ++ post = g1 ++ (SysAct.pd (.finish i) :: g2) := by rw [← hpp, hg]
      rcases List.append_eq_append_iff.mp happ with ⟨z, hz, _⟩ | ⟨z, hz, _⟩
      · exact ⟨z, hz⟩
      · have : sysRun cfg a z = some s' := by rw [hz, sysRun_append, hra] at hrp; exact hrp
        obtain ⟨t2, m1, _⟩ := sysRun_task this hta
        have := lt_of_getElem? m1
        omega
    have hra' : sysRun cfg s' mid = some a := by rw [hmid, sysRun_append, hrp] at hra; exact hra
    have hrb' : sysRun cfg s' (mid ++ [.pd (.finish i)]) = some b := by rw [sysRun_append, hra']; simp [sysRun, hstep]
    have hobj := newObj_run hra' i ta hlen hta hua
    rw [hoa] at hobj
    have hver := objVer_since hrp (by rw [← List.append_assoc, ← hmid]; exact hno) hobj hrb'
    have hcl := (sysRuns_run hrp).1.clock.2.1
    have hclb := (sysRuns_run hrb).1.clock.2.1
    have hpos : now ≤ s'.auth.now := by simpa [sysInit, aInit] using sysRun_now hrp
    have hrbs : sysRun cfg b (g2 ++ h2) = some s := by rw [sysRun_append, hbs]; exact h12
    have hbnow := sysRun_now hrbs
    have hdl : b.pd.liveDocs = docs := by
      have hdb : b.pd.srcs[b.pd.live]? = some b.pd.liveDocs := by
        have : b.pd.live < b.pd.srcs.length := by rw [hver.len]; exact hver.liveLt
        simp [PdState.liveDocs, List.getElem?_eq_getElem this]
      obtain ⟨more, hm⟩ := sysRun_srcs hbs hdb
      rw [hlo, ← ho, hsrc] at hm
      simp only [Option.some.injEq] at hm
      have hlenb := hver.docs_len htb (by rw [htbo]; exact hoa)
      obtain ⟨docs', _, _, q2, q3, _⟩ := (forceAny_run hrb).tasks i tb htb (by rw [← k2]; exact hu)
      exact (List.append_inj hm (by rw [hdocs, hlenb, q3, q2])).1.symm
    refine ⟨s'.pd.now, RoleInv.go (g := g1 ++ [.pd (.finish i)]) (g' := g2 ++ h2) (b := b) ?_ hrb hrbs (Int.le_refl _) ?_ ?_⟩
    · refine ⟨hver.clock, ⟨b.pd.liveObj, ?_, ?_⟩, ?_, ?_⟩
      · rw [← hlo]
        simp [PdState.liveObj, List.getElem?_eq_getElem hver.liveLt]
      · intro k hk tt ht1 ht2
        rcases hver.version with ⟨e0, _⟩ | ⟨T0, u, hT0, hun, hU, hsame⟩
        · have := (forceAny_run hrb).upd htb hrt
          rw [htbo, hoa] at this
          omega
        · rw [hsame tt ht1]
          rw [hdl] at hU
          exact (((hreg k hk).since (t1 := s'.pd.now) (by rw [hcl]; exact ht0) (by rw [hcl]; omega)).earlier (by rw [hcl]; omega) hT0
            (by rw [hclb] at hun; omega) ht2).rep hU
      · intro i' t' ht' ho' j hj
        have : i' = i := hver.uniq i' i t' tb ht' htb (by rw [ho', hlo]) (by rw [htbo]; exact hoa)
        subst this
        rw [htb] at ht'
        obtain rfl := Option.some.inj ht'
        have hok := (forceAny_run hrb).tinv.ok _ _ htb hrt
        simp only [Task.allOk, List.all_eq_true] at hok
        have := hok j hj
        split at this
        · trivial
        · simp at this
      · intro k c t0' g hc hl
        exfalso
        obtain ⟨x1, x2, p, hx, hrx, _⟩ := (loadInv_run hrb).load k c hc (by rw [hl]; rfl)
        have := loaded_live hrb hc hx hrx
        rw [hl] at this
        simp only [Option.some.injEq, Prod.mk.injEq] at this
        obtain ⟨post2, h3⟩ := split1 x1 _ x2 hx (by simp)
        exact hbefore x1 post2 p h3 hrx (by rw [hlo]; exact this.1.symm)
    · exact .inr ⟨i, tb, htb, by rw [htbo, hoa, hlo], hrt⟩
    · intro pre' n f post' s2 he hr2 hl sp d hf hp
      refine SaysAlike.docAlike (hgot pre' n f post' s2 ?_ hr2 hl sp d hf hp) (by rw [hcl]; exact ht0) (by rw [hcl]; omega)
      rw [← he, hg]; simp

/-- What a hook got, it has got for good. -/
theorem Spec.RefreshedWith.earlier {cfg : SysCfg} {now : Int} {h1 h h' : List SysAct} {s1 s s' : Sys} {P : PolicyDoc → Prop}
    (hrw : RefreshedWith cfg (sysInit cfg now) h1 s1 (h ++ h') s' P) (hr : sysRun cfg (sysInit cfg now) h = some s) (hr' : sysRun cfg s h' = some s') :
    RefreshedWith cfg (sysInit cfg now) h1 s1 h s P := by
  intro pre n f post s2 he hr2 hsame sp d hf hp
  refine hrw pre n f (post ++ h') s2 (by rw [he]; simp) hr2 hsame sp d ?_ hp
  have hrest : sysRun cfg s2 (.pd (.hook n f) :: post) = some s := by rw [he, sysRun_append, hr2] at hr; exact hr
  simp only [sysRun] at hrest
  split at hrest
  · simp at hrest
  · rename_i s3 hs3
    have hst : pdStep cfg.auth.U s2.pd (.hook n f) = some s3.pd ∧ s3.dead = s3.pd.crashed := by
      obtain ⟨_, he⟩ := sysStep_effect hs3
      cases he with
      | pd a pd' D F W ha hp hD hF hbr => exact ⟨hp, rfl⟩
    rcases pdStep_hook hst.1 with hpd | ⟨k, hk, hpd⟩
    · -- the daemon crashed: nothing came after
      have hdead : s3.dead = true := by rw [hst.2, hpd]
      have hnil : s = s3 := by
        cases post with
        | nil => simpa [sysRun] using hrest.symm
        | cons b post =>
          simp only [sysRun] at hrest
          split at hrest
          · simp at hrest
          · rename_i s4 hs4
            rw [(sysStep_effect hs4).1] at hdead
            simp at hdead
      obtain ⟨dom, _, _, _, hd, _⟩ := fetchResult_calls.mp hf
      have hlen := (forceAny_run hr).len
      unfold Sys.domOf at hd
      cases hx : s.doms[s2.pd.tasks.length]? with
      | none => rw [hx] at hd; simp at hd
      | some ds =>
        have := lt_of_getElem? hx
        rw [hlen, hnil, hpd] at this
        simp at this
    · have ht : s3.pd.tasks[s2.pd.tasks.length]? = some ⟨s2.pd.live, false, false, [.fetching f], none⟩ := by
        rw [hpd]; simp
      obtain ⟨t, k1, k2, _⟩ := sysRun_task hrest ht
      exact hookResult_run hr hr' k1 k2 hf

theorem Spec.RefreshedWith.imp {cfg : SysCfg} {s0 : Sys} {h1 h : List SysAct} {s1 s : Sys} {P Q : PolicyDoc → Prop}
    (hrw : RefreshedWith cfg s0 h1 s1 h s P) (hpq : ∀ d, P d → Q d) : RefreshedWith cfg s0 h1 s1 h s Q :=
  fun pre n f post s2 he hr hs sp d hf hp => hpq d (hrw pre n f post s2 he hr hs sp d hf hp)

theorem Spec.NotRefreshedSince.with {cfg : SysCfg} {s0 : Sys} {h : List SysAct} {s : Sys} {n : Nat} {P : PolicyDoc → Prop}
    (hn : NotRefreshedSince cfg s0 h n) : RefreshedSince cfg s0 h s n P := fun h1 h2 s1 he hlen hr => (hn h1 h2 s1 he hlen hr).with

theorem Spec.SaysAlike.earlier {docs : List (Option PolicyDoc)} {t0 t1 T T' : Int} {k : Str} {d : PolicyDoc} (h : SaysAlike docs t0 T' k d) (h1 : T ≤ T')
    (h0 : t0 ≤ t1) : SaysAlike docs t1 T k d := by
  intro a ha hr
  obtain ⟨h2, h3⟩ := h a ha hr
  exact ⟨h2, h3.imp (fun h => by omega) (fun h => by omega)⟩

/-- The documents themselves say nothing else. -/
theorem RegularAt.alike {U : CaseFns} {docs : List (Option PolicyDoc)} {t0 T : Int} {k : Str} (h : RegularAt U docs t0 T T k) {d : PolicyDoc}
    (hd : some d ∈ docs) : SaysAlike docs t0 T k d := by
  intro a ha hr
  refine ⟨⟨d, hd, ha⟩, ?_⟩
  rcases h with h | ⟨i, d', ho, _⟩
  · exact absurd hr (h a (mem_allAssertions.mpr ⟨d, hd, ha⟩))
  · obtain ⟨j, hj⟩ := List.mem_iff_getElem?.mp hd
    by_cases hji : j = i
    · subst hji
      have := ho.doc
      rw [hj] at this
      simp only [Option.some.injEq] at this
      subst this
      rcases ho.live with hl | hl
      · exact .inl hl
      · exact .inr (by omega)
    · exact absurd hr (ho.only j d hji hj a ha)

end Athenz
