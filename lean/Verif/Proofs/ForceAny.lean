import Verif.Proofs.TaskInv
import Verif.Proofs.ObjVer

/-! The documents in force, in every execution: refreshes of expired entries change neither which update was the last nor what it got. -/

namespace Athenz
open Spec

structure ForceAny (cfg : SysCfg) (h : List SysAct) (s : Sys) : Prop where
  tinv : TaskInv s.pd
  objs : s.pd.objs.length = s.pd.srcs.length
  len : s.doms.length = s.pd.tasks.length
  doms : ∀ (i : Nat) (t : Task), s.pd.tasks[i]? = some t → t.isUpdate = true → s.doms[i]? = some cfg.domains
  tasks : ∀ (i : Nat) (t : Task), s.pd.tasks[i]? = some t → t.isUpdate = true → ∃ docs extra, s.pd.srcs[t.obj]? = some (docs ++ extra) ∧
    docs.length = cfg.domains.length ∧ t.jobs.length = docs.length ∧ ∀ (j : Nat) (x : Job), t.jobs[j]? = some x → JobGot s i j docs x
  live : (s.pd.live = 0 ∧ ∀ (i : Nat) (t : Task), s.pd.tasks[i]? = some t → t.ret ≠ some true) ∨
    ∃ i t, LastUpdate h s i ∧ s.pd.tasks[i]? = some t ∧ t.obj = s.pd.live

theorem ForceAny.env {cfg : SysCfg} {h : List SysAct} {s s' : Sys} {a : SysAct} (hi : ForceAny cfg h s) (ha : ∀ b, a ≠ .pd b)
    (hpd : s'.pd.objs = s.pd.objs ∧ s'.pd.srcs = s.pd.srcs ∧ s'.pd.tasks = s.pd.tasks ∧ s'.pd.live = s.pd.live) (hd : s'.doms = s.doms)
    (hw : s'.waits = s.waits)
    (hfs : ∀ (dom : Str) (n : Nat) (retry : Bool) (r : Option SignedPolicy) (e : Option Err), (s.fs dom).calls[n]? = some ⟨retry, .ret r e⟩ →
      (s'.fs dom).calls[n]? = some ⟨retry, .ret r e⟩) : ForceAny cfg (h ++ [a]) s' := by
  obtain ⟨h1, h2, h3, h4⟩ := hpd
  refine ⟨?_, by rw [h1, h2]; exact hi.objs, by rw [h3, hd]; exact hi.len, by rw [h3, hd]; exact hi.doms, ?_, ?_⟩
  · obtain ⟨k1, k2, k3, k4, k5, k6, k7⟩ := hi.tinv
    constructor <;> (first | rw [h1] | skip) <;> (first | rw [h3] | skip) <;> (first | rw [h4] | skip) <;> assumption
  · rw [h3, h2]
    intro i t ht hu
    obtain ⟨docs, extra, g1, g2, g3, g4⟩ := hi.tasks i t ht hu
    refine ⟨docs, extra, g1, g2, g3, fun j x hx => ?_⟩
    obtain ⟨k1, k2, k3⟩ := g4 j x hx
    refine ⟨k1, k2, fun hp => ?_⟩
    obtain ⟨sp, d, k4, k5⟩ := k3 hp
    exact ⟨sp, d, fetchResult_keep k4 (fun dom => by unfold Sys.domOf; rw [hd]; exact id) (by rw [hw]) hfs, k5⟩
  · rw [h3, h4]
    refine hi.live.imp id ?_
    rintro ⟨i, t, hl, ht, ho⟩
    exact ⟨i, t, Spec.LastUpdate.next hl a (fun i t ht => ⟨t, by rw [h3]; exact ht, fun _ => rfl⟩) (fun i hi => absurd hi (ha _)), ht, ho⟩

/-- The state of the policy daemon after a refresh began. -/
theorem pdStep_hook {U : CaseFns} {s s' : PdState} {n : Nat} {f : Option PolicyDoc} (h : pdStep U s (.hook n f) = some s') :
    s' = { s with crashed := true } ∨ ∃ k, s.pending[n]? = some k ∧ s' = { s with
      pending := s.pending.eraseIdx n
      srcs := s.srcs.set s.live ((s.srcs[s.live]?).getD [] ++ [f])
      tasks := s.tasks ++ [⟨s.live, false, false, [.fetching f], none⟩] } := by
  unfold pdStep at h
  split at h
  · simp at h
  simp only at h
  split at h
  · simp at h
  · rename_i k hk
    split at h
    · simp only [Option.some.injEq] at h; exact .inr ⟨k, hk, h.symm⟩
    · simp only [Option.some.injEq] at h; exact .inl h.symm

/-- What a step of the policy daemon leaves of what goroutines have got. -/
theorem PdLinks.got {cfg : SysCfg} {s s' : Sys} {a : PdAct} (hl : PdLinks cfg s s' a) {i j : Nat} {t : Task} {x : Job}
    {docs : List (Option PolicyDoc)} (ht : s.pd.tasks[i]? = some t) (hx : t.jobs[j]? = some x) (hj : JobGot s i j docs x) (hp : x.past = true) :
    ∃ sp d, s'.fetchResult i j = some (some sp) ∧ Spec.PolicySays sp d ∧ docs[j]? = some (some d) := by
  obtain ⟨more, hmore⟩ := hl.doms
  obtain ⟨sp, d, h1, h2⟩ := hj.2.2 hp
  refine ⟨sp, d, fetchResult_keep h1 (fun _ => domOf_append hmore) ?_ ?_, h2⟩
  · rcases hl.fs with ⟨_, h3⟩ | ⟨i', j', dom', f, _, _, h3, _, h4⟩
    · rw [h3]
    · rw [h3]
      simp only
      split
      · rename_i hij
        obtain ⟨rfl, rfl⟩ := hij
        obtain ⟨f0, hf0⟩ := h4 t ht
        rw [hx] at hf0
        obtain rfl := Option.some.inj hf0
        simp [Job.past] at hp
      · rfl
  · intro dom n retry r e hc
    rcases hl.fs with ⟨h3, _⟩ | ⟨i, j, dom', f, hf, h3, _⟩
    · rw [h3]; exact hc
    · rw [h3]
      simp only
      split
      · rename_i hx; subst hx; exact fStep_ret_keep hf hc
      · exact hc

theorem ForceAny.hook {cfg : SysCfg} {h : List SysAct} {s s' : Sys} {n : Nat} {f : Option PolicyDoc} (hi : ForceAny cfg h s)
    (hs : sysPd cfg s (.hook n f) = some s') : ForceAny cfg (h ++ [.pd (.hook n f)]) s' := by
  have hl := sysPd_links hs hi.len
  have ht := hi.tinv.step hl.step
  obtain ⟨more, hmore⟩ := hl.doms
  have hlive : ∀ (hle : ∀ (i : Nat) (t : Task), s.pd.tasks[i]? = some t → s'.pd.tasks[i]? = some t)
      (hge : ∀ (i : Nat) (t : Task), s'.pd.tasks[i]? = some t → s.pd.tasks[i]? = some t ∨ t.ret = none) (_ : s'.pd.live = s.pd.live),
      (s'.pd.live = 0 ∧ ∀ (i : Nat) (t : Task), s'.pd.tasks[i]? = some t → t.ret ≠ some true) ∨
        ∃ i t, LastUpdate (h ++ [.pd (.hook n f)]) s' i ∧ s'.pd.tasks[i]? = some t ∧ t.obj = s'.pd.live := by
    intro hle hge hlv
    rw [hlv]
    rcases hi.live with ⟨h0, h1⟩ | ⟨i, t, hlu, ht, ho⟩
    · left
      refine ⟨h0, fun i t ht => ?_⟩
      rcases hge i t ht with ht | hr
      · exact h1 i t ht
      · rw [hr]; simp
    · right
      exact ⟨i, t, Spec.LastUpdate.next hlu _ (fun i t ht => ⟨t, hle i t ht, fun _ => rfl⟩) (by simp), hle i t ht, ho⟩
  have hstep := hl.step
  rcases pdStep_hook hstep with hpd | ⟨k, hk, hpd⟩
  · -- the daemon crashes
    have hdoms : s'.doms = s.doms := by
      unfold sysPd at hs
      rw [hstep, hpd] at hs
      simp only at hs
      split at hs
      · simp at hs
      · simp only [if_true, Option.some.injEq] at hs; rw [← hs]
    have htasks : s'.pd.tasks = s.pd.tasks := by rw [hpd]
    have hsrcs : s'.pd.srcs = s.pd.srcs := by rw [hpd]
    refine ⟨ht, by rw [hpd]; exact hi.objs, by rw [htasks, hdoms]; exact hi.len, by rw [htasks, hdoms]; exact hi.doms, ?_,
      hlive (fun i t h => by rw [htasks]; exact h) (fun i t h => by rw [htasks] at h; exact .inl h) (by rw [hpd])⟩
    rw [htasks, hsrcs]
    intro i t ht hu
    obtain ⟨docs, extra, g1, g2, g3, g4⟩ := hi.tasks i t ht hu
    exact ⟨docs, extra, g1, g2, g3, fun j x hx => ⟨(g4 j x hx).1, (g4 j x hx).2.1, hl.got ht hx (g4 j x hx)⟩⟩
  · have hdoms : ∃ ds, s'.doms = s.doms ++ [ds] := by
      unfold sysPd at hs
      rw [hstep] at hs
      simp only [hk] at hs
      split at hs
      · rename_i hcr
        -- the daemon had crashed before
        rw [hpd] at hcr
        unfold pdStep at hstep
        split at hstep
        · simp at hstep
        · rename_i hnc; exact absurd hcr hnc
      · obtain ⟨_, _, he⟩ := callFetcher_waits hs
        exact ⟨_, by rw [he]⟩
    obtain ⟨ds, hdoms⟩ := hdoms
    have htasks : s'.pd.tasks = s.pd.tasks ++ [⟨s.pd.live, false, false, [.fetching f], none⟩] := by rw [hpd]
    have hsrcs : s'.pd.srcs = s.pd.srcs.set s.pd.live ((s.pd.srcs[s.pd.live]?).getD [] ++ [f]) := by rw [hpd]
    have old : ∀ (i : Nat) (t : Task), s'.pd.tasks[i]? = some t → s.pd.tasks[i]? = some t ∨ (t.ret = none ∧ t.isUpdate = false) := by
      intro i t ht
      rw [htasks] at ht
      rcases getElem?_append_cases ht with ht | ⟨_, rfl⟩
      · exact .inl ht
      · exact .inr ⟨rfl, rfl⟩
    refine ⟨ht, ?_, ?_, ?_, ?_, hlive (fun i t h => by rw [htasks, List.getElem?_append_left (lt_of_getElem? h)]; exact h)
      (fun i t h => (old i t h).imp id And.left) (by rw [hpd])⟩
    · rw [hsrcs, List.length_set, ← hi.objs, hpd]
    · rw [hdoms, htasks, List.length_append, List.length_append, hi.len]; rfl
    · intro i t ht hu
      rcases old i t ht with ht | ⟨_, h1⟩
      · rw [hdoms, List.getElem?_append_left (by rw [hi.len]; exact lt_of_getElem? ht)]
        exact hi.doms i t ht hu
      · rw [h1] at hu; simp at hu
    · intro i t ht hu
      rcases old i t ht with ht | ⟨_, h1⟩
      · obtain ⟨docs, extra, g1, g2, g3, g4⟩ := hi.tasks i t ht hu
        have hrest : ∀ (j : Nat) (x : Job), t.jobs[j]? = some x → JobGot s' i j docs x :=
          fun j x hx => ⟨(g4 j x hx).1, (g4 j x hx).2.1, hl.got ht hx (g4 j x hx)⟩
        by_cases hlo : s.pd.live = t.obj
        · refine ⟨docs, extra ++ [f], ?_, g2, g3, hrest⟩
          rw [hsrcs, hlo, List.getElem?_set_self (lt_of_getElem? g1), g1, Option.getD_some, List.append_assoc]
        · exact ⟨docs, extra, by rw [hsrcs, List.getElem?_set_ne hlo]; exact g1, g2, g3, hrest⟩
      · rw [h1] at hu; simp at hu

theorem ForceAny.pd {cfg : SysCfg} {h : List SysAct} {s s' : Sys} {a : PdAct} (hi : ForceAny cfg h s) (hnh : a.notHook)
    (hs : sysPd cfg s a = some s') : ForceAny cfg (h ++ [.pd a]) s' := by
  have hl := sysPd_links hs hi.len
  have hm := taskMoves hl.step hnh
  have hd := sysPd_doms hs hnh
  have htv := hi.tinv.step hl.step
  obtain ⟨more, hmore⟩ := hl.doms
  have hlen : s'.doms.length = s'.pd.tasks.length := by
    cases hc : s'.pd.crashed with
    | false =>
      have := pdStep_tasks_len hl.step hc
      rcases hd with ⟨fetch, rfl, _, h1⟩ | ⟨h1, h2⟩
      · rw [h1, this, List.length_append, hi.len]; rfl
      · rw [h2, this, hi.len]
        cases a with
        | update f => exact absurd rfl (h1 f)
        | hook n f => exact hnh.elim
        | _ => rfl
    | true =>
      -- only a hook crashes the daemon
      have hst := hl.step
      unfold pdStep at hst
      split at hst
      · simp at hst
      · rename_i hnc
        cases a with
        | hook n f => exact hnh.elim
        | _ =>
          simp only at hst
          repeat' split at hst
          all_goals first
            | (simp at hst; done)
            | (simp only [Option.some.injEq] at hst; rw [← hst] at hc; exact absurd hc hnc)
  have isUpd : ∀ (i : Nat) (t t' : Task), s.pd.tasks[i]? = some t → s'.pd.tasks[i]? = some t' → t'.isUpdate = t.isUpdate := by
    intro i t t' ht ht'
    obtain ⟨t2, h1, h2, _⟩ := pdStep_task hl.step ht
    rw [ht'] at h1
    obtain rfl := Option.some.inj h1
    exact h2
  refine ⟨htv, by rw [hm.objs, hm.srcs, List.length_append, hi.objs], hlen, ?_, ?_, ?_⟩
  · intro i t' ht' hu
    rcases hm.tasks i t' ht' with ⟨t, ht, _⟩ | ⟨fetch, rfl, rfl, _⟩
    · rw [hmore, List.getElem?_append_left (by rw [hi.len]; exact lt_of_getElem? ht)]
      exact hi.doms i t ht (by rw [← isUpd i t t' ht ht']; exact hu)
    · rcases hd with ⟨fetch', _, _, h1⟩ | ⟨h1, _⟩
      · rw [h1, ← hi.len, List.getElem?_append_right (Nat.le_refl _)]; simp
      · exact absurd rfl (h1 fetch)
  · intro i t' ht' hu
    rcases hm.tasks i t' ht' with ⟨t, ht, ho, hj⟩ | ⟨fetch, rfl, rfl, ho, hj⟩
    · obtain ⟨docs, extra, g1, g2, g3, g4⟩ := hi.tasks i t ht (by rw [← isUpd i t t' ht ht']; exact hu)
      refine ⟨docs, extra, ?_, g2, ?_, ?_⟩
      · rw [← ho, hm.srcs, List.getElem?_append_left (lt_of_getElem? g1)]; exact g1
      · rcases hj with hj | ⟨u, u', _, hu, hj⟩
        · rw [hj]; exact g3
        · rw [hj, (updStep_job hu).1]; exact g3
      · intro j x' hx'
        rcases hj with hj | ⟨u, u', rfl, hu, hj⟩
        · rw [hj] at hx'
          obtain ⟨k1, k2, _⟩ := g4 j x' hx'
          exact ⟨k1, k2, hl.got ht hx' (g4 j x' hx')⟩
        · rw [hj] at hx'
          rcases (updStep_job hu).2 j x' hx' with hx | ⟨e, rfl⟩ | ⟨x, hx, hp, hp'⟩ | ⟨f, hx, rfl⟩ | ⟨o, d, rfl, hx, hp'⟩
          · obtain ⟨k1, k2, _⟩ := g4 j x' hx
            exact ⟨k1, k2, hl.got ht hx (g4 j x' hx)⟩
          · exact ⟨by simp, by simp, by simp [Job.past]⟩
          · refine ⟨?_, ?_, fun _ => hl.got ht hx (g4 j x hx) hp⟩
            · rintro f rfl; simp [Job.past] at hp'
            · rintro f rfl; simp [Job.past] at hp'
          · refine ⟨by simp, ?_, by simp [Job.past]⟩
            intro f' hf'
            simp only [Job.fetching.injEq] at hf'
            subst hf'
            exact (g4 j _ hx).1 f rfl
          · refine ⟨?_, ?_, fun _ => ?_⟩
            · rintro f rfl; simp [Job.past] at hp'
            · rintro f rfl; simp [Job.past] at hp'
            · -- what is fetched now stands in the fetcher
              obtain ⟨sp, h1, h2⟩ := hl.brings d i j o t rfl ht hx
              have hdoc := (g4 j _ hx).2.1 _ rfl
              refine ⟨sp, d, fetchResult_keep h1 (fun _ => domOf_append hmore) ?_ ?_, h2, hdoc⟩
              · rcases hl.fs with ⟨_, h3⟩ | ⟨i', j', dom', f, _, _, h3, _, h4⟩
                · rw [h3]
                · rw [h3]
                  simp only
                  split
                  · rename_i hij
                    obtain ⟨rfl, rfl⟩ := hij
                    obtain ⟨f0, hf0⟩ := h4 t ht
                    have hx2 : t.jobs[j]? = some (.fetching (some d)) := hx
                    rw [hx2] at hf0
                    simp at hf0
                  · rfl
              · intro dom n retry r e hc
                rcases hl.fs with ⟨h3, _⟩ | ⟨i, j, dom', f, hf, h3, _⟩
                · rw [h3]; exact hc
                · rw [h3]
                  simp only
                  split
                  · rename_i hx; subst hx; exact fStep_ret_keep hf hc
                  · exact hc
    · rcases hd with ⟨fetch', hf, hlf, _⟩ | ⟨h1, _⟩
      · simp only [PdAct.update.injEq] at hf
        subst hf
        refine ⟨fetch, [], ?_, hlf, by rw [hj, List.length_map], ?_⟩
        · rw [ho, hm.srcs, hi.objs, List.getElem?_append_right (Nat.le_refl _)]; simp [PdAct.newSrcs]
        · intro j x hx
          rw [hj, List.getElem?_map] at hx
          cases hfj : fetch[j]? with
          | none => rw [hfj] at hx; simp at hx
          | some f =>
            rw [hfj] at hx
            simp only [Option.map_some, Option.some.injEq] at hx
            subst hx
            exact ⟨by intro f' hf'; simp only [Job.start.injEq] at hf'; rw [← hf']; exact hfj, by simp, by simp [Job.past]⟩
      · exact absurd rfl (h1 fetch)
  · rcases hm.live with ⟨hlv, hfin, hnew⟩ | ⟨i, t', rfl, ht', hr', hlv⟩
    · rw [hlv]
      rcases hi.live with ⟨h0, h1⟩ | ⟨i, t, hlu, ht, ho⟩
      · left
        refine ⟨h0, fun i t' ht' hr' => ?_⟩
        obtain ⟨t, ht, hr⟩ := hnew i t' ht' hr'
        exact h1 i t ht hr
      · right
        obtain ⟨t', ht', ho', _⟩ := hm.rets i t ht
        refine ⟨i, t', Spec.LastUpdate.next hlu _ (fun i t ht => let ⟨t', h1, _, h3⟩ := hm.rets i t ht; ⟨t', h1, h3⟩) ?_, ht', by rw [ho']; exact ho⟩
        intro i' hi'
        simp only [SysAct.pd.injEq] at hi'
        exact hfin i' hi'
    · right
      exact ⟨i, t', ⟨⟨t', ht', hr'⟩, h, [], rfl, by simp⟩, ht', hlv.symm⟩

theorem forceAny_run {cfg : SysCfg} {now : Int} {h : List SysAct} {s : Sys} (hr : sysRun cfg (sysInit cfg now) h = some s) : ForceAny cfg h s := by
  refine sysRun_ind (fun h s => ForceAny cfg h s) ?_ ?_ h s hr
  · exact ⟨pdInit_taskInv _ _, rfl, rfl, by simp [sysInit, pdInit], by simp [sysInit, pdInit], .inl ⟨rfl, by simp [sysInit, pdInit]⟩⟩
  · intro h s a s' hi _ hs
    have hid : ∀ (dom : Str) (n : Nat) (retry : Bool) (r : Option SignedPolicy) (e : Option Err), (s.fs dom).calls[n]? = some ⟨retry, .ret r e⟩ →
      (s.fs dom).calls[n]? = some ⟨retry, .ret r e⟩ := fun _ _ _ _ _ h => h
    obtain ⟨hd, he⟩ := sysStep_effect hs
    cases he with
    | tick d => exact hi.env (by simp) ⟨rfl, rfl, rfl, rfl⟩ rfl rfl hid
    | pk a pk' ha hp => exact hi.env (by simp) ⟨rfl, rfl, rfl, rfl⟩ rfl rfl hid
    | jwk a jwk' hj => exact hi.env (by simp) ⟨rfl, rfl, rfl, rfl⟩ rfl rfl hid
    | fetcher dom a f ha hf =>
      refine hi.env (by simp) ⟨rfl, rfl, rfl, rfl⟩ rfl rfl ?_
      intro x n retry r e hc
      simp only
      split
      · rename_i hx; subst hx; exact fStep_ret_keep hf hc
      · exact hc
    | pd a pd' D F W ha hp hD hF hbr =>
      have h2 : sysPd cfg s a = some { s with pd := pd', dead := pd'.crashed, doms := D, fs := F, waits := W } := by
        unfold sysStep at hs
        rw [hd] at hs
        simpa using hs
      cases a with
      | hook n f => exact hi.hook h2
      | _ => exact hi.pd trivial h2
    | nilPolicy i j => exact hi.env (by simp) ⟨rfl, rfl, rfl, rfl⟩ rfl rfl hid
    | beginCheck i q p act res pd' hc hn hp =>
      have := pdStep_check_crashed hp
      subst this
      exact hi.env (by simp) ⟨rfl, rfl, rfl, rfl⟩ rfl rfl hid
    | endCheck i view sched k c r auth' hk hc hl' hr hv hst => exact hi.env (by simp) ⟨rfl, rfl, rfl, rfl⟩ rfl rfl hid
    | auth a auth' ha hst => exact hi.env (by simp) ⟨rfl, rfl, rfl, rfl⟩ rfl rfl hid

/-! ### Recency -/

/-- The tasks that began after `s0` wait for calls that began after `s0`. -/
structure WaitAny (s0 s : Sys) : Prop where
  lt : ∀ i j n, s.waits i j = some n → i < s.doms.length
  new : ∀ (i j n : Nat) (dom : Str), s0.doms.length ≤ i → s.waits i j = some n → s.domOf i j = some dom → (s0.fs dom).calls.length ≤ n

theorem WaitAny.step {cfg : SysCfg} {s0 s s' : Sys} {h : List SysAct} {a : SysAct} (hw : WaitAny s0 s) (hi : ForceAny cfg h s)
    (hlen : ∀ dom, (s0.fs dom).calls.length ≤ (s.fs dom).calls.length) (hs : sysStep cfg s a = some s') : WaitAny s0 s' := by
  obtain ⟨hd, he⟩ := sysStep_effect hs
  cases he with
  | tick d => exact ⟨hw.lt, hw.new⟩
  | pk a pk' ha hp => exact ⟨hw.lt, hw.new⟩
  | jwk a jwk' hj => exact ⟨hw.lt, hw.new⟩
  | fetcher dom a f ha hf => exact ⟨hw.lt, hw.new⟩
  | pd a pd' D F W ha hp hD hF hbr =>
    have h2 : sysPd cfg s a = some { s with pd := pd', dead := pd'.crashed, doms := D, fs := F, waits := W } := by
      unfold sysStep at hs
      rw [hd] at hs
      simpa using hs
    generalize ({ s with pd := pd', dead := pd'.crashed, doms := D, fs := F, waits := W } : Sys) = s' at h2 hs
    have hl := sysPd_links h2 hi.len
    obtain ⟨more, hmore⟩ := hl.doms
    have hle : s.doms.length ≤ s'.doms.length := by rw [hmore, List.length_append]; omega
    have hdom : ∀ i j dom, i < s.doms.length → s'.domOf i j = some dom → s.domOf i j = some dom := by
      intro i j dom hlt h
      unfold Sys.domOf at h ⊢
      rw [hmore, List.getElem?_append_left hlt] at h
      exact h
    rcases hl.fs with ⟨_, h3⟩ | ⟨i, j, dom, f, _, _, h3, h4, _⟩
    · refine ⟨fun i j n hn => ?_, fun i j n dom hi0 hn hd => ?_⟩
      · rw [h3] at hn; exact Nat.lt_of_lt_of_le (hw.lt i j n hn) hle
      · rw [h3] at hn; exact hw.new i j n dom hi0 hn (hdom i j dom (hw.lt i j n hn) hd)
    · have hlt : i < s'.doms.length := by
        unfold Sys.domOf at h4
        cases hx : s'.doms[i]? with
        | none => rw [hx] at h4; simp at h4
        | some ds => exact lt_of_getElem? hx
      refine ⟨fun i' j' n hn => ?_, fun i' j' n dom' hi0 hn hdom' => ?_⟩
      · rw [h3] at hn
        simp only at hn
        split at hn
        · rename_i hij; rw [hij.1]; exact hlt
        · exact Nat.lt_of_lt_of_le (hw.lt i' j' n hn) hle
      · rw [h3] at hn
        simp only at hn
        split at hn
        · rename_i hij
          obtain ⟨rfl, rfl⟩ := hij
          rw [h4] at hdom'
          obtain rfl := Option.some.inj hdom'
          simp only [Option.some.injEq] at hn
          rw [← hn]; exact hlen dom
        · exact hw.new i' j' n dom' hi0 hn (hdom i' j' dom' (hw.lt i' j' n hn) hdom')
  | nilPolicy i j => exact ⟨hw.lt, hw.new⟩
  | beginCheck i q p act res pd' hc hn hp => exact ⟨hw.lt, hw.new⟩
  | endCheck i view sched k c r auth' hk hc hl' hr hv hst => exact ⟨hw.lt, hw.new⟩
  | auth a auth' ha hst => exact ⟨hw.lt, hw.new⟩

theorem waitAny_run {cfg : SysCfg} {now : Int} {pre post : List SysAct} {s0 s : Sys}
    (hr0 : sysRun cfg (sysInit cfg now) pre = some s0) (hr : sysRun cfg s0 post = some s) : WaitAny s0 s := by
  have hbase : ∀ i j n, s0.waits i j = some n → i < s0.doms.length := by
    have : WaitAny (sysInit cfg now) s0 := by
      refine sysRun_ind (fun h s => WaitAny (sysInit cfg now) s) ?_ ?_ pre s0 hr0
      · exact ⟨by simp [sysInit], by simp [sysInit]⟩
      · intro h s a s' ih hrun hs
        exact ih.step (forceAny_run hrun) (by simp [sysInit, fInit]) hs
    exact this.lt
  refine sysRun_ind (fun h s => WaitAny s0 s) ?_ ?_ post s hr
  · refine ⟨hbase, fun i j n dom hi hn _ => ?_⟩
    have := hbase i j n hn
    omega
  · intro h s a s' ih hrun hs
    have hall : sysRun cfg (sysInit cfg now) (pre ++ h) = some s := by rw [sysRun_append, hr0]; exact hrun
    exact ih.step (forceAny_run hall) (freshInv_run hr0 hrun).len hs

/-! ### One object in the system -/

/-- No refresh of an expired entry began while the object `o` was published. -/
def NoHookOn (cfg : SysCfg) (s0 : Sys) (h : List SysAct) (o : Nat) : Prop :=
  ∀ pre n f post s1, h = pre ++ .pd (.hook n f) :: post → sysRun cfg s0 pre = some s1 → s1.pd.live ≠ o

theorem NoHookOn.prefix {cfg : SysCfg} {s0 : Sys} {h h' : List SysAct} {o : Nat} (hu : NoHookOn cfg s0 (h ++ h') o) : NoHookOn cfg s0 h o := by
  intro pre n f post s1 he hr
  exact hu pre n f (post ++ h') s1 (by rw [he]; simp) hr

theorem objVer_run {cfg : SysCfg} {now : Int} {h : List SysAct} {s : Sys} {o : Nat} (hu : NoHookOn cfg (sysInit cfg now) h o)
    (hr : sysRun cfg (sysInit cfg now) h = some s) : ObjVer cfg.auth.U now o s.pd := by
  refine sysRun_ind (fun h s => NoHookOn cfg (sysInit cfg now) h o → ObjVer cfg.auth.U now o s.pd) ?_ ?_ h s hr hu
  · intro _; exact pdInit_objVer _ _ _ _
  · intro h s a s' ih hrun hs hu
    have hi := ih hu.prefix
    obtain ⟨hd, he⟩ := sysStep_effect hs
    cases he with
    | tick d => exact hi.tick d
    | pk a pk' ha hp => exact hi
    | jwk a jwk' hj => exact hi
    | fetcher dom a f ha hf => exact hi
    | pd a pd' D F W ha hp hD hF hbr =>
      exact hi.step (fun n f hf => hu h n f [] s (by rw [hf]) hrun) hp
    | nilPolicy i j => exact hi
    | beginCheck i q p act res pd' hc hn hp => exact hi.step (by simp) hp
    | endCheck i view sched k c r auth' hk hc hl' hr hv hst => exact hi
    | auth a auth' ha hst => exact hi

end Athenz
