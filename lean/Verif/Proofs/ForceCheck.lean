import Verif.Proofs.ForceAny
import Verif.Props.PolicydLocal

/-! Checks and the documents in force, in executions with refreshes of expired entries. -/

namespace Athenz
open Spec

/-- An update goes on with as many goroutines as it began with. -/
theorem updRun_jobs_len {U : CaseFns} {s s' : UpdState} {as : List UpdAct} (h : updRun U s as = some s') : s'.jobs.length = s.jobs.length := by
  induction as generalizing s with
  | nil => simp only [updRun, Option.some.injEq] at h; subst h; rfl
  | cons a as ih =>
    simp only [updRun] at h
    split at h
    · simp at h
    · rename_i s1 hs1
      rw [ih h, (updStep_job hs1).1]

/-- The published object, if no refresh began while it was published. -/
theorem ObjVer.version {U : CaseFns} {n0 : Int} {s : PdState} (h : ObjVer U n0 s.live s) :
    (s.live = 0 ∧ s.liveDocs = [] ∧ s.liveObj = Gache.empty) ∨
    ∃ T0 u, n0 ≤ T0 ∧ u.now ≤ s.now ∧ Updated U s.liveDocs T0 u ∧ ∀ t, s.now ≤ t → viewOf s.liveObj t = viewOf u.rp t := by
  rcases h.live rfl with h0 | ⟨i, t, ht, ho, hret⟩
  · left
    have := h.zero h0
    exact ⟨h0, by simp [PdState.liveDocs, h0, this.2], by simp [PdState.liveObj, h0, this.1]⟩
  · right
    have hti := h.own i t ht ho
    obtain ⟨docs, T0, u, us, hT0, h1, h2, h3, h4, h5, g, h6, h7⟩ := hti.hist
    have hok := hti.ret hret
    refine ⟨T0, u, hT0, h3, ⟨us, ?_, ?_⟩, ?_⟩
    · rw [PdState.liveDocs, ← ho, h1, Option.getD_some]; exact h2
    · intro j hj
      rw [h4] at hj
      simp only [Task.allOk, List.all_eq_true] at hok
      have := hok j hj
      cases j with
      | done e => cases e with
        | none => rfl
        | some e => simp at this
      | _ => simp at this
    · intro t' ht'
      rw [PdState.liveObj, ← ho, h6, Option.getD_some]
      rcases h7 with ⟨h7, _⟩ | ⟨_, h8⟩
      · rw [Task.allOk_done hok] at h7; simp at h7
      · funext k; exact h8 t' ht' k

/-- The number of documents of the published object is that of the goroutines of its update. -/
theorem ObjVer.docs_len {U : CaseFns} {n0 : Int} {s : PdState} (h : ObjVer U n0 s.live s) {i : Nat} {t : Task} (ht : s.tasks[i]? = some t)
    (ho : t.obj = s.live) : s.liveDocs.length = t.jobs.length := by
  obtain ⟨docs, T0, u, us, hT0, h1, h2, h3, h4, h5, g, h6, h7⟩ := (h.own i t ht ho).hist
  rw [PdState.liveDocs, ← ho, h1, Option.getD_some, ← h4, updRun_jobs_len h2, updInit, List.length_map]

/-- A check that loaded an object on which no refresh worked decides as the documents prescribe that were in force then. -/
theorem ObjVer.decides {U : CaseFns} {n0 : Int} {s1 s3 : PdState} (hn0 : 0 ≤ n0) (h1 : ObjVer U n0 s1.live s1) (h3 : ObjVer U n0 s1.live s3)
    (h13 : s1.now ≤ s3.now) {k : Nat} {c : Chk} {r : Res (List Str)} (hc : s3.checks[k]? = some c) (hret : c.cs.coll = .ret r)
    (hl : c.loaded = some (s1.live, s1.now, s1.liveObj))
    (hreg : ∀ role ∈ c.q.roles, RegularAt U s1.liveDocs n0 s3.now s3.now (c.q.domain ++ ":role.".toList ++ role)) :
    Decision U (allAssertions s1.liveDocs) c.q r := by
  obtain ⟨_, _, _, sched, hrun, hm⟩ := h3.checks k c _ _ hc hl
  have hrep : ∀ t, s1.now ≤ t → t ≤ s3.now → RepView U (allAssertions s1.liveDocs) c.q (viewOf s1.liveObj t) := by
    intro t ht1 ht2 role hrole
    rcases h1.version with ⟨_, e1, e2⟩ | ⟨T0, u, hT0, hun, hU, hsame⟩
    · rw [e1, e2]
      exact ⟨by simp [viewOf, Gache.get, Gache.empty], by simp [viewOf, Gache.get, Gache.empty], by simp [allAssertions]⟩
    · rw [hsame t ht1]
      exact ((hreg role hrole).earlier hn0 hT0 (by omega) ht2).rep hU
  have hinv := (CheckReq.init_inv U c.q (RepView U (allAssertions s1.liveDocs) c.q) _ (hrep _ (Int.le_refl _) h13)).run (as := sched) (by
    intro a ha
    cases a with
    | mutate v =>
      obtain ⟨t, ht1, ht2, rfl⟩ := hm v ha
      exact hrep t ht1 ht2
    | _ => trivial) hrun
  exact decision_changing (hinv.ret r hret)

/-! ### The system -/

theorem sysStep_task {cfg : SysCfg} {s s' : Sys} {a : SysAct} (hs : sysStep cfg s a = some s') {i : Nat} {t : Task} (ht : s.pd.tasks[i]? = some t) :
    ∃ t', s'.pd.tasks[i]? = some t' ∧ t'.isUpdate = t.isUpdate ∧ t'.obj = t.obj ∧ (t.ret ≠ none → t'.ret = t.ret) := by
  obtain ⟨_, he⟩ := sysStep_effect hs
  cases he with
  | pd a pd' D F W ha hp hD hF hbr =>
    obtain ⟨t', h1, h2, h3, h4, _⟩ := pdStep_task hp ht
    exact ⟨t', h1, h2, h3, h4⟩
  | beginCheck i q p act res pd' hc hn hp =>
    obtain ⟨t', h1, h2, h3, h4, _⟩ := pdStep_task hp ht
    exact ⟨t', h1, h2, h3, h4⟩
  | _ => exact ⟨t, ht, rfl, rfl, fun _ => rfl⟩

theorem sysRun_task {cfg : SysCfg} {s s' : Sys} {h : List SysAct} (hr : sysRun cfg s h = some s') {i : Nat} {t : Task} (ht : s.pd.tasks[i]? = some t) :
    ∃ t', s'.pd.tasks[i]? = some t' ∧ t'.isUpdate = t.isUpdate ∧ t'.obj = t.obj ∧ (t.ret ≠ none → t'.ret = t.ret) := by
  refine sysRun_ind (fun _ s' => ∃ t', s'.pd.tasks[i]? = some t' ∧ t'.isUpdate = t.isUpdate ∧ t'.obj = t.obj ∧ (t.ret ≠ none → t'.ret = t.ret)) ?_ ?_ h s' hr
  · exact ⟨t, ht, rfl, rfl, fun _ => rfl⟩
  · rintro h s1 a s2 ⟨t1, k1, k2, k3, k4⟩ _ hs
    obtain ⟨t2, m1, m2, m3, m4⟩ := sysStep_task hs k1
    exact ⟨t2, m1, m2.trans k2, m3.trans k3, fun hn => by rw [m4 (by rw [k4 hn]; exact hn), k4 hn]⟩

theorem sysRun_loaded {cfg : SysCfg} {s s' : Sys} {h : List SysAct} (hr : sysRun cfg s h = some s') {k : Nat} {c : Chk}
    {x : Nat × Int × Gache (List Assertion)} (hc : s.pd.checks[k]? = some c) (hl : c.loaded = some x) :
    ∃ c', s'.pd.checks[k]? = some c' ∧ c'.loaded = some x ∧ c'.q = c.q := by
  refine sysRun_ind (fun _ s' => ∃ c', s'.pd.checks[k]? = some c' ∧ c'.loaded = some x ∧ c'.q = c.q) ⟨c, hc, hl, rfl⟩ ?_ h s' hr
  rintro h s1 a s2 ⟨c1, k1, k2, k3⟩ _ hs
  obtain ⟨_, he⟩ := sysStep_effect hs
  cases he with
  | pd a pd' D F W ha hp hD hF hbr =>
    obtain ⟨c2, m1, m2, m3⟩ := loaded_step hp k1 k2
    exact ⟨c2, m1, m2, m3.trans k3⟩
  | beginCheck i q p act res pd' hc hn hp =>
    obtain ⟨c2, m1, m2, m3⟩ := loaded_step hp k1 k2
    exact ⟨c2, m1, m2, m3.trans k3⟩
  | _ => exact ⟨c1, k1, k2, k3⟩

/-- An update that returned nil is an update, and its object is not the initial one. -/
theorem ForceAny.upd {cfg : SysCfg} {h : List SysAct} {s : Sys} (hi : ForceAny cfg h s) {i : Nat} {t : Task} (ht : s.pd.tasks[i]? = some t)
    (hr : t.ret = some true) : t.isUpdate = true ∧ 0 < t.obj := by
  have hu : t.isUpdate = true := by
    cases hu : t.isUpdate with
    | true => rfl
    | false => rw [hi.tinv.ret i t ht hu] at hr; simp at hr
  exact ⟨hu, hi.tinv.pos i t ht hu⟩

/-- If no refresh began while the update was the last, then none began while its object was published. -/
theorem noHookOn_of {cfg : SysCfg} {now : Int} {h1 h2 : List SysAct} {s1 : Sys} (hr1 : sysRun cfg (sysInit cfg now) h1 = some s1)
    {s : Sys} (hr : sysRun cfg (sysInit cfg now) (h1 ++ h2) = some s)
    (hn : NotRefreshed cfg (sysInit cfg now) h1 s1 (h1 ++ h2)) : NoHookOn cfg (sysInit cfg now) (h1 ++ h2) s1.pd.live := by
  intro pre n f post s2 he hr2 hlive
  obtain ⟨n1, n2⟩ := hn pre n f post s2 he hr2
  have f1 := forceAny_run hr1
  have f2 := forceAny_run hr2
  have fs := forceAny_run hr
  have e1 : sysRun cfg s1 h2 = some s := by rw [sysRun_append, hr1] at hr; exact hr
  have e2 : sysRun cfg s2 (.pd (.hook n f) :: post) = some s := by rw [he, sysRun_append, hr2] at hr; exact hr
  rcases f1.live with ⟨l0, l1⟩ | ⟨i, t, lu, lt, lo⟩
  · obtain ⟨t2, m2, r2⟩ := n2 fun t ht => by
      obtain ⟨i, hi⟩ := List.mem_iff_getElem?.mp ht
      exact l1 i t hi
    rcases f2.live with ⟨_, g1⟩ | ⟨i', t', gu, gt, go⟩
    · obtain ⟨i, hi⟩ := List.mem_iff_getElem?.mp m2
      exact g1 i t2 hi r2
    · obtain ⟨⟨t'', ht'', hret⟩, _⟩ := gu
      rw [gt] at ht''
      obtain rfl := Option.some.inj ht''
      have := (f2.upd gt hret).2
      omega
  · have hlu := lu
    obtain ⟨⟨tx, htx, hret⟩, _⟩ := lu
    rw [lt] at htx
    obtain rfl := Option.some.inj htx
    have hpos := f1.upd lt hret
    rcases f2.live with ⟨g0, _⟩ | ⟨i', t', gu, gt, go⟩
    · omega
    · have hgu := gu
      obtain ⟨⟨t'', ht'', hret'⟩, _⟩ := gu
      rw [gt] at ht''
      obtain rfl := Option.some.inj ht''
      have hpos' := f2.upd gt hret'
      obtain ⟨a1, b1, b2, b3, _⟩ := sysRun_task e1 lt
      obtain ⟨a2, c1, c2, c3, _⟩ := sysRun_task e2 gt
      have : i = i' := fs.tinv.distinct i i' a1 a2 b1 c1 (by rw [b2]; exact hpos.1) (by rw [c2]; exact hpos'.1) (by omega)
      subst this
      exact n1 i hlu hgu

/-- Where nothing is refreshed, all that refreshes get is as it should be. -/
theorem Spec.NotRefreshed.with {cfg : SysCfg} {s0 : Sys} {h1 h : List SysAct} {s1 s : Sys} {P : PolicyDoc → Prop} (hn : NotRefreshed cfg s0 h1 s1 h) :
    RefreshedWith cfg s0 h1 s1 h s P := by
  intro pre n f post s2 he hr hsame
  obtain ⟨n1, n2⟩ := hn pre n f post s2 he hr
  rcases hsame with ⟨i, h3, h4⟩ | ⟨h3, h4⟩
  · exact absurd h4 (n1 i h3)
  · obtain ⟨t, ht, hret⟩ := n2 h3
    exact absurd hret (h4 t ht)

/-- Only one update is the last. -/
theorem lastUpdate_unique {h : List SysAct} {s : Sys} {i i' : Nat} (hi : LastUpdate h s i) (hi' : LastUpdate h s i') : i = i' := by
  have key : ∀ (a b : Nat) (x x' y y' : List SysAct), x ++ SysAct.pd (.finish a) :: x' = y ++ SysAct.pd (.finish b) :: y' →
      x.length < y.length → SysAct.pd (.finish b) ∈ x' := by
    intro a b x x' y y' he hlt
    obtain ⟨z, hz⟩ : ∃ z, y = x ++ z := by
      refine ⟨y.drop x.length, ?_⟩
      have : y.take x.length = x := by
        have := congrArg (List.take x.length) he
        rw [List.take_append_of_le_length (Nat.le_refl _), List.take_append_of_le_length (by omega)] at this
        simpa using this.symm
      conv => lhs; rw [← List.take_append_drop x.length y, this]
    subst hz
    rw [List.append_assoc, List.append_cancel_left_eq] at he
    cases z with
    | nil => simp at hlt
    | cons c z =>
      simp only [List.cons_append, List.cons.injEq] at he
      rw [he.2]; simp
  obtain ⟨⟨t, ht, hr⟩, g1, g2, hg, hlast⟩ := hi
  obtain ⟨⟨t', ht', hr'⟩, g1', g2', hg', hlast'⟩ := hi'
  rw [hg] at hg'
  rcases Nat.lt_trichotomy g1.length g1'.length with hlt | heq | hgt
  · obtain ⟨t2, ht2, hr2⟩ := hlast i' (key i i' _ _ _ _ hg' hlt)
    rw [ht'] at ht2
    simp only [Option.some.injEq] at ht2
    subst ht2
    rw [hr'] at hr2; simp at hr2
  · have := (List.append_inj hg' heq).2
    simp only [List.cons.injEq, SysAct.pd.injEq, PdAct.finish.injEq] at this
    exact this.1
  · obtain ⟨t2, ht2, hr2⟩ := hlast' i (key i' i _ _ _ _ hg'.symm hgt)
    rw [ht] at ht2
    simp only [Option.some.injEq] at ht2
    subst ht2
    rw [hr] at hr2; simp at hr2

/-- The documents were not refreshed if every refresh began before their update was called. -/
theorem NotRefreshed.of_before {cfg : SysCfg} {s0 : Sys} {h1 h : List SysAct} {s1 : Sys} {i : Nat} (hl : LastUpdate h1 s1 i)
    (hb : ∀ pre n f post s2, h = pre ++ SysAct.pd (.hook n f) :: post → sysRun cfg s0 pre = some s2 → s2.pd.tasks.length ≤ i) :
    NotRefreshed cfg s0 h1 s1 h := by
  intro pre n f post s2 he hr
  refine ⟨fun i' hi' hi2 => ?_, fun hn => ?_⟩
  · obtain rfl := lastUpdate_unique hl hi'
    obtain ⟨⟨t, ht, _⟩, _⟩ := hi2
    have := lt_of_getElem? ht
    have := hb pre n f post s2 he hr
    omega
  · obtain ⟨⟨t, ht, hret⟩, _⟩ := hl
    exact absurd hret (hn t (List.mem_of_getElem? ht))

theorem NotRefreshed.of_noHook {cfg : SysCfg} {s0 : Sys} {h1 h : List SysAct} {s1 : Sys} (hnh : ∀ n f, .pd (.hook n f) ∉ h) :
    NotRefreshed cfg s0 h1 s1 h := by
  intro pre n f post s2 he
  exact absurd (by rw [he]; simp) (hnh n f)

theorem NotRefreshedSince.of_noHook {cfg : SysCfg} {s0 : Sys} {h : List SysAct} {n : Nat} (hnh : ∀ n f, .pd (.hook n f) ∉ h) :
    NotRefreshedSince cfg s0 h n := fun _ _ _ _ _ _ => NotRefreshed.of_noHook hnh

theorem Spec.NotRefreshed.earlier {cfg : SysCfg} {s0 : Sys} {h1 h h' : List SysAct} {s1 : Sys} (hn : NotRefreshed cfg s0 h1 s1 (h ++ h')) :
    NotRefreshed cfg s0 h1 s1 h := by
  intro pre n f post s2 he
  exact hn pre n f (post ++ h') s2 (by rw [he]; simp)

end Athenz
