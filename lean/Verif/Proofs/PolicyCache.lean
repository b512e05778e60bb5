import Verif.Proofs.PolicydVer
import Verif.Proofs.ForceCheck
import Verif.Proofs.Withdraw
import Verif.Props.Policyd
import Verif.Props.PolicydLocal

/-! # The published cache stays as it is, apart from what expires -/

namespace Athenz
open Spec

/-- The cache object. -/
def PdState.obj (s : PdState) (o : Nat) : Gache (List Assertion) := (s.objs[o]?).getD Gache.empty

theorem quiet_step {U : CaseFns} {n0 : Int} {s s' : PdState} {o : Nat} (hv : ObjVer U n0 o s) {a : PdAct}
    (ha : ∀ n f, a = .hook n f → s.live ≠ o) (hs : pdStep U s a = some s') (hq : Quiet s o) : Quiet s' o ∧ SameFrom s'.now (s'.obj o) (s.obj o) := by
  have hlt : o < s.objs.length := by
    rcases hq with h | ⟨i, t, ht, h1, _⟩
    · rw [h]; exact hv.ne
    · rw [← h1]; exact hv.lt i t ht
  have same : s'.tasks = s.tasks → s'.objs = s.objs → Quiet s' o ∧ SameFrom s'.now (s'.obj o) (s.obj o) := by
    intro h1 h2
    refine ⟨?_, by simp only [PdState.obj, h2]; exact SameFrom.refl _ _⟩
    unfold Quiet
    rw [h1]
    exact hq
  unfold pdStep at hs
  split at hs
  · simp at hs
  cases a with
  | hook j f =>
    simp only at hs
    repeat' split at hs
    all_goals first
      | (simp at hs; done)
      | (simp only [Option.some.injEq] at hs; subst hs; exact same rfl rfl)
      | skip
    all_goals
      simp only [Option.some.injEq] at hs; subst hs
      refine ⟨?_, SameFrom.refl _ _⟩
      rcases hq with h | ⟨i, t, ht, h1, h2⟩
      · exact .inl h
      · refine .inr ⟨i, t, ?_, h1, h2⟩
        simp only
        rw [List.getElem?_append_left (lt_of_getElem? ht)]
        exact ht
  | finish i =>
    simp only at hs
    split at hs
    · simp at hs
    · rename_i t ht
      split at hs
      · split at hs
        · simp only [Option.some.injEq] at hs; subst hs
          exact ⟨quiet_set (t' := { t with ret := some true }) ht rfl rfl (fun h => h) hq, SameFrom.refl _ _⟩
        · simp only [Option.some.injEq] at hs; subst hs
          exact ⟨quiet_set (t' := { t with ret := some false }) ht rfl rfl (fun h => h) hq, SameFrom.refl _ _⟩
      · simp at hs
  | abort i =>
    simp only at hs
    split at hs
    · simp at hs
    · rename_i t ht
      split at hs
      · simp only [Option.some.injEq] at hs; subst hs
        exact ⟨quiet_set (t' := { t with ret := some false }) ht rfl rfl (fun h => h) hq, SameFrom.refl _ _⟩
      · simp at hs
  | update fetch =>
    simp only [Option.some.injEq] at hs; subst hs
    refine ⟨?_, ?_⟩
    · rcases hq with h | ⟨i, t, ht, h1, h2⟩
      · exact .inl h
      · refine .inr ⟨i, t, ?_, h1, h2⟩
        simp only
        rw [List.getElem?_append_left (lt_of_getElem? ht)]
        exact ht
    · simp only [PdState.obj]
      rw [List.getElem?_append_left hlt]
      exact SameFrom.refl _ _
  | task i a =>
    simp only at hs
    split at hs
    · simp at hs
    · rename_i t ht
      have key : ∀ u, (∀ d, a ≠ .tick d) → updStep U (s.taskView t) a = some u →
          s' = { s with objs := s.objs.set t.obj u.rp, tasks := s.tasks.set i { t with cancelled := u.cancelled, jobs := u.jobs } } →
          Quiet s' o ∧ SameFrom s'.now (s'.obj o) (s.obj o) := by
        rintro u hat hu rfl
        refine ⟨quiet_set (t' := { t with cancelled := u.cancelled, jobs := u.jobs }) ht rfl rfl (fun hd => ?_) hq, ?_⟩
        · obtain ⟨e1, _⟩ := updStep_allDone hu (by simpa [PdState.taskView] using Task.allDone_iff.mp hd) hat
          simp only [Task.allDone, e1]
          exact hd
        · by_cases hot : t.obj = o
          · have hti := hv.own i t ht hot
            have hdone : t.allDone = true := by
              rcases hq with h0 | ⟨j, t', ht', ho, hd⟩
              · have := hti.pos; omega
              · have := hv.uniq j i t' t ht' ht ho hot
                subst this
                rw [ht] at ht'; simp only [Option.some.injEq] at ht'; subst ht'; exact hd
            obtain ⟨_, e2⟩ := updStep_allDone hu (by simpa [PdState.taskView] using Task.allDone_iff.mp hdone) hat
            simp only [PdState.obj]
            rw [← hot, List.getElem?_set_self hti.lt, e2]
            simp only [PdState.taskView, Option.getD_some]
            exact SameFrom.refl _ _
          · simp only [PdState.obj]
            rw [List.getElem?_set_ne hot]
            exact SameFrom.refl _ _
      cases a with
      | tick d => simp at hs
      | _ =>
        simp only at hs
        split at hs
        · simp at hs
        · rename_i u hu
          simp only [Option.some.injEq] at hs
          exact key u (by intro d; simp) hu hs.symm
  | expire o' k =>
    simp only at hs
    split at hs
    · split at hs
      · simp at hs
      · rename_i g hg
        split at hs
        · simp at hs
        · rename_i e he
          split at hs
          · simp at hs
          · rename_i hvl
            simp only [Option.some.injEq] at hs; subst hs
            refine ⟨hq, ?_⟩
            by_cases hol : o' = o
            · subst hol
              simp only [PdState.obj, List.getElem?_set_self hlt, hg, Option.getD_some]
              exact sameFrom_delete he (by simpa using hvl)
            · simp only [PdState.obj, List.getElem?_set_ne hol]
              exact SameFrom.refl _ _
    · simp at hs
  | _ =>
    simp only at hs
    repeat' split at hs
    all_goals first
      | (simp at hs; done)
      | (simp only [Option.some.injEq] at hs; subst hs; exact same rfl rfl)

theorem quiet_run {cfg : SysCfg} {now : Int} {h1 h2 : List SysAct} {s1 s : Sys} {o : Nat} (hu : NoHookOn cfg (sysInit cfg now) (h1 ++ h2) o)
    (hr1 : sysRun cfg (sysInit cfg now) h1 = some s1) (hr : sysRun cfg s1 h2 = some s) (hq : Quiet s1.pd o) :
    SameFrom s.pd.now (s.pd.obj o) (s1.pd.obj o) := by
  suffices h : NoHookOn cfg (sysInit cfg now) (h1 ++ h2) o → Quiet s.pd o ∧ SameFrom s.pd.now (s.pd.obj o) (s1.pd.obj o) from (h hu).2
  refine sysRun_ind (fun h s => NoHookOn cfg (sysInit cfg now) (h1 ++ h) o → Quiet s.pd o ∧ SameFrom s.pd.now (s.pd.obj o) (s1.pd.obj o))
    (fun _ => ⟨hq, SameFrom.refl _ _⟩) ?_ h2 s hr
  intro h s a s' ih hrun hs hu
  rw [← List.append_assoc] at hu
  have hr2 : sysRun cfg (sysInit cfg now) (h1 ++ h) = some s := by rw [sysRun_append, hr1]; exact hrun
  have hr3 : sysRun cfg (sysInit cfg now) (h1 ++ h ++ [a]) = some s' := by rw [sysRun_append, hr2]; simp [sysRun, hs]
  obtain ⟨i1, i2⟩ := ih hu.prefix
  have hv := objVer_run hu.prefix hr2
  have hle : s.pd.now ≤ s'.pd.now := by
    rw [(sysRuns_run hr2).1.clock.2.1, (sysRuns_run hr3).1.clock.2.1]; exact sysStep_now hs
  have step : ∀ b pd', (∀ n f, b = .hook n f → s.pd.live ≠ o) → pdStep cfg.auth.U s.pd b = some pd' → s.pd.now ≤ pd'.now →
      Quiet pd' o ∧ SameFrom pd'.now (pd'.obj o) (s1.pd.obj o) := by
    intro b pd' hb hp hle
    obtain ⟨k1, k2⟩ := quiet_step hv hb hp i1
    exact ⟨k1, k2.trans (i2.later hle)⟩
  obtain ⟨_, he⟩ := sysStep_effect hs
  cases he with
  | tick d => exact ⟨i1, i2.later hle⟩
  | pd a pd' D F W ha hp hD hF hbr =>
    exact step _ _ (fun n f hf => hu _ n f [] s (by rw [hf]) hr2) hp hle
  | beginCheck i q p act res pd' hc hn hp => exact step _ _ (by simp) hp hle
  | _ => exact ⟨i1, i2⟩

end Athenz
