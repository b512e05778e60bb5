import Verif.Proofs.ForceCheck

/-! Updates called after some moment: what they publish was stored after that moment. -/

namespace Athenz
open Spec

/-- An object that does not exist yet: nothing has been stored in it. -/
theorem ObjVer.rebase {U : CaseFns} {n0 : Int} {o : Nat} {s : PdState} (h : ObjVer U n0 o s) (ho : s.objs.length ≤ o) : ObjVer U s.now o s :=
  ⟨Int.le_refl _, h.len, h.ne, h.lt, h.liveLt, h.zero, fun i t ht he => absurd (h.lt i t ht) (by omega), h.uniq,
    fun hl => absurd h.liveLt (by omega), h.checks⟩

theorem pdStep_objs_le {U : CaseFns} {s s' : PdState} {a : PdAct} (hs : pdStep U s a = some s') : s.objs.length ≤ s'.objs.length := by
  unfold pdStep at hs
  split at hs
  · simp at hs
  cases a <;> simp only at hs <;> repeat' split at hs
  all_goals first
    | (simp only [Option.some.injEq] at hs; subst hs; simp)
    | simp at hs

/-- An update called after some moment fills an object that did not exist then. -/
theorem newObj_run {cfg : SysCfg} {s s' : Sys} {h : List SysAct} (hr : sysRun cfg s h = some s') :
    ∀ (i : Nat) (t : Task), s.pd.tasks.length ≤ i → s'.pd.tasks[i]? = some t → t.isUpdate = true → s.pd.objs.length ≤ t.obj := by
  suffices hs : s.pd.objs.length ≤ s'.pd.objs.length ∧
      ∀ (i : Nat) (t : Task), s.pd.tasks.length ≤ i → s'.pd.tasks[i]? = some t → t.isUpdate = true → s.pd.objs.length ≤ t.obj from hs.2
  refine sysRun_ind (fun _ s' => s.pd.objs.length ≤ s'.pd.objs.length ∧ ∀ (i : Nat) (t : Task), s.pd.tasks.length ≤ i → s'.pd.tasks[i]? = some t →
    t.isUpdate = true → s.pd.objs.length ≤ t.obj) ⟨Nat.le_refl _, fun i t hi ht => absurd (lt_of_getElem? ht) (by omega)⟩ ?_ h s' hr
  rintro h s1 a s2 ⟨ih1, ih2⟩ _ hs
  rcases sysStep_pd hs with ⟨n, hn⟩ | ⟨b, hb, _⟩
  · rw [hn]; exact ⟨ih1, ih2⟩
  · refine ⟨Nat.le_trans ih1 (pdStep_objs_le hb), fun i t hi ht hu => ?_⟩
    rcases pdStep_newTask hb ht with ⟨t1, h1⟩ | ⟨_, _, ⟨_, _, _, ho, _⟩ | ⟨_, _, _, hf, _⟩⟩
    · obtain ⟨t2, k1, k2, k3, _⟩ := pdStep_task hb h1
      rw [ht] at k1
      obtain rfl := Option.some.inj k1
      rw [k3]
      exact ih2 i t1 hi h1 (by rw [← k2]; exact hu)
    · rw [ho]; exact ih1
    · rw [hu] at hf; simp at hf

theorem objVer_since {cfg : SysCfg} {now : Int} {pre post : List SysAct} {s' s : Sys} {o : Nat} (hp : sysRun cfg (sysInit cfg now) pre = some s')
    (hu : NoHookOn cfg (sysInit cfg now) (pre ++ post) o) (ho : s'.pd.objs.length ≤ o) (hr : sysRun cfg s' post = some s) :
    ObjVer cfg.auth.U s'.pd.now o s.pd := by
  have h0 := (objVer_run hu.prefix hp).rebase ho
  refine sysRun_ind (fun h s => NoHookOn cfg (sysInit cfg now) (pre ++ h) o → ObjVer cfg.auth.U s'.pd.now o s.pd) (fun _ => h0) ?_ post s hr hu
  intro h s a s2 ih hrun hs hu
  have hi := ih (by rw [← List.append_assoc] at hu; exact hu.prefix)
  obtain ⟨hd, he⟩ := sysStep_effect hs
  cases he with
  | tick d => exact hi.tick d
  | pd a pd' D F W ha hp' hD hF hbr =>
    exact hi.step (fun n f hf => hu (pre ++ h) n f [] s (by rw [hf, List.append_assoc]) (by rw [sysRun_append, hp]; exact hrun)) hp'
  | beginCheck i q p act res pd' hc hn hp => exact hi.step (by simp) hp
  | _ => exact hi

theorem RegularAt.since {U : CaseFns} {docs : List (Option PolicyDoc)} {t0 t1 T t : Int} {k : Str} (h : RegularAt U docs t0 T t k)
    (h1 : t0 ≤ t1) (h2 : 0 ≤ t1) : RegularAt U docs t1 T t k := by
  rcases h with h | ⟨i, d, ho, hr⟩
  · exact .inl h
  · refine .inr ⟨i, d, ⟨ho.doc, ho.only, ?_⟩, hr⟩
    rcases ho.live with hl | ⟨_, hl⟩
    · exact .inl (by omega)
    · exact .inr ⟨h2, hl⟩

/-- Every update was called after the beginning. -/
theorem Spec.InForceSince.start {cfg : SysCfg} {now : Int} (h : List SysAct) (s : Sys) : InForceSince cfg (sysInit cfg now) h s now :=
  fun _ _ => ⟨[], h, sysInit cfg now, rfl, rfl, Nat.zero_le _, Int.le_refl _⟩

end Athenz
