import Verif.Spec.InForce
import Verif.Proofs.FreshLive
import Verif.Proofs.PolicydVer

/-! The documents in force are those which the last update that succeeded got. -/

namespace Athenz
open Spec

/-! ### Jobs -/

/-- The goroutine has got a policy. -/
def Job.past : Job → Bool
  | .start _ => false
  | .fetching _ => false
  | .done (some _) => false
  | _ => true

/-- How a step changes a job. -/
theorem updStep_job {U : CaseFns} {s s' : UpdState} {a : UpdAct} (h : updStep U s a = some s') :
    s'.jobs.length = s.jobs.length ∧ ∀ (j : Nat) (x' : Job), s'.jobs[j]? = some x' →
      s.jobs[j]? = some x' ∨ (∃ e, x' = .done (some e)) ∨ (∃ x, s.jobs[j]? = some x ∧ x.past = true ∧ x'.past = true) ∨
      (∃ f, s.jobs[j]? = some (.start f) ∧ x' = .fetching f) ∨
      ∃ o d, a = .job j o ∧ s.jobs[j]? = some (.fetching (some d)) ∧ x'.past = true := by
  have key : ∀ (i : Nat) (y : Job), s.jobs[i]? = some y → ∀ y' : Job,
      ((∃ e, y' = .done (some e)) ∨ (y.past = true ∧ y'.past = true) ∨ (∃ f, y = .start f ∧ y' = .fetching f) ∨
        ∃ o d, a = .job i o ∧ y = .fetching (some d) ∧ y'.past = true) →
      (s.jobs.set i y').length = s.jobs.length ∧ ∀ (j : Nat) (x' : Job), (s.jobs.set i y')[j]? = some x' →
      s.jobs[j]? = some x' ∨ (∃ e, x' = .done (some e)) ∨ (∃ x, s.jobs[j]? = some x ∧ x.past = true ∧ x'.past = true) ∨
      (∃ f, s.jobs[j]? = some (.start f) ∧ x' = .fetching f) ∨
      ∃ o d, a = .job j o ∧ s.jobs[j]? = some (.fetching (some d)) ∧ x'.past = true := by
    intro i y hy y' hc
    refine ⟨List.length_set .., fun j x' hx => ?_⟩
    rcases getElem?_set_cases' hx with ⟨rfl, rfl⟩ | ⟨_, hx⟩
    · right
      rcases hc with h | ⟨h1, h2⟩ | ⟨f, rfl, rfl⟩ | ⟨o, d, rfl, rfl, h2⟩
      · exact .inl h
      · exact .inr (.inl ⟨y, hy, h1, h2⟩)
      · exact .inr (.inr (.inl ⟨f, hy, rfl⟩))
      · exact .inr (.inr (.inr ⟨o, d, rfl, hy, h2⟩))
    · exact .inl hx
  cases a with
  | job i order =>
    simp only [updStep] at h
    split at h
    · rename_i f hj
      split at h
      · simp only [Option.some.injEq] at h; subst h; exact key i _ hj _ (.inl ⟨_, rfl⟩)
      · simp only [Option.some.injEq] at h; subst h; exact key i _ hj _ (.inr (.inr (.inl ⟨f, rfl, rfl⟩)))
    · rename_i hj
      simp only [Option.some.injEq] at h; subst h; exact key i _ hj _ (.inl ⟨_, rfl⟩)
    · rename_i d hj
      simp only [Option.some.injEq] at h; subst h; exact key i _ hj _ (.inr (.inr (.inr ⟨order, d, rfl, rfl, rfl⟩)))
    · rename_i d m hj
      repeat' split at h
      all_goals first
        | (simp at h; done)
        | (simp only [Option.some.injEq] at h; subst h; exact key i _ hj _ (.inl ⟨_, rfl⟩))
        | (simp only [Option.some.injEq] at h; subst h; exact key i _ hj _ (.inr (.inl ⟨rfl, rfl⟩)))
    · rename_i hj
      simp only [Option.some.injEq] at h; subst h; exact key i _ hj _ (.inr (.inl ⟨rfl, rfl⟩))
    · rename_i hj
      repeat' split at h
      all_goals first
        | (simp at h; done)
        | (simp only [Option.some.injEq] at h; subst h; exact key i _ hj _ (.inl ⟨_, rfl⟩))
        | (simp only [Option.some.injEq] at h; subst h; exact key i _ hj _ (.inr (.inl ⟨rfl, rfl⟩)))
    · rename_i hj
      repeat' split at h
      all_goals first
        | (simp at h; done)
        | (simp only [Option.some.injEq] at h; subst h; exact key i _ hj _ (.inr (.inl ⟨rfl, rfl⟩)))
    · simp at h
  | merge i k =>
    simp only [updStep] at h
    split at h
    · rename_i d m hj
      split at h
      · simp only [Option.some.injEq] at h; subst h; exact key i _ hj _ (.inr (.inl ⟨rfl, rfl⟩))
      · simp at h
    · simp at h
  | tick d => simp only [updStep, Option.some.injEq] at h; subst h; exact ⟨rfl, fun j x hx => .inl hx⟩
  | cancel => simp only [updStep, Option.some.injEq] at h; subst h; exact ⟨rfl, fun j x hx => .inl hx⟩

/-! ### Tasks -/

/-- The list of documents that a step adds. -/
def PdAct.newSrcs : PdAct → List (List (Option PolicyDoc))
  | .update fetch => [fetch]
  | _ => []

/-- How a step that is no hook changes the tasks and the documents they work on. -/
structure TaskMoves (U : CaseFns) (s s' : PdState) (a : PdAct) : Prop where
  srcs : s'.srcs = s.srcs ++ a.newSrcs
  objs : s'.objs.length = s.objs.length + a.newSrcs.length
  tasks : ∀ (i : Nat) (t' : Task), s'.tasks[i]? = some t' →
    (∃ t, s.tasks[i]? = some t ∧ t.obj = t'.obj ∧ (t'.jobs = t.jobs ∨ ∃ u u', a = .task i u ∧ updStep U (s.taskView t) u = some u' ∧ t'.jobs = u'.jobs)) ∨
    ∃ fetch, a = .update fetch ∧ i = s.tasks.length ∧ t'.obj = s.objs.length ∧ t'.jobs = fetch.map .start
  rets : ∀ (i : Nat) (t : Task), s.tasks[i]? = some t → ∃ t', s'.tasks[i]? = some t' ∧ t'.obj = t.obj ∧ (t.ret ≠ none → t'.ret = t.ret)
  live : (s'.live = s.live ∧ (∀ i, a = .finish i → ∃ t', s'.tasks[i]? = some t' ∧ t'.ret = some false) ∧
      ∀ (i : Nat) (t' : Task), s'.tasks[i]? = some t' → t'.ret = some true → ∃ t, s.tasks[i]? = some t ∧ t.ret = some true) ∨
    ∃ i t', a = .finish i ∧ s'.tasks[i]? = some t' ∧ t'.ret = some true ∧ s'.live = t'.obj

theorem taskMoves {U : CaseFns} {s s' : PdState} {a : PdAct} (h : pdStep U s a = some s') (hnh : a.notHook) : TaskMoves U s s' a := by
  unfold pdStep at h
  split at h
  · simp at h
  -- a step that does not touch the tasks
  have plain : (∀ f, a ≠ .update f) → (∀ i, a ≠ .finish i) → s'.srcs = s.srcs → s'.objs.length = s.objs.length → s'.tasks = s.tasks → s'.live = s.live →
      TaskMoves U s s' a := by
    intro h1 h2 h3 h4 h5 h6
    refine ⟨?_, ?_, ?_, ?_, .inl ⟨h6, fun i hi => absurd hi (h2 i), ?_⟩⟩
    · rw [h3]; cases a <;> simp [PdAct.newSrcs] <;> exact absurd rfl (h1 _)
    · rw [h4]; cases a <;> simp [PdAct.newSrcs] <;> exact absurd rfl (h1 _)
    · intro i t' ht; rw [h5] at ht; exact .inl ⟨t', ht, rfl, .inl rfl⟩
    · intro i t ht; rw [h5]; exact ⟨t, ht, rfl, fun _ => rfl⟩
    · intro i t' ht hr; rw [h5] at ht; exact ⟨t', ht, hr⟩
  cases a with
  | tick d => simp only [Option.some.injEq] at h; subst h; exact plain (by simp) (by simp) rfl rfl rfl rfl
  | update fetch =>
    simp only [Option.some.injEq] at h; subst h
    refine ⟨rfl, by simp [PdAct.newSrcs], ?_, ?_, .inl ⟨rfl, by simp, ?_⟩⟩
    · intro i t' ht
      rcases getElem?_append_cases ht with ht | ⟨rfl, rfl⟩
      · exact .inl ⟨t', ht, rfl, .inl rfl⟩
      · exact .inr ⟨fetch, rfl, rfl, rfl, rfl⟩
    · intro i t ht
      exact ⟨t, by rw [List.getElem?_append_left (lt_of_getElem? ht)]; exact ht, rfl, fun _ => rfl⟩
    · intro i t' ht hr
      rcases getElem?_append_cases ht with ht | ⟨rfl, rfl⟩
      · exact ⟨t', ht, hr⟩
      · simp at hr
  | task i u =>
    simp only at h
    split at h
    · simp at h
    · rename_i t ht
      have key : ∀ u', updStep U (s.taskView t) u = some u' →
          s' = { s with objs := s.objs.set t.obj u'.rp, tasks := s.tasks.set i { t with cancelled := u'.cancelled, jobs := u'.jobs } } →
          TaskMoves U s s' (.task i u) := by
        intro u' hu hs'
        subst hs'
        refine ⟨by simp [PdAct.newSrcs], by simp [PdAct.newSrcs], ?_, ?_, .inl ⟨rfl, by simp, ?_⟩⟩
        · intro i' t' ht'
          rcases getElem?_set_cases' ht' with ⟨rfl, rfl⟩ | ⟨_, ht'⟩
          · exact .inl ⟨t, ht, rfl, .inr ⟨u, u', rfl, hu, rfl⟩⟩
          · exact .inl ⟨t', ht', rfl, .inl rfl⟩
        · intro i' t' ht'
          by_cases hi : i = i'
          · subst hi
            rw [ht] at ht'
            obtain rfl := Option.some.inj ht'
            exact ⟨_, List.getElem?_set_self (lt_of_getElem? ht), rfl, fun _ => rfl⟩
          · exact ⟨t', by simp only; rw [List.getElem?_set_ne hi]; exact ht', rfl, fun _ => rfl⟩
        · intro i' t' ht' hr
          rcases getElem?_set_cases' ht' with ⟨rfl, rfl⟩ | ⟨_, ht'⟩
          · exact ⟨t, ht, hr⟩
          · exact ⟨t', ht', hr⟩
      cases u with
      | tick d => simp at h
      | _ =>
        simp only at h
        split at h
        · simp at h
        · rename_i u' hu
          simp only [Option.some.injEq] at h
          exact key u' hu h.symm
  | finish i =>
    simp only at h
    split at h
    · simp at h
    · rename_i t ht
      split at h
      · rename_i hc
        simp only [Bool.and_eq_true, Option.isNone_iff_eq_none] at hc
        have hself : ∀ b, (s.tasks.set i { t with ret := some b })[i]? = some { t with ret := some b } :=
          fun b => List.getElem?_set_self (lt_of_getElem? ht)
        have htasks : ∀ (b : Bool) (i' : Nat) (t' : Task), (s.tasks.set i { t with ret := some b })[i']? = some t' →
            ∃ t, s.tasks[i']? = some t ∧ t.obj = t'.obj ∧ t'.jobs = t.jobs := by
          intro b i' t' ht'
          rcases getElem?_set_cases' ht' with ⟨rfl, rfl⟩ | ⟨_, ht'⟩
          · exact ⟨t, ht, rfl, rfl⟩
          · exact ⟨t', ht', rfl, rfl⟩
        have hrets : ∀ (b : Bool) (i' : Nat) (t0 : Task), s.tasks[i']? = some t0 →
            ∃ t', (s.tasks.set i { t with ret := some b })[i']? = some t' ∧ t'.obj = t0.obj ∧ (t0.ret ≠ none → t'.ret = t0.ret) := by
          intro b i' t0 ht0
          by_cases hi : i = i'
          · subst hi
            rw [ht] at ht0
            obtain rfl := Option.some.inj ht0
            exact ⟨_, hself b, rfl, fun hn => absurd hc.1.2 hn⟩
          · exact ⟨t0, by rw [List.getElem?_set_ne hi]; exact ht0, rfl, fun _ => rfl⟩
        split at h
        · simp only [Option.some.injEq] at h; subst h
          exact ⟨by simp [PdAct.newSrcs], by simp [PdAct.newSrcs], fun i' t' ht' => .inl (by obtain ⟨t, h1, h2, h3⟩ := htasks _ i' t' ht'; exact ⟨t, h1, h2, .inl h3⟩),
            hrets true, .inr ⟨i, _, rfl, hself true, rfl, rfl⟩⟩
        · simp only [Option.some.injEq] at h; subst h
          refine ⟨by simp [PdAct.newSrcs], by simp [PdAct.newSrcs], fun i' t' ht' => .inl (by obtain ⟨t, h1, h2, h3⟩ := htasks _ i' t' ht'; exact ⟨t, h1, h2, .inl h3⟩),
            hrets false, .inl ⟨rfl, ?_, ?_⟩⟩
          · intro i' hi'
            simp only [PdAct.finish.injEq] at hi'
            subst hi'
            exact ⟨_, hself false, rfl⟩
          · intro i' t' ht' hr
            rcases getElem?_set_cases' ht' with ⟨rfl, rfl⟩ | ⟨_, ht'⟩
            · simp at hr
            · exact ⟨t', ht', hr⟩
      · simp at h
  | abort i =>
    simp only at h
    split at h
    · simp at h
    · rename_i t ht
      split at h
      · rename_i hc
        simp only [Bool.and_eq_true, Option.isNone_iff_eq_none] at hc
        simp only [Option.some.injEq] at h; subst h
        refine ⟨by simp [PdAct.newSrcs], by simp [PdAct.newSrcs], ?_, ?_, .inl ⟨rfl, by simp, ?_⟩⟩
        · intro i' t' ht'
          rcases getElem?_set_cases' ht' with ⟨rfl, rfl⟩ | ⟨_, ht'⟩
          · exact .inl ⟨t, ht, rfl, .inl rfl⟩
          · exact .inl ⟨t', ht', rfl, .inl rfl⟩
        · intro i' t0 ht0
          by_cases hi : i = i'
          · subst hi
            rw [ht] at ht0
            obtain rfl := Option.some.inj ht0
            exact ⟨_, List.getElem?_set_self (lt_of_getElem? ht), rfl, fun hn => absurd hc.1.2 hn⟩
          · exact ⟨t0, by simp only; rw [List.getElem?_set_ne hi]; exact ht0, rfl, fun _ => rfl⟩
        · intro i' t' ht' hr
          rcases getElem?_set_cases' ht' with ⟨rfl, rfl⟩ | ⟨_, ht'⟩
          · simp at hr
          · exact ⟨t', ht', hr⟩
      · simp at h
  | hook n f => exact hnh.elim
  | _ =>
    simp only at h
    repeat' split at h
    all_goals first
      | (simp at h; done)
      | (simp only [Option.some.injEq] at h; subst h; exact plain (by simp) (by simp) rfl (by simp) rfl rfl)

/-! ### What was fetched stays -/

theorem fStep_ret_keep {cfg : FetchCfg} {f f' : FState} {a : FAct} (h : fStep cfg f a = some f') {n : Nat} {retry : Bool} {sp : Option SignedPolicy}
    {e : Option Err} (hc : f.calls[n]? = some ⟨retry, .ret sp e⟩) : f'.calls[n]? = some ⟨retry, .ret sp e⟩ := by
  have keep : ∀ (j : Nat) (b : Bool) (pc pc' : FetchPc), f.calls[j]? = some ⟨b, pc⟩ → (∀ sp e, pc ≠ .ret sp e) →
      (f.calls.set j ⟨b, pc'⟩)[n]? = some ⟨retry, .ret sp e⟩ := by
    intro j b pc pc' hj hne
    by_cases hjn : j = n
    · subst hjn
      rw [hc] at hj
      simp only [Option.some.injEq, FetchCall.mk.injEq] at hj
      exact absurd hj.2.symm (hne sp e)
    · rw [List.getElem?_set_ne hjn]; exact hc
  unfold fStep at h
  split at h
  · simp at h
  cases a with
  | tick d => simp only [Option.some.injEq] at h; subst h; exact hc
  | setKeys ks => simp only [Option.some.injEq] at h; subst h; exact hc
  | call r =>
    simp only [Option.some.injEq] at h; subst h
    simp only
    rw [List.getElem?_append_left (lt_of_getElem? hc)]; exact hc
  | send j =>
    simp only at h
    split at h
    · rename_i hj
      split at h
      · simp at h
      · simp only [Option.some.injEq] at h; subst h; exact keep j _ _ _ hj (by simp)
    · simp at h
  | answer j r =>
    simp only at h
    split at h
    · rename_i hj
      repeat' split at h
      all_goals first
        | (simp only [Option.some.injEq] at h; subst h; exact hc)
        | (simp only [Option.some.injEq] at h; subst h; exact keep j _ _ _ hj (by simp))
    · simp at h
  | giveUp j =>
    simp only at h
    split at h
    · rename_i hj
      split at h
      · simp at h
      · simp only [Option.some.injEq] at h; subst h; exact keep j _ _ _ hj (by simp)
    · simp at h

theorem fetchResult_calls {s : Sys} {i j : Nat} {r : Option SignedPolicy} :
    s.fetchResult i j = some r ↔ ∃ dom n retry e, s.domOf i j = some dom ∧ s.waits i j = some n ∧ (s.fs dom).calls[n]? = some ⟨retry, .ret r e⟩ := by
  unfold Sys.fetchResult
  constructor
  · intro h
    split at h
    · rename_i dom n h1 h2
      split at h
      · rename_i retry sp e h3
        simp only [Option.some.injEq] at h
        subst h
        exact ⟨dom, n, retry, e, h1, h2, h3⟩
      · simp at h
    · simp at h
  · rintro ⟨dom, n, retry, e, h1, h2, h3⟩
    simp only [h1, h2, h3]

theorem fetchResult_keep {s s' : Sys} {i j : Nat} {r : Option SignedPolicy} (h : s.fetchResult i j = some r)
    (hd : ∀ dom, s.domOf i j = some dom → s'.domOf i j = some dom) (hw : s'.waits i j = s.waits i j)
    (hfs : ∀ (dom : Str) (n : Nat) (retry : Bool) (r : Option SignedPolicy) (e : Option Err), (s.fs dom).calls[n]? = some ⟨retry, .ret r e⟩ →
      (s'.fs dom).calls[n]? = some ⟨retry, .ret r e⟩) : s'.fetchResult i j = some r := by
  obtain ⟨dom, n, retry, e, h1, h2, h3⟩ := fetchResult_calls.mp h
  exact fetchResult_calls.mpr ⟨dom, n, retry, e, hd _ h1, by rw [hw]; exact h2, hfs _ _ _ _ _ h3⟩

/-! ### The system -/

/-- What is known about goroutine `j` of task `i`, which works on document number `j` of `docs`. -/
def JobGot (s : Sys) (i j : Nat) (docs : List (Option PolicyDoc)) (x : Job) : Prop :=
  (∀ f, x = .start f → docs[j]? = some f) ∧ (∀ f, x = .fetching f → docs[j]? = some f) ∧
  (x.past = true → ∃ sp d, s.fetchResult i j = some (some sp) ∧ Spec.PolicySays sp d ∧ docs[j]? = some (some d))

structure ForceInv (cfg : SysCfg) (h : List SysAct) (s : Sys) : Prop where
  objs : s.pd.objs.length = s.pd.srcs.length
  doms : ∀ i, i < s.pd.tasks.length → s.doms[i]? = some cfg.domains
  len : s.doms.length = s.pd.tasks.length
  tasks : ∀ (i : Nat) (t : Task), s.pd.tasks[i]? = some t → ∃ docs, s.pd.srcs[t.obj]? = some docs ∧ docs.length = cfg.domains.length ∧
    t.jobs.length = docs.length ∧ ∀ (j : Nat) (x : Job), t.jobs[j]? = some x → JobGot s i j docs x
  live : (s.pd.live = 0 ∧ ∀ (i : Nat) (t : Task), s.pd.tasks[i]? = some t → t.ret ≠ some true) ∨
    ∃ i t, LastUpdate h s i ∧ s.pd.tasks[i]? = some t ∧ t.obj = s.pd.live

theorem Spec.LastUpdate.next {h : List SysAct} {s s' : Sys} {i : Nat} (hl : LastUpdate h s i) (a : SysAct)
    (hr : ∀ (i : Nat) (t : Task), s.pd.tasks[i]? = some t → ∃ t', s'.pd.tasks[i]? = some t' ∧ (t.ret ≠ none → t'.ret = t.ret))
    (ha : ∀ i, a = .pd (.finish i) → ∃ t', s'.pd.tasks[i]? = some t' ∧ t'.ret = some false) : LastUpdate (h ++ [a]) s' i := by
  obtain ⟨⟨t, ht, hret⟩, h1, h2, rfl, hn⟩ := hl
  obtain ⟨t', ht', hret'⟩ := hr i t ht
  refine ⟨⟨t', ht', by rw [hret' (by rw [hret]; simp)]; exact hret⟩, h1, h2 ++ [a], by simp, ?_⟩
  intro i' hi'
  rcases List.mem_append.mp hi' with hi' | hi'
  · obtain ⟨t2, ht2, hr2⟩ := hn i' hi'
    obtain ⟨t3, ht3, hr3⟩ := hr i' t2 ht2
    exact ⟨t3, ht3, by rw [hr3 (by rw [hr2]; simp)]; exact hr2⟩
  · exact ha i' (List.mem_singleton.mp hi').symm

theorem ForceInv.env {cfg : SysCfg} {h : List SysAct} {s s' : Sys} {a : SysAct} (hi : ForceInv cfg h s) (ha : ∀ b, a ≠ .pd b)
    (hpd : s'.pd.objs = s.pd.objs ∧ s'.pd.srcs = s.pd.srcs ∧ s'.pd.tasks = s.pd.tasks ∧ s'.pd.live = s.pd.live) (hd : s'.doms = s.doms)
    (hw : s'.waits = s.waits)
    (hfs : ∀ (dom : Str) (n : Nat) (retry : Bool) (r : Option SignedPolicy) (e : Option Err), (s.fs dom).calls[n]? = some ⟨retry, .ret r e⟩ →
      (s'.fs dom).calls[n]? = some ⟨retry, .ret r e⟩) : ForceInv cfg (h ++ [a]) s' := by
  obtain ⟨h1, h2, h3, h4⟩ := hpd
  refine ⟨by rw [h1, h2]; exact hi.objs, by rw [h3, hd]; exact hi.doms, by rw [h3, hd]; exact hi.len, ?_, ?_⟩
  · rw [h3, h2]
    intro i t ht
    obtain ⟨docs, g1, g2, g3, g4⟩ := hi.tasks i t ht
    refine ⟨docs, g1, g2, g3, fun j x hx => ?_⟩
    obtain ⟨k1, k2, k3⟩ := g4 j x hx
    refine ⟨k1, k2, fun hp => ?_⟩
    obtain ⟨sp, d, k4, k5⟩ := k3 hp
    exact ⟨sp, d, fetchResult_keep k4 (fun dom => by unfold Sys.domOf; rw [hd]; exact id) (by rw [hw]) hfs, k5⟩
  · rw [h3, h4]
    refine hi.live.imp id ?_
    rintro ⟨i, t, hl, ht, ho⟩
    exact ⟨i, t, Spec.LastUpdate.next hl a (fun i t ht => ⟨t, by rw [h3]; exact ht, fun _ => rfl⟩) (fun i hi => absurd hi (ha _)), ht, ho⟩

theorem sysPd_doms {cfg : SysCfg} {s s' : Sys} {a : PdAct} (h : sysPd cfg s a = some s') (hnh : a.notHook) :
    (∃ fetch, a = .update fetch ∧ fetch.length = cfg.domains.length ∧ s'.doms = s.doms ++ [cfg.domains]) ∨ ((∀ f, a ≠ .update f) ∧ s'.doms = s.doms) := by
  unfold sysPd at h
  split at h
  · simp at h
  cases a with
  | tick d => simp at h
  | update fetch =>
    simp only at h
    split at h
    · rename_i hl
      simp only [Option.some.injEq] at h; subst h
      exact .inl ⟨fetch, rfl, hl, rfl⟩
    · simp at h
  | hook n f => exact hnh.elim
  | task i u =>
    right
    refine ⟨by simp, ?_⟩
    cases u with
    | job j o =>
      simp only at h
      repeat' split at h
      all_goals first
        | (simp at h; done)
        | (simp only [Option.some.injEq] at h; subst h; rfl)
        | (obtain ⟨f, _, rfl⟩ := callFetcher_waits h; rfl)
    | _ => simp only [Option.some.injEq] at h; subst h; rfl
  | _ =>
    right
    refine ⟨by simp, ?_⟩
    simp only [Option.some.injEq] at h; subst h; rfl

theorem ForceInv.pd {cfg : SysCfg} {h : List SysAct} {s s' : Sys} {a : PdAct} (hi : ForceInv cfg h s) (hnh : a.notHook)
    (hs : sysPd cfg s a = some s') : ForceInv cfg (h ++ [.pd a]) s' := by
  have hl := sysPd_links hs hi.len
  have hm := taskMoves hl.step hnh
  have hd := sysPd_doms hs hnh
  obtain ⟨more, hmore⟩ := hl.doms
  have hfs : ∀ (dom : Str) (n : Nat) (retry : Bool) (r : Option SignedPolicy) (e : Option Err), (s.fs dom).calls[n]? = some ⟨retry, .ret r e⟩ →
      (s'.fs dom).calls[n]? = some ⟨retry, .ret r e⟩ := by
    intro dom n retry r e hc
    rcases hl.fs with ⟨h3, _⟩ | ⟨i, j, dom', f, hf, h3, _⟩
    · rw [h3]; exact hc
    · rw [h3]
      simp only
      split
      · rename_i hx; subst hx; exact fStep_ret_keep hf hc
      · exact hc
  have hwait : ∀ (i j : Nat) (t : Task) (x : Job), s.pd.tasks[i]? = some t → t.jobs[j]? = some x → (∀ f, x ≠ .start f) → s'.waits i j = s.waits i j := by
    intro i j t x ht hx hns
    rcases hl.fs with ⟨_, h3⟩ | ⟨i', j', dom', f, _, _, h3, _, h4⟩
    · rw [h3]
    · rw [h3]
      simp only
      split
      · rename_i hij
        obtain ⟨rfl, rfl⟩ := hij
        obtain ⟨f0, hf0⟩ := h4 t ht
        rw [hx] at hf0
        exact absurd (Option.some.inj hf0) (hns f0)
      · rfl
  -- what a goroutine has got stays
  have hgot : ∀ (i j : Nat) (t : Task) (x : Job) (docs : List (Option PolicyDoc)), s.pd.tasks[i]? = some t → t.jobs[j]? = some x → JobGot s i j docs x →
      x.past = true → ∃ sp d, s'.fetchResult i j = some (some sp) ∧ Spec.PolicySays sp d ∧ docs[j]? = some (some d) := by
    intro i j t x docs ht hx hj hp
    obtain ⟨sp, d, h1, h2⟩ := hj.2.2 hp
    exact ⟨sp, d, fetchResult_keep h1 (fun _ => domOf_append hmore) (hwait i j t x ht hx (by rintro f rfl; simp [Job.past] at hp)) hfs, h2⟩
  have hobjs : s'.pd.objs.length = s'.pd.srcs.length := by
    rw [hm.objs, hm.srcs, List.length_append, hi.objs]
  have hlen : s'.doms.length = s'.pd.tasks.length := by
    cases hc : s'.pd.crashed with
    | false =>
      have := pdStep_tasks_len hl.step hc
      rcases hd with ⟨fetch, rfl, _, h1⟩ | ⟨h1, h2⟩
      · rw [h1, this, List.length_append, hi.len]; rfl
      · rw [h2, this, hi.len]
        cases a with
        | update f => exact absurd rfl (h1 f)
        | hook n f => exact hnh.elim
        | _ => rfl
    | true =>
      -- only a hook crashes the daemon
      have hst := hl.step
      unfold pdStep at hst
      split at hst
      · simp at hst
      · rename_i hnc
        cases a with
        | hook n f => exact hnh.elim
        | _ =>
          simp only at hst
          repeat' split at hst
          all_goals first
            | (simp at hst; done)
            | (simp only [Option.some.injEq] at hst; rw [← hst] at hc; exact absurd hc hnc)
  refine ⟨hobjs, ?_, hlen, ?_, ?_⟩
  · intro i hlt
    rw [← hlen] at hlt
    rcases hd with ⟨fetch, _, _, h1⟩ | ⟨_, h1⟩
    · rw [h1] at hlt ⊢
      rw [List.length_append] at hlt
      by_cases hi' : i < s.doms.length
      · rw [List.getElem?_append_left hi']
        exact hi.doms i (by rw [← hi.len]; exact hi')
      · have : i = s.doms.length := by simp at hlt; omega
        subst this
        rw [List.getElem?_append_right (Nat.le_refl _)]
        simp
    · rw [h1] at hlt ⊢
      exact hi.doms i (by rw [← hi.len]; exact hlt)
  · intro i t' ht'
    rcases hm.tasks i t' ht' with ⟨t, ht, ho, hj⟩ | ⟨fetch, rfl, rfl, ho, hj⟩
    · obtain ⟨docs, g1, g2, g3, g4⟩ := hi.tasks i t ht
      refine ⟨docs, ?_, g2, ?_, ?_⟩
      · rw [← ho, hm.srcs, List.getElem?_append_left (lt_of_getElem? g1)]; exact g1
      · rcases hj with hj | ⟨u, u', _, hu, hj⟩
        · rw [hj]; exact g3
        · rw [hj, (updStep_job hu).1]; exact g3
      · intro j x' hx'
        rcases hj with hj | ⟨u, u', rfl, hu, hj⟩
        · rw [hj] at hx'
          obtain ⟨k1, k2, _⟩ := g4 j x' hx'
          exact ⟨k1, k2, hgot i j t x' docs ht hx' (g4 j x' hx')⟩
        · rw [hj] at hx'
          rcases (updStep_job hu).2 j x' hx' with hx | ⟨e, rfl⟩ | ⟨x, hx, hp, hp'⟩ | ⟨f, hx, rfl⟩ | ⟨o, d, rfl, hx, hp'⟩
          · obtain ⟨k1, k2, _⟩ := g4 j x' hx
            exact ⟨k1, k2, hgot i j t x' docs ht hx (g4 j x' hx)⟩
          · exact ⟨by simp, by simp, by simp [Job.past]⟩
          · refine ⟨?_, ?_, fun _ => hgot i j t x docs ht hx (g4 j x hx) hp⟩
            · rintro f rfl; simp [Job.past] at hp'
            · rintro f rfl; simp [Job.past] at hp'
          · refine ⟨by simp, ?_, by simp [Job.past]⟩
            intro f' hf'
            simp only [Job.fetching.injEq] at hf'
            subst hf'
            exact (g4 j _ hx).1 f rfl
          · refine ⟨?_, ?_, fun _ => ?_⟩
            · rintro f rfl; simp [Job.past] at hp'
            · rintro f rfl; simp [Job.past] at hp'
            · obtain ⟨sp, h1, h2⟩ := hl.brings d i j o t rfl ht hx
              exact ⟨sp, d, fetchResult_keep h1 (fun _ => domOf_append hmore) (hwait i j t _ ht hx (by simp)) hfs, h2, (g4 j _ hx).2.1 _ rfl⟩
    · rcases hd with ⟨fetch', hf, hlf, _⟩ | ⟨h1, _⟩
      · simp only [PdAct.update.injEq] at hf
        subst hf
        refine ⟨fetch, ?_, hlf, by rw [hj, List.length_map], ?_⟩
        · rw [ho, hm.srcs, hi.objs, List.getElem?_append_right (Nat.le_refl _)]; simp [PdAct.newSrcs]
        · intro j x hx
          rw [hj, List.getElem?_map] at hx
          cases hfj : fetch[j]? with
          | none => rw [hfj] at hx; simp at hx
          | some f =>
            rw [hfj] at hx
            simp only [Option.map_some, Option.some.injEq] at hx
            subst hx
            exact ⟨by intro f' hf'; simp only [Job.start.injEq] at hf'; rw [← hf']; exact hfj, by simp, by simp [Job.past]⟩
      · exact absurd rfl (h1 fetch)
  · rcases hm.live with ⟨hlv, hfin, hnew⟩ | ⟨i, t', rfl, ht', hr', hlv⟩
    · rw [hlv]
      rcases hi.live with ⟨h0, h1⟩ | ⟨i, t, hlu, ht, ho⟩
      · left
        refine ⟨h0, fun i t' ht' hr' => ?_⟩
        obtain ⟨t, ht, hr⟩ := hnew i t' ht' hr'
        exact h1 i t ht hr
      · right
        obtain ⟨t', ht', ho', _⟩ := hm.rets i t ht
        refine ⟨i, t', Spec.LastUpdate.next hlu _ (fun i t ht => let ⟨t', h1, _, h3⟩ := hm.rets i t ht; ⟨t', h1, h3⟩) ?_, ht', by rw [ho']; exact ho⟩
        intro i' hi'
        simp only [SysAct.pd.injEq] at hi'
        exact hfin i' hi'
    · right
      exact ⟨i, t', ⟨⟨t', ht', hr'⟩, h, [], rfl, by simp⟩, ht', hlv.symm⟩

theorem forceInv_run {cfg : SysCfg} {now : Int} {h : List SysAct} {s : Sys} (hnh : ∀ n f, .pd (.hook n f) ∉ h)
    (hr : sysRun cfg (sysInit cfg now) h = some s) : ForceInv cfg h s := by
  refine sysRun_ind (fun h s => (∀ n f, .pd (.hook n f) ∉ h) → ForceInv cfg h s) ?_ ?_ h s hr hnh
  · intro _
    exact ⟨rfl, by simp [sysInit, pdInit], rfl, by simp [sysInit, pdInit], .inl ⟨rfl, by simp [sysInit, pdInit]⟩⟩
  · intro h s a s' ih _ hs hnh
    have hi := ih fun n f hm => hnh n f (List.mem_append_left _ hm)
    have hid : ∀ (dom : Str) (n : Nat) (retry : Bool) (r : Option SignedPolicy) (e : Option Err), (s.fs dom).calls[n]? = some ⟨retry, .ret r e⟩ →
      (s.fs dom).calls[n]? = some ⟨retry, .ret r e⟩ := fun _ _ _ _ _ h => h
    obtain ⟨hd, he⟩ := sysStep_effect hs
    cases he with
    | tick d => exact hi.env (by simp) ⟨rfl, rfl, rfl, rfl⟩ rfl rfl hid
    | pk a pk' ha hp => exact hi.env (by simp) ⟨rfl, rfl, rfl, rfl⟩ rfl rfl hid
    | jwk a jwk' hj => exact hi.env (by simp) ⟨rfl, rfl, rfl, rfl⟩ rfl rfl hid
    | fetcher dom a f ha hf =>
      refine hi.env (by simp) ⟨rfl, rfl, rfl, rfl⟩ rfl rfl ?_
      intro x n retry r e hc
      simp only
      split
      · rename_i hx; subst hx; exact fStep_ret_keep hf hc
      · exact hc
    | pd a pd' D F W ha hp hD hF hbr =>
      have h2 : sysPd cfg s a = some { s with pd := pd', dead := pd'.crashed, doms := D, fs := F, waits := W } := by
        unfold sysStep at hs
        rw [hd] at hs
        simpa using hs
      refine hi.pd ?_ h2
      cases a with
      | hook n f => exact absurd (by simp) (hnh n f)
      | _ => trivial
    | nilPolicy i j => exact hi.env (by simp) ⟨rfl, rfl, rfl, rfl⟩ rfl rfl hid
    | beginCheck i q p act res pd' hc hn hp =>
      have := pdStep_check_crashed hp
      subst this
      exact hi.env (by simp) ⟨rfl, rfl, rfl, rfl⟩ rfl rfl hid
    | endCheck i view sched k c r auth' hk hc hl' hr hv hst => exact hi.env (by simp) ⟨rfl, rfl, rfl, rfl⟩ rfl rfl hid
    | auth a auth' ha hst => exact hi.env (by simp) ⟨rfl, rfl, rfl, rfl⟩ rfl rfl hid

/-! ### Recency -/

/-- The tasks that began after `s0` wait for calls that began after `s0`. -/
structure WaitInv (cfg : SysCfg) (s0 s : Sys) : Prop where
  lt : ∀ i j n, s.waits i j = some n → i < s.pd.tasks.length
  new : ∀ (i j n : Nat) (dom : Str), s0.pd.tasks.length ≤ i → s.waits i j = some n → cfg.domains[j]? = some dom → (s0.fs dom).calls.length ≤ n

theorem WaitInv.step {cfg : SysCfg} {s0 s s' : Sys} {h : List SysAct} {a : SysAct} (hw : WaitInv cfg s0 s) (hi : ForceInv cfg h s)
    (hi' : ForceInv cfg (h ++ [a]) s') (hlen : ∀ dom, (s0.fs dom).calls.length ≤ (s.fs dom).calls.length) (hs : sysStep cfg s a = some s') :
    WaitInv cfg s0 s' := by
  obtain ⟨hd, he⟩ := sysStep_effect hs
  cases he with
  | tick d => exact ⟨hw.lt, hw.new⟩
  | pk a pk' ha hp => exact ⟨hw.lt, hw.new⟩
  | jwk a jwk' hj => exact ⟨hw.lt, hw.new⟩
  | fetcher dom a f ha hf => exact ⟨hw.lt, hw.new⟩
  | pd a pd' D F W ha hp hD hF hbr =>
    have h2 : sysPd cfg s a = some { s with pd := pd', dead := pd'.crashed, doms := D, fs := F, waits := W } := by
      unfold sysStep at hs
      rw [hd] at hs
      simpa using hs
    generalize hs' : ({ s with pd := pd', dead := pd'.crashed, doms := D, fs := F, waits := W } : Sys) = s' at h2 hs hi'
    have hl := sysPd_links h2 hi.len
    have hle : s.pd.tasks.length ≤ s'.pd.tasks.length := by
      obtain ⟨more, hmore⟩ := hl.doms
      rw [← hi.len, ← hi'.len, hmore, List.length_append]
      omega
    rcases hl.fs with ⟨_, h3⟩ | ⟨i, j, dom, f, _, _, h3, h4, _⟩
    · refine ⟨fun i j n hn => ?_, fun i j n dom hn => ?_⟩
      · rw [h3] at hn; exact Nat.lt_of_lt_of_le (hw.lt i j n hn) hle
      · rw [h3]; exact hw.new i j n dom hn
    · have hdom : i < s'.pd.tasks.length ∧ cfg.domains[j]? = some dom := by
        unfold Sys.domOf at h4
        cases hx : s'.doms[i]? with
        | none => rw [hx] at h4; simp at h4
        | some ds =>
          have hlt := lt_of_getElem? hx
          rw [hi'.len] at hlt
          rw [hi'.doms i hlt] at h4
          exact ⟨hlt, h4⟩
      refine ⟨fun i' j' n hn => ?_, fun i' j' n dom' hi0 hn hdom' => ?_⟩
      · rw [h3] at hn
        simp only at hn
        split at hn
        · rename_i hij; rw [hij.1]; exact hdom.1
        · exact Nat.lt_of_lt_of_le (hw.lt i' j' n hn) hle
      · rw [h3] at hn
        simp only at hn
        split at hn
        · rename_i hij
          obtain ⟨rfl, rfl⟩ := hij
          rw [hdom.2] at hdom'
          obtain rfl := Option.some.inj hdom'
          simp only [Option.some.injEq] at hn
          rw [← hn]; exact hlen dom
        · exact hw.new i' j' n dom' hi0 hn hdom'
  | nilPolicy i j => exact ⟨hw.lt, hw.new⟩
  | beginCheck i q p act res pd' hc hn hp =>
    have := pdStep_check_crashed hp
    subst this
    exact ⟨hw.lt, hw.new⟩
  | endCheck i view sched k c r auth' hk hc hl' hr hv hst => exact ⟨hw.lt, hw.new⟩
  | auth a auth' ha hst => exact ⟨hw.lt, hw.new⟩

theorem waitInv_run {cfg : SysCfg} {now : Int} {pre post : List SysAct} {s0 s : Sys} (hnh : ∀ n f, .pd (.hook n f) ∉ pre ++ post)
    (hr0 : sysRun cfg (sysInit cfg now) pre = some s0) (hr : sysRun cfg s0 post = some s) : WaitInv cfg s0 s := by
  have hbase : ∀ i j n, s0.waits i j = some n → i < s0.pd.tasks.length := by
    have : WaitInv cfg (sysInit cfg now) s0 := by
      refine sysRun_ind (fun h s => (∀ n f, .pd (.hook n f) ∉ h) → WaitInv cfg (sysInit cfg now) s) ?_ ?_ pre s0 hr0
        (fun n f hm => hnh n f (List.mem_append_left _ hm))
      · intro _; exact ⟨by simp [sysInit], by simp [sysInit]⟩
      · intro h s a s' ih hrun hs hn
        have hrun' := sysRun_snoc hrun hs
        exact (ih fun n f hm => hn n f (List.mem_append_left _ hm)).step (forceInv_run (fun n f hm => hn n f (List.mem_append_left _ hm)) hrun)
          (forceInv_run hn hrun') (by simp [sysInit, fInit]) hs
    exact this.lt
  refine sysRun_ind (fun h s => (∀ n f, .pd (.hook n f) ∉ h) → WaitInv cfg s0 s) ?_ ?_ post s hr (fun n f hm => hnh n f (List.mem_append_right _ hm))
  · intro _
    refine ⟨hbase, fun i j n dom hi hn _ => ?_⟩
    have := hbase i j n hn
    omega
  · intro h s a s' ih hrun hs hn
    have hn' : ∀ n f, .pd (.hook n f) ∉ pre ++ h := fun n f hm => (List.mem_append.mp hm).elim (fun hm => hnh n f (List.mem_append_left _ hm))
      (fun hm => hn n f (List.mem_append_left _ hm))
    have hall : sysRun cfg (sysInit cfg now) (pre ++ h) = some s := by rw [sysRun_append, hr0]; exact hrun
    refine (ih fun n f hm => hn n f (List.mem_append_left _ hm)).step (forceInv_run hn' hall)
      (forceInv_run (fun n f hm => ?_) (sysRun_snoc hall hs)) (freshInv_run hr0 hrun).len hs
    rw [List.append_assoc] at hm
    exact (List.mem_append.mp hm).elim (fun hm => hnh n f (List.mem_append_left _ hm)) (hn n f)

/-! ### The policy daemon by itself -/

theorem pdRun_snoc' {U : CaseFns} {s s1 s2 : PdState} {as : List PdAct} {a : PdAct} (h : pdRun U s as = some s1) (hs : pdStep U s1 a = some s2) :
    pdRun U s (as ++ [a]) = some s2 := by
  induction as generalizing s with
  | nil => simp only [pdRun, Option.some.injEq] at h; subst h; simp [pdRun, hs]
  | cons b as ih =>
    simp only [pdRun, List.cons_append] at h ⊢
    split at h
    · simp at h
    · exact ih h

/-- The policy daemon's part of a system run without hooks. -/
theorem sysRun_pdRun {cfg : SysCfg} {s0 s : Sys} {h : List SysAct} (hnh : ∀ n f, .pd (.hook n f) ∉ h) (hcr : s0.pd.crashed = false)
    (hr : sysRun cfg s0 h = some s) : ∃ acts, (∀ a ∈ acts, a.notHook) ∧ pdRun cfg.auth.U s0.pd acts = some s.pd := by
  have key := sysRun_ind (cfg := cfg) (s0 := s0) (fun h s => (∀ n f, .pd (.hook n f) ∉ h) → s.pd.crashed = false ∧
    ∃ acts, (∀ a ∈ acts, a.notHook) ∧ pdRun cfg.auth.U s0.pd acts = some s.pd) ?_ ?_ h s hr hnh
  · exact key.2
  · intro _; exact ⟨hcr, [], by simp, rfl⟩
  · intro h s a s' ih hrun hs hn
    obtain ⟨hc, acts, h1, h2⟩ := ih fun n f hm => hn n f (List.mem_append_left _ hm)
    have next : ∀ b, b.notHook → pdStep cfg.auth.U s.pd b = some s'.pd → s'.pd.crashed = false ∧
        ∃ acts, (∀ a ∈ acts, a.notHook) ∧ pdRun cfg.auth.U s0.pd acts = some s'.pd := by
      intro b hb hst
      refine ⟨?_, acts ++ [b], ?_, pdRun_snoc' h2 hst⟩
      · unfold pdStep at hst
        rw [hc] at hst
        cases b with
        | hook n f => exact hb.elim
        | _ =>
          simp only [Bool.false_eq_true, if_false] at hst
          repeat' split at hst
          all_goals first
            | (simp at hst; done)
            | (simp only [Option.some.injEq] at hst; rw [← hst]; done)
            | (simp only [Option.some.injEq] at hst; rw [← hst]; exact hc)
      · intro x hx
        rcases List.mem_append.mp hx with hx | hx
        · exact h1 x hx
        · rw [List.mem_singleton.mp hx]; exact hb
    obtain ⟨hd, he⟩ := sysStep_effect hs
    cases he with
    | tick d => exact next (.tick d) trivial (by simp [pdStep, hc])
    | pk a pk' ha hp => exact ⟨hc, acts, h1, h2⟩
    | jwk a jwk' hj => exact ⟨hc, acts, h1, h2⟩
    | fetcher dom a f ha hf => exact ⟨hc, acts, h1, h2⟩
    | pd a pd' D F W ha hp hD hF hbr =>
      refine next a ?_ hp
      cases a with
      | hook n f => exact absurd (by simp) (hn n f)
      | _ => trivial
    | nilPolicy i j => exact ⟨hc, acts, h1, h2⟩
    | beginCheck i q p act res pd' hc' hn' hp => exact next (.check _) trivial hp
    | endCheck i view sched k c r auth' hk hc' hl' hr hv hst => exact ⟨hc, acts, h1, h2⟩
    | auth a auth' ha hst => exact ⟨hc, acts, h1, h2⟩

/-! ### Checks -/

/-- Where a check that has loaded the pointer did so, and that the call that waits for it had asked for it before. -/
structure LoadInv (cfg : SysCfg) (s0 : Sys) (h : List SysAct) (s : Sys) : Prop where
  begun : ∀ i k, s.checkOf i = some k → .beginCheck i ∈ h ∧ k < s.pd.checks.length
  load : ∀ (k : Nat) (c : Chk), s.pd.checks[k]? = some c → c.loaded.isSome → ∃ h1 h2 s1, h = h1 ++ .pd (.load k) :: h2 ∧ sysRun cfg s0 h1 = some s1 ∧
    ∀ i, s.checkOf i = some k → .beginCheck i ∈ h1

theorem pdStep_loaded {U : CaseFns} {s s' : PdState} {a : PdAct} (h : pdStep U s a = some s') : s.checks.length ≤ s'.checks.length ∧
    ∀ (k : Nat) (c' : Chk), s'.checks[k]? = some c' → c'.loaded.isSome → a = .load k ∨ ∃ c, s.checks[k]? = some c ∧ c.loaded.isSome := by
  unfold pdStep at h
  split at h
  · simp at h
  cases a with
  | check q =>
    simp only [Option.some.injEq] at h; subst h
    refine ⟨by simp, fun k c' hc hl => ?_⟩
    rcases getElem?_append_cases hc with hc | ⟨_, rfl⟩
    · exact .inr ⟨c', hc, hl⟩
    · simp at hl
  | load k' =>
    simp only at h
    split at h
    · simp at h
    · split at h
      · simp at h
      · simp only [Option.some.injEq] at h; subst h
        refine ⟨by simp, fun k c' hc hl => ?_⟩
        rcases getElem?_set_cases' hc with ⟨rfl, _⟩ | ⟨_, hc⟩
        · exact .inl rfl
        · exact .inr ⟨c', hc, hl⟩
  | chk k' a =>
    simp only at h
    split at h
    · simp at h
    · rename_i c0 h0
      split at h
      · simp at h
      · rename_i hl0
        split at h
        · simp at h
        · split at h
          · simp at h
          · simp only [Option.some.injEq] at h; subst h
            refine ⟨by simp, fun k c' hc hl => ?_⟩
            rcases getElem?_set_cases' hc with ⟨rfl, _⟩ | ⟨_, hc⟩
            · exact .inr ⟨c0, h0, by rw [hl0]; rfl⟩
            · exact .inr ⟨c', hc, hl⟩
  | _ =>
    simp only at h
    repeat' split at h
    all_goals first
      | (simp at h; done)
      | (simp only [Option.some.injEq] at h; subst h; exact ⟨Nat.le_refl _, fun k c' hc hl => .inr ⟨c', hc, hl⟩⟩)

theorem LoadInv.pd {cfg : SysCfg} {s0 s s' : Sys} {h : List SysAct} {a : SysAct} {b : PdAct} (hi : LoadInv cfg s0 h s) (hrun : sysRun cfg s0 h = some s)
    (hs : pdStep cfg.auth.U s.pd b = some s'.pd) (hb : ∀ k, b = .load k → a = .pd b)
    (hck : ∀ i k, s'.checkOf i = some k → s.checkOf i = some k ∨ (a = .beginCheck i ∧ k = s.pd.checks.length ∧ k < s'.pd.checks.length)) :
    LoadInv cfg s0 (h ++ [a]) s' := by
  obtain ⟨hlen, hld⟩ := pdStep_loaded hs
  refine ⟨fun i k hk => ?_, fun k c' hc hl => ?_⟩
  · rcases hck i k hk with hk | ⟨rfl, _, hlt⟩
    · obtain ⟨h1, h2⟩ := hi.begun i k hk
      exact ⟨List.mem_append_left _ h1, by omega⟩
    · exact ⟨by simp, hlt⟩
  · rcases hld k c' hc hl with rfl | ⟨c, hc, hl⟩
    · refine ⟨h, [], s, by rw [hb k rfl], hrun, fun i hk => ?_⟩
      rcases hck i k hk with hk | ⟨rfl, _, _⟩
      · exact (hi.begun i k hk).1
      · have := hb k rfl
        simp at this
    · obtain ⟨h1, h2, s1, rfl, h3, h4⟩ := hi.load k c hc hl
      refine ⟨h1, h2 ++ [a], s1, by simp, h3, fun i hk => ?_⟩
      rcases hck i k hk with hk | ⟨_, rfl, _⟩
      · exact h4 i hk
      · have := lt_of_getElem? hc
        omega

theorem loadInv_run {cfg : SysCfg} {now : Int} {h : List SysAct} {s : Sys} (hr : sysRun cfg (sysInit cfg now) h = some s) :
    LoadInv cfg (sysInit cfg now) h s := by
  refine sysRun_ind (fun h s => LoadInv cfg (sysInit cfg now) h s) ⟨by simp [sysInit], by simp [sysInit, pdInit]⟩ ?_ h s hr
  intro h s a s' hi hrun hs
  have same : s'.pd.checks = s.pd.checks → s'.checkOf = s.checkOf → LoadInv cfg (sysInit cfg now) (h ++ [a]) s' := by
    intro h1 h2
    refine ⟨fun i k hk => ?_, fun k c hc hl => ?_⟩
    · rw [h2] at hk
      obtain ⟨h3, h4⟩ := hi.begun i k hk
      exact ⟨List.mem_append_left _ h3, by rw [h1]; exact h4⟩
    · rw [h1] at hc
      obtain ⟨g1, g2, s1, rfl, h3, h4⟩ := hi.load k c hc hl
      exact ⟨g1, g2 ++ [a], s1, by simp, h3, fun i hk => h4 i (by rw [h2] at hk; exact hk)⟩
  obtain ⟨hd, he⟩ := sysStep_effect hs
  cases he with
  | tick d => exact same rfl rfl
  | pk a pk' ha hp => exact same rfl rfl
  | jwk a jwk' hj => exact same rfl rfl
  | fetcher dom a f ha hf => exact same rfl rfl
  | pd a pd' D F W ha hp hD hF hbr => exact hi.pd hrun hp (fun _ _ => rfl) (fun i k hk => .inl hk)
  | nilPolicy i j => exact same rfl rfl
  | beginCheck i q p act res pd' hc hn hp =>
    refine hi.pd hrun hp (by simp) (fun i' k hk => ?_)
    simp only at hk
    split at hk
    · rename_i he
      subst he
      simp only [Option.some.injEq] at hk
      subst hk
      have := pdStep_check_crashed hp
      subst this
      exact .inr ⟨rfl, rfl, by simp⟩
    · exact .inl hk
  | endCheck i view sched k c r auth' hk hc hl' hr hv hst => exact same rfl rfl
  | auth a auth' ha hst => exact same rfl rfl

end Athenz
