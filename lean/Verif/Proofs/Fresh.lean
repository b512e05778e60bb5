import Verif.Spec.Fresh
import Verif.Proofs.PdFrom
import Verif.Proofs.SysOrigin
import Verif.Proofs.SysProj

/-! Goroutines go on with what was fetched for them. -/

namespace Athenz
open Spec

/-! ### The calls of a fetcher -/

theorem fetchAnswer_ok {cfg : FetchCfg} {tp : Option Tagged} {keys : KeyProvider} {now : Int} {r : HttpResult} {sp : SignedPolicy} {n : Option Tagged}
    (h : fetchAnswer cfg tp keys now r = (.ok sp, n)) :
    (∃ eTag body, r = .answer 200 eTag body ∧ cfg.codec.decode body = some (some sp)) ∨
    ∃ eTag body c, r = .answer 304 eTag body ∧ tp = some c ∧ c.sp = sp := by
  cases r with
  | fail e => simp [fetchAnswer] at h
  | answer status eTag body =>
    simp only [fetchAnswer] at h
    split at h
    · rename_i hst
      subst hst
      cases tp with
      | none => simp at h
      | some c =>
        simp only [Prod.mk.injEq, Res.ok.injEq] at h
        exact .inr ⟨eTag, body, c, rfl, rfl, h.1⟩
    · split at h
      · simp at h
      · rename_i hst
        have hst' : status = 200 := Classical.byContradiction hst
        subst hst'
        left
        refine ⟨eTag, body, rfl, ?_⟩
        split at h
        · simp at h
        · rename_i osp hdec
          split at h
          · simp at h
          · simp at h
          · split at h
            · simp at h
            · rename_i sp' 
              split at h
              · simp at h
              · split at h
                · simp at h
                · simp only [Prod.mk.injEq, Res.ok.injEq] at h
                  rw [← h.1]; exact hdec

/-- What a step makes of a call. -/
theorem fStep_call {cfg : FetchCfg} {f f' : FState} {a : FAct} (h : fStep cfg f a = some f') {n : Nat} {c' : FetchCall} (hc : f'.calls[n]? = some c') :
    (f.calls[n]? = some c' ∧ ∀ i tp, c'.pc = .sent i tp → a ≠ .send n) ∨ (∃ i e, c'.pc = .loop i e) ∨ (∃ i, a = .send n ∧ c'.pc = .sent i f.cache) ∨
    (∃ e, c'.pc = .ret none e) ∨
    (∃ r i tp retry sp nw e, a = .answer n r ∧ f.calls[n]? = some ⟨retry, .sent i tp⟩ ∧ fetchAnswer cfg tp f.keys f.now r = (.ok sp, nw) ∧ c'.pc = .ret (some sp) e) ∨
    (∃ c e, a = .giveUp n ∧ f.cache = some c ∧ c'.pc = .ret (some c.sp) e) := by
  unfold fStep at h
  split at h
  · simp at h
  cases a with
  | tick d => simp only [Option.some.injEq] at h; subst h; exact .inl ⟨hc, by simp⟩
  | setKeys ks => simp only [Option.some.injEq] at h; subst h; exact .inl ⟨hc, by simp⟩
  | call retry =>
    simp only [Option.some.injEq] at h; subst h
    rcases getElem?_append_cases hc with hc | ⟨_, rfl⟩
    · exact .inl ⟨hc, by simp⟩
    · exact .inr (.inl ⟨_, _, rfl⟩)
  | send j =>
    simp only at h
    split at h
    · rename_i retry i e hj
      split at h
      · simp at h
      · simp only [Option.some.injEq] at h; subst h
        rcases getElem?_set_cases' hc with ⟨rfl, rfl⟩ | ⟨hne, hc⟩
        · exact .inr (.inr (.inl ⟨i, rfl, rfl⟩))
        · exact .inl ⟨hc, fun _ _ _ hx => hne (by simpa using hx)⟩
    · simp at h
  | answer j r =>
    simp only at h
    split at h
    · rename_i retry i tp hj
      split at h
      · simp only [Option.some.injEq] at h; subst h; exact .inl ⟨hc, by simp⟩
      · rename_i sp nw hfa
        simp only [Option.some.injEq] at h; subst h
        rcases getElem?_set_cases' hc with ⟨rfl, rfl⟩ | ⟨hne, hc⟩
        · exact .inr (.inr (.inr (.inr (.inl ⟨r, i, tp, retry, sp, nw, none, rfl, hj, hfa, rfl⟩))))
        · exact .inl ⟨hc, by simp⟩
      · split at h
        · simp only [Option.some.injEq] at h; subst h
          rcases getElem?_set_cases' hc with ⟨rfl, rfl⟩ | ⟨hne, hc⟩
          · exact .inr (.inl ⟨_, _, rfl⟩)
          · exact .inl ⟨hc, by simp⟩
        · simp only [Option.some.injEq] at h; subst h
          rcases getElem?_set_cases' hc with ⟨rfl, rfl⟩ | ⟨hne, hc⟩
          · exact .inr (.inr (.inr (.inl ⟨_, rfl⟩)))
          · exact .inl ⟨hc, by simp⟩
    · simp at h
  | giveUp j =>
    simp only at h
    split at h
    · rename_i i e hj
      split at h
      · simp at h
      · simp only [Option.some.injEq] at h; subst h
        rcases getElem?_set_cases' hc with ⟨rfl, rfl⟩ | ⟨hne, hc⟩
        · cases hca : f.cache with
          | none => exact .inr (.inr (.inr (.inl ⟨_, by simp; rfl⟩)))
          | some c => exact .inr (.inr (.inr (.inr (.inr ⟨c, _, rfl, rfl, by simp; rfl⟩))))
        · exact .inl ⟨hc, by simp⟩
    · simp at h

/-- A step sends for a call only if it is not waiting. -/
theorem fStep_send_loop {cfg : FetchCfg} {f f' : FState} {n : Nat} (h : fStep cfg f (.send n) = some f') :
    ∃ retry i e, f.calls[n]? = some ⟨retry, .loop i e⟩ := by
  unfold fStep at h
  split at h
  · simp at h
  simp only at h
  split at h
  · rename_i retry i e hj; exact ⟨retry, i, e, hj⟩
  · simp at h

theorem fStep_calls_len {cfg : FetchCfg} {f f' : FState} {a : FAct} (h : fStep cfg f a = some f') : f.calls.length ≤ f'.calls.length := by
  unfold fStep at h
  split at h
  · simp at h
  cases a with
  | tick d => simp only [Option.some.injEq] at h; subst h; exact Nat.le_refl _
  | setKeys ks => simp only [Option.some.injEq] at h; subst h; exact Nat.le_refl _
  | call retry => simp only [Option.some.injEq] at h; subst h; simp
  | _ =>
    simp only at h
    repeat' split at h
    all_goals first
      | (simp at h; done)
      | (simp only [Option.some.injEq] at h; subst h; simp)

/-- What is known about a call that began during `h`. -/
def CallFresh (cfg : SysCfg) (s0 : Sys) (h : List SysAct) (dom : Str) (n : Nat) : FetchPc → Prop
  | .sent _ tp => ∃ h1 h2 s1, h = h1 ++ SysAct.fetcher dom (.send n) :: h2 ∧ SysAct.fetcher dom (.send n) ∉ h2 ∧
      sysRun cfg s0 h1 = some s1 ∧ (s1.fs dom).cache = tp
  | .ret (some sp) _ => Confirmed cfg s0 h dom sp ∨ KeptInstead cfg s0 h dom sp
  | _ => True

theorem Spec.Exchange.mono {cfg : SysCfg} {s0 : Sys} {h : List SysAct} {dom : Str} {s1 : Sys} {r : HttpResult} (hx : Exchange cfg s0 h dom s1 r)
    (h' : List SysAct) : Exchange cfg s0 (h ++ h') dom s1 r := by
  obtain ⟨h1, h2, h3, j, rfl, hn, hr⟩ := hx
  exact ⟨h1, h2, h3 ++ h', j, by simp, hn, hr⟩

theorem Spec.Confirmed.mono {cfg : SysCfg} {s0 : Sys} {h : List SysAct} {dom : Str} {sp : SignedPolicy} (hx : Confirmed cfg s0 h dom sp)
    (h' : List SysAct) : Confirmed cfg s0 (h ++ h') dom sp := by
  rcases hx with ⟨s1, t, b, hx, hd⟩ | ⟨s1, t, b, c, hx, hd⟩
  · exact .inl ⟨s1, t, b, hx.mono h', hd⟩
  · exact .inr ⟨s1, t, b, c, hx.mono h', hd⟩

theorem Spec.KeptInstead.mono {cfg : SysCfg} {s0 : Sys} {h : List SysAct} {dom : Str} {sp : SignedPolicy} (hx : KeptInstead cfg s0 h dom sp)
    (h' : List SysAct) : KeptInstead cfg s0 (h ++ h') dom sp := by
  obtain ⟨h1, h2, j, s1, c, rfl, hr⟩ := hx
  exact ⟨h1, h2 ++ h', j, s1, c, by simp, hr⟩

theorem CallFresh.mono {cfg : SysCfg} {s0 : Sys} {h : List SysAct} {dom : Str} {n : Nat} {pc : FetchPc} (hx : CallFresh cfg s0 h dom n pc)
    {a : SysAct} (ha : ∀ i tp, pc = .sent i tp → a ≠ SysAct.fetcher dom (.send n)) : CallFresh cfg s0 (h ++ [a]) dom n pc := by
  cases pc with
  | loop i e => trivial
  | sent i tp =>
    obtain ⟨h1, h2, s1, rfl, hn, hr⟩ := hx
    refine ⟨h1, h2 ++ [a], s1, by simp, ?_, hr⟩
    intro hm
    rcases List.mem_append.mp hm with hm | hm
    · exact hn hm
    · exact ha i tp rfl (List.mem_singleton.mp hm).symm
  | ret sp e =>
    cases sp with
    | none => trivial
    | some sp => exact hx.imp (fun h => h.mono _) (fun h => h.mono _)

/-! ### The goroutines of the policy daemon -/

theorem updStep_fetching {U : CaseFns} {s s' : UpdState} {a : UpdAct} (h : updStep U s a = some s') {j : Nat} {f : Option PolicyDoc}
    (hj : s'.jobs[j]? = some (.fetching f)) :
    s.jobs[j]? = some (.fetching f) ∨ ∃ o, a = .job j o ∧ s.cancelled = false ∧ s.jobs[j]? = some (.start f) := by
  have keep : ∀ (n : Nat) (x : Job), (∀ g, x ≠ .fetching g) → (s.jobs.set n x)[j]? = some (.fetching f) → s.jobs[j]? = some (.fetching f) := by
    intro n x hx h'
    rcases getElem?_set_cases' h' with ⟨_, h2⟩ | ⟨_, h2⟩
    · exact absurd h2.symm (hx f)
    · exact h2
  cases a with
  | job n order =>
    simp only [updStep] at h
    split at h
    · rename_i g hg
      split at h
      · simp only [Option.some.injEq] at h; subst h; exact .inl (keep n _ (by simp) hj)
      · rename_i hnc
        simp only [Option.some.injEq] at h; subst h
        rcases getElem?_set_cases' hj with ⟨rfl, h2⟩ | ⟨_, h2⟩
        · simp only [Job.fetching.injEq] at h2; subst h2
          exact .inr ⟨order, rfl, by simpa using hnc, hg⟩
        · exact .inl h2
    all_goals
      repeat' split at h
      all_goals first
        | (simp at h; done)
        | (simp only [Option.some.injEq] at h; subst h; exact .inl (keep n _ (by simp) hj))
  | merge n k =>
    simp only [updStep] at h
    repeat' split at h
    all_goals first
      | (simp at h; done)
      | (simp only [Option.some.injEq] at h; subst h; exact .inl (keep n _ (by simp) hj))
  | tick d => simp only [updStep, Option.some.injEq] at h; subst h; exact .inl hj
  | cancel => simp only [updStep, Option.some.injEq] at h; subst h; exact .inl hj

/-- Where goroutines that fetch come from. -/
theorem pdStep_fetching {U : CaseFns} {s s' : PdState} {a : PdAct} (h : pdStep U s a = some s') {i j : Nat} {t' : Task} {f : Option PolicyDoc}
    (ht' : s'.tasks[i]? = some t') (hj : t'.jobs[j]? = some (.fetching f)) :
    (∃ t, s.tasks[i]? = some t ∧ t.obj = t'.obj ∧ t.jobs[j]? = some (.fetching f)) ∨
    (∃ o t, a = .task i (.job j o) ∧ s.tasks[i]? = some t ∧ t.obj = t'.obj ∧ t.cancelled = false ∧ t.jobs[j]? = some (.start f)) ∨
    ∃ n k, a = .hook n f ∧ s.pending[n]? = some k ∧ i = s.tasks.length ∧ j = 0 ∧ hookDomain k ∈ s.domains ∧ t'.obj = s.live := by
  unfold pdStep at h
  split at h
  · simp at h
  cases a with
  | update fetch =>
    simp only [Option.some.injEq] at h; subst h
    rcases getElem?_append_cases ht' with ht' | ⟨_, rfl⟩
    · exact .inl ⟨t', ht', rfl, hj⟩
    · simp only [List.getElem?_map] at hj
      cases hf : fetch[j]? with
      | none => rw [hf] at hj; simp at hj
      | some x => rw [hf] at hj; simp at hj
  | task i0 u =>
    simp only at h
    split at h
    · simp at h
    · rename_i t ht
      have key : ∀ u', updStep U (s.taskView t) u = some u' → s' = { s with objs := s.objs.set t.obj u'.rp, tasks := s.tasks.set i0 { t with cancelled := u'.cancelled, jobs := u'.jobs } } →
          (∃ t, s.tasks[i]? = some t ∧ t.obj = t'.obj ∧ t.jobs[j]? = some (.fetching f)) ∨
          (∃ o t, PdAct.task i0 u = .task i (.job j o) ∧ s.tasks[i]? = some t ∧ t.obj = t'.obj ∧ t.cancelled = false ∧ t.jobs[j]? = some (.start f)) := by
        intro u' hu hs'
        subst hs'
        rcases getElem?_set_cases' ht' with ⟨rfl, rfl⟩ | ⟨_, ht'⟩
        · have hcase := updStep_fetching hu hj
          rcases hcase with hc | ⟨o, rfl, hcn, hst⟩
          · exact .inl ⟨t, ht, rfl, hc⟩
          · exact .inr ⟨o, t, rfl, ht, rfl, hcn, hst⟩
        · exact .inl ⟨t', ht', rfl, hj⟩
      cases u with
      | tick d => simp at h
      | _ =>
        simp only at h
        split at h
        · simp at h
        · rename_i u' hu
          simp only [Option.some.injEq] at h
          exact (key u' hu h.symm).imp id .inl
  | finish i0 =>
    simp only at h
    repeat' split at h
    all_goals first
      | (simp at h; done)
      | (simp only [Option.some.injEq] at h; subst h
         rcases getElem?_set_cases' ht' with ⟨rfl, rfl⟩ | ⟨_, ht'⟩
         · rename_i t0 ht0 _ _; exact .inl ⟨t0, ht0, rfl, hj⟩
         · exact .inl ⟨t', ht', rfl, hj⟩)
  | abort i0 =>
    simp only at h
    repeat' split at h
    all_goals first
      | (simp at h; done)
      | (simp only [Option.some.injEq] at h; subst h
         rcases getElem?_set_cases' ht' with ⟨rfl, rfl⟩ | ⟨_, ht'⟩
         · rename_i t0 ht0 _; exact .inl ⟨t0, ht0, rfl, hj⟩
         · exact .inl ⟨t', ht', rfl, hj⟩)
  | hook n fetch =>
    simp only at h
    split at h
    · simp at h
    · rename_i k hk
      split at h
      · rename_i hdom
        simp only [Option.some.injEq] at h; subst h
        rcases getElem?_append_cases ht' with ht' | ⟨rfl, rfl⟩
        · exact .inl ⟨t', ht', rfl, hj⟩
        · cases j with
          | zero =>
            simp only [List.getElem?_cons_zero, Option.some.injEq, Job.fetching.injEq] at hj
            subst hj
            exact .inr (.inr ⟨n, k, rfl, hk, rfl, rfl, hdom, rfl⟩)
          | succ j => simp at hj
      · simp only [Option.some.injEq] at h; subst h; exact .inl ⟨t', ht', rfl, hj⟩
  | _ =>
    simp only at h
    repeat' split at h
    all_goals first
      | (simp at h; done)
      | (simp only [Option.some.injEq] at h; subst h; exact .inl ⟨t', ht', rfl, hj⟩)

/-! ### The system -/

theorem callFetcher_waits {cfg : SysCfg} {s s' : Sys} {i j : Nat} {dom : Str} (h : s.callFetcher cfg i j dom = some s') :
    ∃ f, fStep cfg.fetch (s.fs dom) (.call true) = some f ∧ s' = { s with
      fs := fun x => if x = dom then f else s.fs x
      waits := fun i' j' => if i' = i ∧ j' = j then some (s.fs dom).calls.length else s.waits i' j' } := by
  unfold Sys.callFetcher at h
  split at h
  · simp at h
  · rename_i f hf
    simp only [Option.some.injEq] at h
    exact ⟨f, hf, h.symm⟩

theorem pdStep_tasks_len {U : CaseFns} {s s' : PdState} {a : PdAct} (h : pdStep U s a = some s') (hcr : s'.crashed = false) :
    s'.tasks.length = s.tasks.length + (match a with | .update _ => 1 | .hook _ _ => 1 | _ => 0) := by
  unfold pdStep at h
  split at h
  · simp at h
  cases a with
  | task i u =>
    simp only at h
    split at h
    · simp at h
    · cases u with
      | tick d => simp at h
      | _ =>
        simp only at h
        split at h
        · simp at h
        · simp only [Option.some.injEq] at h; subst h; simp
  | chk k u =>
    simp only at h
    split at h
    · simp at h
    · split at h
      · simp at h
      · cases u with
        | mutate v => simp at h
        | _ =>
          simp only at h
          split at h
          · simp at h
          · simp only [Option.some.injEq] at h; subst h; simp
  | _ =>
    simp only at h
    repeat' split at h
    all_goals first
      | (simp at h; done)
      | (simp only [Option.some.injEq] at h; subst h; first | (simp at hcr; done) | simp)

/-- The fetchers and who waits for them, after a step of the policy daemon. -/
structure PdLinks (cfg : SysCfg) (s s' : Sys) (a : PdAct) : Prop where
  step : pdStep cfg.auth.U s.pd a = some s'.pd
  fs : (s'.fs = s.fs ∧ s'.waits = s.waits) ∨ ∃ i j dom f, fStep cfg.fetch (s.fs dom) (.call true) = some f ∧
    (s'.fs = fun x => if x = dom then f else s.fs x) ∧
    (s'.waits = fun i' j' => if i' = i ∧ j' = j then some (s.fs dom).calls.length else s.waits i' j') ∧
    s'.domOf i j = some dom ∧ ∀ t, s.pd.tasks[i]? = some t → ∃ f, t.jobs[j]? = some (.start f)
  doms : ∃ more, s'.doms = s.doms ++ more
  len : s'.dead = false → s'.doms.length = s'.pd.tasks.length
  brings : ∀ d i j o t, a = .task i (.job j o) → s.pd.tasks[i]? = some t → t.jobs[j]? = some (.fetching (some d)) →
    ∃ sp, s.fetchResult i j = some (some sp) ∧ Spec.PolicySays sp d
  begins : ∀ (i j : Nat) (t' : Task) (f : Option PolicyDoc), s'.pd.tasks[i]? = some t' → t'.jobs[j]? = some (.fetching f) →
    (∃ t, s.pd.tasks[i]? = some t ∧ t.obj = t'.obj ∧ t.jobs[j]? = some (.fetching f)) ∨
    ∃ dom, s'.domOf i j = some dom ∧ s'.waits i j = some (s.fs dom).calls.length

theorem sysPd_links {cfg : SysCfg} {s s' : Sys} {a : PdAct} (h : sysPd cfg s a = some s') (hlen : s.doms.length = s.pd.tasks.length) :
    PdLinks cfg s s' a := by
  unfold sysPd at h
  split at h
  · simp at h
  rename_i pd' hpd
  have hfet := fun i j t' f => @pdStep_fetching cfg.auth.U s.pd pd' a hpd i j t' f
  have hl := pdStep_tasks_len hpd
  -- a step that begins no fetch
  have plain : (∀ d i j o t, a = .task i (.job j o) → s.pd.tasks[i]? = some t → t.jobs[j]? = some (.fetching (some d)) →
        ∃ sp, s.fetchResult i j = some (some sp) ∧ Spec.PolicySays sp d) →
      (∀ i j o t f, a = .task i (.job j o) → s.pd.tasks[i]? = some t → t.cancelled = false → t.jobs[j]? ≠ some (.start f)) →
      (∀ n f, a = .hook n f → pd'.crashed = true) → (∀ f, a ≠ .update f) →
      PdLinks cfg s { s with pd := pd', dead := pd'.crashed } a := by
    intro hb hst hho hup
    refine ⟨hpd, .inl ⟨rfl, rfl⟩, ⟨[], by simp⟩, ?_, hb, ?_⟩
    · intro hd
      simp only at hd ⊢
      rw [hl hd, hlen]
      cases a with
      | update f => exact absurd rfl (hup f)
      | hook n f => rw [hho n f rfl] at hd; simp at hd
      | _ => rfl
    · intro i j t' f ht' hj
      rcases hfet i j t' f ht' hj with h1 | ⟨o, t, rfl, ht, _, hnc, hs⟩ | ⟨n, k, rfl, hk, _, _, hdom, _⟩
      · exact .inl h1
      · exact absurd hs (hst i j o t f rfl ht hnc)
      · have hcr := hho n f rfl
        unfold pdStep at hpd
        split at hpd
        · simp at hpd
        · rename_i hnc
          simp only [hk, hdom, if_true, Option.some.injEq] at hpd
          subst hpd
          simp only at hcr
          exact absurd hcr hnc
  cases a with
  | tick d => simp at h
  | update fetch =>
    simp only at h
    split at h
    · simp only [Option.some.injEq] at h
      subst h
      refine ⟨hpd, .inl ⟨rfl, rfl⟩, ⟨_, rfl⟩, ?_, by simp, ?_⟩
      · intro hd
        simp only at hd ⊢
        rw [hl hd, List.length_append, hlen]; rfl
      · intro i j t' f ht' hj
        rcases hfet i j t' f ht' hj with h1 | ⟨o, t, h1, _⟩ | ⟨n, k, h1, _⟩
        · exact .inl h1
        · simp at h1
        · simp at h1
    · simp at h
  | hook n fetch =>
    simp only at h
    split at h
    · simp at h
    · rename_i k hk
      split at h
      · rename_i hcr
        simp only [Option.some.injEq] at h
        subst h
        exact plain (by simp) (by simp) (fun _ _ _ => hcr) (by simp)
      · rename_i hcr
        obtain ⟨f, hf, rfl⟩ := callFetcher_waits h
        refine ⟨hpd, .inr ⟨_, _, _, f, hf, rfl, rfl, ?_, ?_⟩, ⟨_, rfl⟩, ?_, by simp, ?_⟩
        · simp only [Sys.domOf]
          rw [← hlen, List.getElem?_append_right (Nat.le_refl _)]
          simp
        · intro t ht
          rw [List.getElem?_eq_none (Nat.le_refl _)] at ht
          simp at ht
        · intro hd
          simp only at hd ⊢
          rw [hl hd, List.length_append, hlen]; rfl
        · intro i j t' f' ht' hj
          rcases hfet i j t' f' ht' hj with h1 | ⟨o, t, h1, _⟩ | ⟨n', k', h1, hk', rfl, rfl, _⟩
          · exact .inl h1
          · simp at h1
          · simp only [PdAct.hook.injEq] at h1
            obtain ⟨rfl, rfl⟩ := h1
            refine .inr ⟨hookDomain k, ?_, by simp⟩
            simp only [Sys.domOf]
            rw [← hlen, List.getElem?_append_right (Nat.le_refl _)]
            simp
  | task i u =>
    cases u with
    | job j o =>
      simp only at h
      split at h
      · simp at h
      · rename_i t ht
        have hone : ∀ i' j' o' t', (PdAct.task i (.job j o)) = .task i' (.job j' o') → s.pd.tasks[i']? = some t' → i' = i ∧ j' = j ∧ t' = t := by
          intro i' j' o' t' he ht'
          simp only [PdAct.task.injEq, UpdAct.job.injEq] at he
          obtain ⟨rfl, rfl, _⟩ := he
          rw [ht] at ht'
          exact ⟨rfl, rfl, (Option.some.inj ht').symm⟩
        split at h
        · rename_i f hj
          split at h
          · rename_i hcan
            simp only [Option.some.injEq] at h
            subst h
            refine plain ?_ ?_ (by simp) (by simp)
            · intro d i' j' o' t' he ht' hj'
              obtain ⟨rfl, rfl, rfl⟩ := hone i' j' o' t' he ht'
              rw [hj] at hj'; simp at hj'
            · intro i' j' o' t' f' he ht' hnc
              obtain ⟨rfl, rfl, rfl⟩ := hone i' j' o' t' he ht'
              rw [hcan] at hnc; simp at hnc
          · split at h
            · rename_i dom hdom
              obtain ⟨f', hf, rfl⟩ := callFetcher_waits h
              refine ⟨hpd, .inr ⟨i, j, dom, f', hf, rfl, rfl, hdom, ?_⟩, ⟨[], by simp⟩, ?_, ?_, ?_⟩
              · intro t' ht'
                rw [ht] at ht'
                obtain rfl := Option.some.inj ht'
                exact ⟨f, hj⟩
              · intro hd
                simp only at hd ⊢
                rw [hl hd, hlen]; rfl
              · intro d i' j' o' t' he ht' hj'
                obtain ⟨rfl, rfl, rfl⟩ := hone i' j' o' t' he ht'
                rw [hj] at hj'; simp at hj'
              · intro i' j' t' f'' ht' hj'
                rcases hfet i' j' t' f'' ht' hj' with h1 | ⟨o', t2, h1, h2, _⟩ | ⟨n', k', h1, _⟩
                · exact .inl h1
                · obtain ⟨rfl, rfl, rfl⟩ := hone i' j' o' t2 h1 h2
                  exact .inr ⟨dom, hdom, by simp⟩
                · simp at h1
            · simp at h
        · rename_i f hj
          split at h
          · rename_i r hr
            split at h
            · rename_i hm
              simp only [Option.some.injEq] at h
              subst h
              refine plain ?_ ?_ (by simp) (by simp)
              · intro d i' j' o' t' he ht' hj'
                obtain ⟨rfl, rfl, rfl⟩ := hone i' j' o' t' he ht'
                rw [hj] at hj'
                simp only [Option.some.injEq, Job.fetching.injEq] at hj'
                subst hj'
                cases r with
                | none => simp [fetchMatches] at hm
                | some sp => exact ⟨sp, hr, docOf_iff.mp hm⟩
              · intro i' j' o' t' f' he ht' hnc hj'
                obtain ⟨rfl, rfl, rfl⟩ := hone i' j' o' t' he ht'
                rw [hj] at hj'; simp at hj'
            · simp at h
          · simp at h
        · rename_i hns hnf
          simp only [Option.some.injEq] at h
          subst h
          refine plain ?_ ?_ (by simp) (by simp)
          · intro d i' j' o' t' he ht' hj'
            obtain ⟨rfl, rfl, rfl⟩ := hone i' j' o' t' he ht'
            exact absurd hj' (hnf _)
          · intro i' j' o' t' f' he ht' hnc hj'
            obtain ⟨rfl, rfl, rfl⟩ := hone i' j' o' t' he ht'
            exact absurd hj' (hns _)
    | _ =>
      simp only [Option.some.injEq] at h
      subst h
      exact plain (by simp) (by simp) (by simp) (by simp)
  | _ =>
    simp only [Option.some.injEq] at h
    subst h
    exact plain (by simp) (by simp) (by simp) (by simp)

theorem sysStep_len {cfg : SysCfg} {s s' : Sys} {a : SysAct} (h : sysStep cfg s a = some s')
    (hl : s.dead = false → s.doms.length = s.pd.tasks.length) : s'.dead = false → s'.doms.length = s'.pd.tasks.length := by
  intro hd'
  obtain ⟨hd, he⟩ := sysStep_effect h
  have hl := hl hd
  cases he with
  | tick d => exact hl
  | pk a pk' ha hp => exact hl
  | jwk a jwk' hj => exact hl
  | fetcher dom a f ha hf => exact hl
  | pd a pd' D F W ha hp hD hF hbr =>
    have h2 : sysPd cfg s a = some { s with pd := pd', dead := pd'.crashed, doms := D, fs := F, waits := W } := by
      unfold sysStep at h
      rw [hd] at h
      simpa using h
    exact (sysPd_links h2 hl).len hd'
  | nilPolicy i j => exact hl
  | beginCheck i q p act res pd' hc hn hp =>
    have := pdStep_check_crashed hp
    subst this; exact hl
  | endCheck i view sched k c r auth' hk hc hl' hr hv hst => exact hl
  | auth a auth' ha hst => exact hl

theorem sysRun_len {cfg : SysCfg} {now : Int} {h : List SysAct} {s : Sys} (hr : sysRun cfg (sysInit cfg now) h = some s) :
    s.dead = false → s.doms.length = s.pd.tasks.length :=
  sysRun_ind (fun _ s => s.dead = false → s.doms.length = s.pd.tasks.length) (by simp [sysInit, pdInit])
    (fun _ _ _ _ hp _ hs => sysStep_len hs hp) h s hr

/-- `a` is an assertion of a policy that was confirmed for `dom` during `h`, or that was kept because asking failed. -/
def FreshAssertion (cfg : SysCfg) (s0 : Sys) (h : List SysAct) (a : RawAssertion) : Prop :=
  ∃ dom ∈ cfg.domains, ∃ sp d, (Confirmed cfg s0 h dom sp ∨ KeptInstead cfg s0 h dom sp) ∧ Spec.PolicySays sp d ∧ a ∈ d.policies.flatten

theorem FreshAssertion.mono {cfg : SysCfg} {s0 : Sys} {h : List SysAct} {a : RawAssertion} (hx : FreshAssertion cfg s0 h a) (h' : List SysAct) :
    FreshAssertion cfg s0 (h ++ h') a := by
  obtain ⟨dom, hd, sp, d, hc, hr⟩ := hx
  exact ⟨dom, hd, sp, d, hc.imp (fun x => x.mono _) (fun x => x.mono _), hr⟩

/-- What is known during `h`, which began in `s0`, about everything that was called after `s0`. -/
structure FreshInv (cfg : SysCfg) (s0 : Sys) (h : List SysAct) (s : Sys) : Prop where
  len : ∀ dom, (s0.fs dom).calls.length ≤ (s.fs dom).calls.length
  calls : ∀ (dom : Str) (n : Nat) (c : FetchCall), (s0.fs dom).calls.length ≤ n → (s.fs dom).calls[n]? = some c → CallFresh cfg s0 h dom n c.pc
  waits : ∀ (i j : Nat) (t : Task) (f : Option PolicyDoc), s.pd.tasks[i]? = some t → s0.pd.objs.length ≤ t.obj → t.jobs[j]? = some (.fetching f) →
    ∃ dom n, s.domOf i j = some dom ∧ s.waits i j = some n ∧ (s0.fs dom).calls.length ≤ n
  pd : ∃ A, (∀ a ∈ A, FreshAssertion cfg s0 h a) ∧ PdFrom s0.pd.objs.length cfg.auth.U A s.pd

/-- A step of the fetcher of `dom`, as part of the system step `a`. -/
theorem CallFresh.step {cfg : SysCfg} {s0 s : Sys} {h : List SysAct} {dom : Str} {b : FAct} {f : FState} {a : SysAct} (hrun : sysRun cfg s0 h = some s)
    (hf : fStep cfg.fetch (s.fs dom) b = some f) (hab : b.own = true → a = .fetcher dom b) (hab' : b.own = false → ∀ n, a ≠ .fetcher dom (.send n))
    (hc : ∀ (n : Nat) (c : FetchCall), (s0.fs dom).calls.length ≤ n → (s.fs dom).calls[n]? = some c → CallFresh cfg s0 h dom n c.pc) :
    ∀ (n : Nat) (c : FetchCall), (s0.fs dom).calls.length ≤ n → f.calls[n]? = some c → CallFresh cfg s0 (h ++ [a]) dom n c.pc := by
  intro n c hn hfc
  rcases fStep_call hf hfc with ⟨h1, h2⟩ | ⟨i, e, h1⟩ | ⟨i, rfl, h1⟩ | ⟨e, h1⟩ | ⟨r, i, tp, retry, sp, nw, e, rfl, h1, h2, h3⟩ | ⟨c0, e, rfl, h1, h2⟩
  · refine (hc n c hn h1).mono ?_
    intro i tp hpc ha
    cases hb : b.own with
    | true =>
      rw [hab hb] at ha
      simp only [SysAct.fetcher.injEq, true_and] at ha
      exact h2 i tp hpc ha
    | false => exact hab' hb n ha
  · rw [h1]; trivial
  · rw [h1, hab rfl]
    exact ⟨h, [], s, rfl, by simp, hrun, rfl⟩
  · rw [h1]; trivial
  · rw [h3, hab rfl]
    obtain ⟨h1', h2', s1, rfl, hns, hr1, hca⟩ := hc n _ hn h1
    left
    rcases fetchAnswer_ok h2 with ⟨eTag, body, rfl, hdec⟩ | ⟨eTag, body, c0, rfl, rfl, hsp⟩
    · exact .inl ⟨s1, eTag, body, ⟨h1', h2', [], n, rfl, hns, hr1⟩, hdec⟩
    · exact .inr ⟨s1, eTag, body, c0, ⟨h1', h2', [], n, rfl, hns, hr1⟩, hca, hsp⟩
  · rw [h2, hab rfl]
    exact .inr ⟨h, [], n, s, c0, rfl, hrun, h1, rfl⟩

theorem FreshInv.env {cfg : SysCfg} {s0 s s' : Sys} {h : List SysAct} {a : SysAct} (hi : FreshInv cfg s0 h s) (hfs : ∀ dom, (s'.fs dom).calls = (s.fs dom).calls)
    (ha : ∀ dom b, a ≠ .fetcher dom b) (hpd : s'.pd.objs = s.pd.objs ∧ s'.pd.tasks = s.pd.tasks) (hck : ∀ c ∈ s'.pd.checks, c ∈ s.pd.checks ∨ c.loaded = none)
    (hd : s'.doms = s.doms) (hw : s'.waits = s.waits) :
    FreshInv cfg s0 (h ++ [a]) s' := by
  refine ⟨fun dom => by rw [hfs]; exact hi.len dom, ?_, ?_, ?_⟩
  · intro dom n c hn hc
    rw [hfs] at hc
    exact (hi.calls dom n c hn hc).mono fun _ _ _ => ha _ _
  · intro i j t f ht hN hj
    rw [hpd.2] at ht
    obtain ⟨dom, n, h1, h2⟩ := hi.waits i j t f ht hN hj
    exact ⟨dom, n, by unfold Sys.domOf at h1 ⊢; rw [hd]; exact h1, by rw [hw]; exact h2⟩
  · obtain ⟨A, hA, hg⟩ := hi.pd
    refine ⟨A, fun x hx => (hA x hx).mono _, ?_, ?_, ?_⟩
    · rw [hpd.1]; exact hg.objs
    · rw [hpd.2]; exact hg.tasks
    · intro c hc o t g hl hN
      rcases hck c hc with hc | hc
      · exact hg.checks c hc o t g hl hN
      · rw [hc] at hl; simp at hl

theorem domOf_append {s s' : Sys} {more : List (List Str)} (h : s'.doms = s.doms ++ more) {i j : Nat} {dom : Str} (hd : s.domOf i j = some dom) :
    s'.domOf i j = some dom := by
  unfold Sys.domOf at hd ⊢
  cases hi : s.doms[i]? with
  | none => rw [hi] at hd; simp at hd
  | some ds =>
    rw [h, List.getElem?_append_left (lt_of_getElem? hi), hi]
    rw [hi] at hd; exact hd

theorem FreshInv.step {cfg : SysCfg} {s0 s s' : Sys} {h : List SysAct} {a : SysAct} (hrun : sysRun cfg s0 h = some s) (hi : FreshInv cfg s0 h s)
    (hlen : s.doms.length = s.pd.tasks.length) (hdoms : ∀ ds ∈ s.doms, ∀ x ∈ ds, x ∈ cfg.domains) (hs : sysStep cfg s a = some s') :
    FreshInv cfg s0 (h ++ [a]) s' := by
  obtain ⟨hd, he⟩ := sysStep_effect hs
  cases he with
  | tick d => exact hi.env (fun _ => rfl) (by simp) ⟨rfl, rfl⟩ (fun c hc => .inl hc) rfl rfl
  | pk a pk' ha hp => exact hi.env (fun _ => rfl) (by simp) ⟨rfl, rfl⟩ (fun c hc => .inl hc) rfl rfl
  | jwk a jwk' hj => exact hi.env (fun _ => rfl) (by simp) ⟨rfl, rfl⟩ (fun c hc => .inl hc) rfl rfl
  | fetcher dom b f hb hf =>
    refine ⟨?_, ?_, hi.waits, ?_⟩
    · intro x
      simp only
      split
      · rename_i hx; subst hx
        exact Nat.le_trans (hi.len _) (fStep_calls_len hf)
      · exact hi.len x
    · intro x n c hn hc
      simp only at hc
      split at hc
      · rename_i hx; subst hx
        exact CallFresh.step hrun hf (fun _ => rfl) (by rw [hb]; simp) (hi.calls x) n c hn hc
      · rename_i hx
        refine (hi.calls x n c hn hc).mono ?_
        intro i tp _ ha
        simp only [SysAct.fetcher.injEq] at ha
        exact hx ha.1.symm
    · obtain ⟨A, hA, hg⟩ := hi.pd
      exact ⟨A, fun x hx => (hA x hx).mono _, hg⟩
  | pd a pd' D F W ha hp hD hF hbr =>
    have h2 : sysPd cfg s a = some { s with pd := pd', dead := pd'.crashed, doms := D, fs := F, waits := W } := by
      unfold sysStep at hs
      rw [hd] at hs
      simpa using hs
    generalize hs' : { s with pd := pd', dead := pd'.crashed, doms := D, fs := F, waits := W } = s' at h2 hs
    have hl := sysPd_links h2 hlen
    obtain ⟨more, hmore⟩ := hl.doms
    refine ⟨?_, ?_, ?_, ?_⟩
    · intro x
      rcases hl.fs with ⟨h3, _⟩ | ⟨i, j, dom, f, hf, h3, _⟩
      · rw [h3]; exact hi.len x
      · rw [h3]
        simp only
        split
        · rename_i hx; subst hx
          exact Nat.le_trans (hi.len _) (fStep_calls_len hf)
        · exact hi.len x
    · intro x n c hn hc
      rcases hl.fs with ⟨h3, _⟩ | ⟨i, j, dom, f, hf, h3, _⟩
      · rw [h3] at hc
        exact (hi.calls x n c hn hc).mono (by simp)
      · rw [h3] at hc
        simp only at hc
        split at hc
        · rename_i hx; subst hx
          exact CallFresh.step hrun hf (by simp [FAct.own]) (by simp) (hi.calls x) n c hn hc
        · exact (hi.calls x n c hn hc).mono (by simp)
    · intro i j t' f ht' hN hj
      rcases hl.begins i j t' f ht' hj with ⟨t, ht, hobj, hjt⟩ | ⟨dom, h3, h4⟩
      · obtain ⟨dom, n, h5, h6, h7⟩ := hi.waits i j t f ht (by rw [hobj]; exact hN) hjt
        refine ⟨dom, n, domOf_append hmore h5, ?_, h7⟩
        rcases hl.fs with ⟨_, h8⟩ | ⟨i', j', dom', f', _, _, h8, _, h9⟩
        · rw [h8]; exact h6
        · rw [h8]
          simp only
          split
          · rename_i hij
            obtain ⟨rfl, rfl⟩ := hij
            obtain ⟨f0, h9⟩ := h9 t ht
            rw [h9] at hjt; simp at hjt
          · exact h6
      · exact ⟨dom, _, h3, h4, hi.len dom⟩
    · obtain ⟨A, hA, hg⟩ := hi.pd
      have hA' : ∀ x ∈ A, FreshAssertion cfg s0 (h ++ [.pd a]) x := fun x hx => (hA x hx).mono _
      by_cases hbring : ∃ d, a.BringsFrom s0.pd.objs.length s.pd d
      · obtain ⟨d, i, j, o, t, rfl, ht, hN, hj⟩ := hbring
        obtain ⟨sp, h3, h4⟩ := hl.brings d i j o t rfl ht hj
        obtain ⟨dom, n, h5, h6, h7⟩ := hi.waits i j t _ ht hN hj
        refine ⟨A ++ d.policies.flatten, ?_, (hg.mono (fun x hx => List.mem_append_left _ hx)).step hl.step ?_⟩
        · intro x hx
          rcases List.mem_append.mp hx with hx | hx
          · exact hA' x hx
          · unfold Sys.fetchResult at h3
            rw [h5, h6] at h3
            simp only at h3
            split at h3
            · rename_i sp' e hc
              simp only [Option.some.injEq] at h3
              subst h3
              have hcf := hi.calls dom n _ h7 hc
              refine ⟨dom, ?_, sp, d, hcf.imp (fun x => x.mono _) (fun x => x.mono _), h4, hx⟩
              unfold Sys.domOf at h5
              cases hdi : s.doms[i]? with
              | none => rw [hdi] at h5; simp at h5
              | some ds =>
                rw [hdi] at h5
                exact hdoms ds (List.mem_of_getElem? hdi) dom (List.mem_of_getElem? h5)
            · simp at h3
        · rintro d' ⟨i2, j2, o2, t2, e1, e2, _, e3⟩ x hx
          simp only [PdAct.task.injEq, UpdAct.job.injEq] at e1
          obtain ⟨rfl, rfl, rfl⟩ := e1
          rw [ht] at e2
          obtain rfl := Option.some.inj e2
          rw [hj] at e3
          simp only [Option.some.injEq, Job.fetching.injEq] at e3
          subst e3
          exact List.mem_append_right _ hx
      · exact ⟨A, hA', hg.step hl.step (fun d hd => absurd ⟨d, hd⟩ hbring)⟩
  | nilPolicy i j => exact hi.env (fun _ => rfl) (by simp) ⟨rfl, rfl⟩ (fun c hc => .inl hc) rfl rfl
  | beginCheck i q p act res pd' hc hn hp =>
    have := pdStep_check_crashed hp
    subst this
    refine hi.env (fun _ => rfl) (by simp) ⟨rfl, rfl⟩ (fun c hc => ?_) rfl rfl
    rcases List.mem_append.mp hc with hc | hc
    · exact .inl hc
    · rw [List.mem_singleton.mp hc]; exact .inr rfl
  | endCheck i view sched k c r auth' hk hc hl' hr hv hst => exact hi.env (fun _ => rfl) (by simp) ⟨rfl, rfl⟩ (fun c hc => .inl hc) rfl rfl
  | auth a auth' ha hst => exact hi.env (fun _ => rfl) (by simp) ⟨rfl, rfl⟩ (fun c hc => .inl hc) rfl rfl

theorem FreshInv.start {cfg : SysCfg} {now : Int} {pre : List SysAct} {s : Sys} (hr : sysRun cfg (sysInit cfg now) pre = some s) : FreshInv cfg s [] s := by
  obtain ⟨_, hruns⟩ := sysRuns_run hr
  obtain ⟨acts, hpd⟩ := hruns.pd
  have hps := (pdInit_sound cfg.auth.U now cfg.domains).run hpd
  refine ⟨fun _ => Nat.le_refl _, ?_, ?_, [], by simp, ?_, ?_, ?_⟩
  · intro dom n c hn hc
    have := lt_of_getElem? hc
    omega
  · intro i j t f ht hN
    have := (hps.tasks i t ht).1
    omega
  · intro o g ho hg
    have := lt_of_getElem? hg
    omega
  · intro t ht hN
    obtain ⟨i, hi⟩ := List.mem_iff_getElem?.mp ht
    have := (hps.tasks i t hi).1
    omega
  · intro c hc o t0 g hl hN
    obtain ⟨k, hk⟩ := List.mem_iff_getElem?.mp hc
    have := (hps.checks k c o t0 g hk hl).1
    omega

theorem freshInv_run {cfg : SysCfg} {now : Int} {pre h : List SysAct} {s0 s : Sys} (hr0 : sysRun cfg (sysInit cfg now) pre = some s0)
    (hr : sysRun cfg s0 h = some s) : FreshInv cfg s0 h s := by
  refine sysRun_ind (fun h s => FreshInv cfg s0 h s) (FreshInv.start hr0) ?_ h s hr
  intro h s a s' hi hrun hs
  have hall : sysRun cfg (sysInit cfg now) (pre ++ h) = some s := by rw [sysRun_append, hr0]; exact hrun
  have hb := (sysRuns_run hall).1
  exact hi.step hrun (sysRun_len hall (sysStep_effect hs).1) hb.doms hs

end Athenz
