import Verif.Proofs.Change
import Verif.Props.SysLive
import Verif.Props.Term
import Verif.Props.Fetch
import Verif.Props.InForce
import Verif.Proofs.AlikeSys

/-! # C72: policy changes take effect

When the servers give new policies from some moment on, a call of `Update` made afterwards returns nil, and from then on exactly these
policies are in force. -/

namespace Athenz

open Spec

theorem SysExec.base {cfg : SysCfg} {now : Int} (x : SysExec cfg now) (n : Nat) :
    (x.state n).pd.crashed = false ∧ ∀ d, ((x.state n).fs d).crashed = false := by
  have := (sysRuns_run (SysExec.run x n)).1.alive (SysExec.alive x n)
  exact ⟨this.2.1, this.2.2⟩

theorem SysExec.links {cfg : SysCfg} {now : Int} (x : SysExec cfg now) (n : Nat) : FetchLinks cfg (x.state n) := by
  induction n with
  | zero => rw [x.init]; exact fetchLinks_init cfg now
  | succ n ih => exact ih.step (x.next n) (SysExec.alive x (n + 1))

theorem SysExec.fine {cfg : SysCfg} {now : Int} (x : SysExec cfg now) (n : Nat) : PdFine cfg.auth.U (x.state n).pd := by
  induction n with
  | zero => rw [x.init]; exact pdInit_fine _ _ _
  | succ n ih =>
    rcases sysStep_pd (x.next n) with ⟨m, hm⟩ | ⟨b, hb, _⟩
    · rw [hm]; exact ih
    · exact ih.step hb

/-- **C72**.  Every call of `FetchWithRetry` returns, provided that its requests end. -/
theorem C72_fetch_returns (cfg : SysCfg) (now : Int) (x : SysExec cfg now) (hf : UpdFair x) (n : Nat) (dom : Str) (k : Nat) (c : FetchCall)
    (hc : ((x.state n).fs dom).calls[k]? = some c) :
    ∃ m sp e, n ≤ m ∧ ((x.state m).fs dom).calls[k]? = some ⟨true, .ret sp e⟩ := by
  obtain ⟨retry, pc⟩ := c
  obtain ⟨rfl, _⟩ := (SysExec.links x n).calls dom k retry pc hc
  let left : Nat → Nat := fun m => match ((x.state m).fs dom).calls[k]? with
    | some c => c.pc.left cfg.fetch.retryAttempts
    | none => 0
  have keep : ∀ m, n ≤ m → ∃ pc, ((x.state m).fs dom).calls[k]? = some ⟨true, pc⟩ := by
    intro m hm
    induction hm with
    | refl => exact ⟨pc, hc⟩
    | @step m hm ih =>
      obtain ⟨pc1, h1⟩ := ih
      obtain ⟨pc2, h2, _⟩ := sysStep_fetch (SysExec.links x m) (x.next m) (SysExec.alive x (m + 1)) h1
      exact ⟨pc2, h2⟩
  obtain ⟨m, hm, hg⟩ := fair_reaches (r := (· < ·)) Nat.lt_wfRel.wf (fun m => (m, left m)) x.act (fun _ a => OfFetch dom k a)
    (fun p => ∃ a, OfFetch dom k a ∧ (sysStep cfg (x.state p.1) a).isSome) (fun p => n ≤ p.1) (fun p => p.2 = 0) (fun p => p.2)
    (fun n0 hen => hf (.fetch dom k) n0 hen)
    (by
      intro m hm hng
      simp only at hm hng ⊢
      obtain ⟨pc1, h1⟩ := keep m hm
      have hl : pc1.left cfg.fetch.retryAttempts ≠ 0 := by
        intro h0; apply hng; simp only [left, h1, h0]
      obtain ⟨a, ha, hown, hs⟩ := fStep_ready ((SysExec.base x m).2 dom) h1 hl
      obtain ⟨f', hf'⟩ := Option.isSome_iff_exists.mp hs
      refine ⟨.fetcher dom a, ?_, ?_⟩
      · cases a <;> simp_all [FAct.ofCall, OfFetch]
      · cases a <;> simp_all [FAct.own, sysStep, SysExec.alive x m])
    (by
      intro m hm hng
      simp only at hm hng ⊢
      obtain ⟨pc1, h1⟩ := keep m hm
      obtain ⟨pc2, h2, h3, h4⟩ := sysStep_fetch (SysExec.links x m) (x.next m) (SysExec.alive x (m + 1)) h1
      simp only [left, h1, h2]
      exact ⟨by omega, h3, fun h => by rw [h4 h]⟩)
    n (Nat.le_refl n)
  obtain ⟨pc1, h1⟩ := keep m hm
  simp only [left, h1] at hg
  cases pc1 with
  | ret sp e => exact ⟨m, sp, e, hm, h1⟩
  | _ => simp [FetchPc.left] at hg

theorem fetch_ret_stays {cfg : SysCfg} {now : Int} (x : SysExec cfg now) {n : Nat} {dom : Str} {k : Nat} {sp : Option SignedPolicy} {e : Option Err}
    (h : ((x.state n).fs dom).calls[k]? = some ⟨true, .ret sp e⟩) : ∀ m, n ≤ m → ((x.state m).fs dom).calls[k]? = some ⟨true, .ret sp e⟩ := by
  intro m hm
  induction hm with
  | refl => exact h
  | @step m hm ih =>
    obtain ⟨pc, h1, h2, h3⟩ := sysStep_fetch (SysExec.links x m) (x.next m) (SysExec.alive x (m + 1)) ih
    rw [h1]
    rw [h3 fun ho => by simpa [FetchPc.left] using h2 ho]

theorem waits_stay {cfg : SysCfg} {s s' : Sys} {a : SysAct} (hi : FetchLinks cfg s) (hs : sysStep cfg s a = some s') {i j n : Nat} {dom : Str}
    {t : Task} {f : Option PolicyDoc} (ht : s.pd.tasks[i]? = some t) (hj : t.jobs[j]? = some (.fetching f)) (hd : s.domOf i j = some dom)
    (hw : s.waits i j = some n) : s'.domOf i j = some dom ∧ s'.waits i j = some n := by
  have hs' := hs
  obtain ⟨_, he⟩ := sysStep_effect hs
  cases he with
  | pd a pd' D F W ha hp hD hF hbr =>
    have h2 : sysPd cfg s a = some { s with pd := pd', dead := pd'.crashed, doms := D, fs := F, waits := W } := by
      simp only [sysStep] at hs'
      split at hs'
      · simp at hs'
      · exact hs'
    have hl := sysPd_links h2 hi.len
    obtain ⟨more, hmore⟩ := hl.doms
    refine ⟨domOf_mono hmore hd, ?_⟩
    rcases hl.fs with ⟨_, h3⟩ | ⟨i0, j0, dom0, f0, _, _, h3, _, h5⟩
    · rw [h3]; exact hw
    · rw [h3]
      simp only
      split
      · rename_i he
        obtain ⟨rfl, rfl⟩ := he
        obtain ⟨g, hg⟩ := h5 t ht
        rw [hj] at hg
        simp at hg
      · exact hw
  | _ => exact ⟨hd, hw⟩

/-- **C72**.  Every call of `Update` (and every run of the hook of an expired entry) comes to its end: all its goroutines end, and it
returns. -/
theorem C72_update_returns (cfg : SysCfg) (now : Int) (x : SysExec cfg now) (hf : UpdFair x) (hfore : Foretold x) (n i : Nat) (t : Task)
    (ht : (x.state n).pd.tasks[i]? = some t) :
    ∃ m t', n ≤ m ∧ (x.state m).pd.tasks[i]? = some t' ∧ t'.isUpdate = t.isUpdate ∧ (∀ j ∈ t'.jobs, ∃ e, j = .done e) ∧ (t'.isUpdate = true → t'.ret ≠ none) := by
  generalize hv : t.left = v
  induction v using Nat.strongRecOn generalizing n t with
  | _ v ih =>
    by_cases h0 : t.left = 0
    · exact ⟨n, t, Nat.le_refl n, ht, rfl, Task.allDone_iff.mp (Task.left_zero h0).1, (Task.left_zero h0).2⟩
    by_cases hstep : ∃ m, n ≤ m ∧ OfUpdate i (x.act m)
    · -- the first step
      obtain ⟨m0, hm0⟩ := hstep
      obtain ⟨m, ⟨hm, hw⟩, hmin⟩ : ∃ m, (n ≤ m ∧ OfUpdate i (x.act m)) ∧ ∀ k, k < m → ¬ (n ≤ k ∧ OfUpdate i (x.act k)) := by
        clear ih
        induction m0 using Nat.strongRecOn with
        | _ m0 ihm =>
          by_cases hlt : ∃ k, k < m0 ∧ n ≤ k ∧ OfUpdate i (x.act k)
          · obtain ⟨k, hk, hk'⟩ := hlt; exact ihm k hk hk'
          · exact ⟨m0, hm0, fun k hk hk' => hlt ⟨k, hk, hk'⟩⟩
      have hsame : ∀ k, n ≤ k → k ≤ m → ∃ t', (x.state k).pd.tasks[i]? = some t' ∧ t'.jobs = t.jobs ∧ t'.ret = t.ret ∧ t'.isUpdate = t.isUpdate := by
        intro k hk
        induction hk with
        | refl => intro _; exact ⟨t, ht, rfl, rfl, rfl⟩
        | @step k hk ihk =>
          intro hkm
          obtain ⟨t1, g1, g2, g3, g4⟩ := ihk (by omega)
          obtain ⟨t2, k1, k2, k3, k4⟩ := sysStep_idle (x.next k) g1 fun ho => hmin k (by omega) ⟨hk, ho⟩
          exact ⟨t2, k1, k2.trans g2, k3.trans g3, k4.trans g4⟩
      obtain ⟨t1, g1, g2, g3, g4⟩ := hsame m hm (Nat.le_refl m)
      obtain ⟨t2, k1, k2, k3⟩ := sysStep_work (x.next m) g1 hw
      have hl : t1.left = t.left := by simp only [Task.left, g2, g3, g4]
      obtain ⟨m', t', h1, h2, h3, h4⟩ := ih t2.left (by omega) (m + 1) t2 k1 rfl
      exact ⟨m', t', by omega, h2, by rw [h3, k2, g4], h4⟩
    · -- nothing happens, although something can
      exfalso
      have hno : ∀ m, n ≤ m → ¬ OfUpdate i (x.act m) := fun m hm ho => hstep ⟨m, hm, ho⟩
      have hsame : ∀ k, n ≤ k → ∃ t', (x.state k).pd.tasks[i]? = some t' ∧ t'.jobs = t.jobs ∧ t'.ret = t.ret ∧ t'.isUpdate = t.isUpdate := by
        intro k hk
        induction hk with
        | refl => exact ⟨t, ht, rfl, rfl, rfl⟩
        | @step k hk ihk =>
          obtain ⟨t1, g1, g2, g3, g4⟩ := ihk
          obtain ⟨t2, k1, k2, k3, k4⟩ := sysStep_idle (x.next k) g1 (hno k hk)
          exact ⟨t2, k1, k2.trans g2, k3.trans g3, k4.trans g4⟩
      suffices h : ∃ m0, n ≤ m0 ∧ ∀ m, m0 ≤ m → ∀ t', (x.state m).pd.tasks[i]? = some t' → t'.jobs = t.jobs → t'.ret = t.ret →
          t'.isUpdate = t.isUpdate → CanGoOn (x.state m) i t' by
        obtain ⟨m0, hm0, hgo⟩ := h
        obtain ⟨m, hm, hdo⟩ := hf (.update i) m0 (by
          intro m hm
          obtain ⟨t', g1, g2, g3, g4⟩ := hsame m (by omega)
          exact canGoOn_enabled (SysExec.links x m) (SysExec.fine x m) (SysExec.alive x m) (SysExec.base x m).1 (SysExec.base x m).2 g1
            (hgo m hm t' g1 g2 g3 g4))
        exact hno m (by omega) hdo
      by_cases hd : t.allDone = true
      · have hz : (t.jobs.map Job.left).sum = 0 := by
          simp only [List.sum_eq_zero_iff_forall_eq_nat, List.mem_map]
          rintro _ ⟨j, hj, rfl⟩
          obtain ⟨e, rfl⟩ := Task.allDone_iff.mp hd j hj
          rfl
        have hu : t.isUpdate = true ∧ t.ret = none := by
          refine Classical.byContradiction fun hn => h0 ?_
          simp only [Task.left, hz, if_neg hn]
        refine ⟨n, Nat.le_refl n, fun m _ t' _ g2 g3 g4 => .inl ⟨?_, by rw [g4]; exact hu.1, by rw [g3]; exact hu.2⟩⟩
        simpa only [Task.allDone, g2] using hd
      · rw [Task.allDone_iff] at hd
        simp only [Classical.not_forall] at hd
        obtain ⟨y, hy, hne⟩ := hd
        replace hne : ∀ e, y ≠ .done e := fun e he => hne ⟨e, he⟩
        obtain ⟨j, hj⟩ := List.mem_iff_getElem?.mp hy
        by_cases hfet : ∃ f, y = .fetching f
        · obtain ⟨f, rfl⟩ := hfet
          obtain ⟨k, hk⟩ := (SysExec.links x n).fetch i j t f ht hj
          obtain ⟨dom, hdom, hlt⟩ := (SysExec.links x n).waits i j k hk
          obtain ⟨c, hc⟩ := getElem?_of_lt hlt
          obtain ⟨m0, sp, e, hm0, hret⟩ := C72_fetch_returns cfg now x hf n dom k c hc
          have hstay : ∀ m, n ≤ m → (x.state m).domOf i j = some dom ∧ (x.state m).waits i j = some k := by
            intro m hm
            induction hm with
            | refl => exact ⟨hdom, hk⟩
            | @step m hm ihm =>
              obtain ⟨t', g1, g2, _⟩ := hsame m hm
              exact waits_stay (SysExec.links x m) (x.next m) g1 (by rw [g2]; exact hj) ihm.1 ihm.2
          refine ⟨m0, hm0, fun m hm t' g1 g2 _ _ => .inr ⟨j, _, by rw [g2]; exact hj, hne, ?_⟩⟩
          intro f' hf'
          obtain rfl : f = f' := by simpa using hf'
          have hres : (x.state m).fetchResult i j = some sp :=
            fetchResult_calls.mpr ⟨dom, k, true, e, (hstay m (by omega)).1, (hstay m (by omega)).2, fetch_ret_stays x hret m hm⟩
          refine ⟨sp, hres, ?_⟩
          exact asSaid_iff.mpr (hfore m i j t' f sp g1 (by rw [g2]; exact hj) hres)
        · exact ⟨n, Nat.le_refl n, fun m _ t' g1 g2 _ _ => .inr ⟨j, y, by rw [g2]; exact hj, hne, fun f hf => absurd ⟨f, hf⟩ hfet⟩⟩

/-! ### What the calls begun after the change get -/

/-- A call of `FetchWithRetry` begun after the change has not failed, and if it has returned, it returned the new policy. -/
def NewCall (d : PolicyDoc) : FetchPc → Prop
  | .loop i _ => i = -1
  | .sent i _ => i = -1
  | .ret sp _ => ∃ p, sp = some p ∧ Spec.PolicySays p d

theorem NewCall.step {cfg : FetchCfg} {f f' : FState} {a : FAct} {d : PolicyDoc} {K : Nat} (hR : 0 ≤ cfg.retryAttempts) (hs : fStep cfg f a = some f')
    (hans : ∀ j r, a = .answer j r → ∃ sp, a.succeeds cfg f sp ∧ Spec.PolicySays sp d)
    (h : ∀ (k : Nat) (c : FetchCall), K ≤ k → f.calls[k]? = some c → NewCall d c.pc) :
    ∀ (k : Nat) (c : FetchCall), K ≤ k → f'.calls[k]? = some c → NewCall d c.pc := by
  intro k c hk hc
  have hs0 := hs
  unfold fStep at hs
  split at hs
  · simp at hs
  cases a with
  | tick d => simp only [Option.some.injEq] at hs; subst hs; exact h k c hk hc
  | setKeys ks => simp only [Option.some.injEq] at hs; subst hs; exact h k c hk hc
  | call retry =>
    simp only [Option.some.injEq] at hs; subst hs
    rcases getElem?_append_cases hc with hc | ⟨_, rfl⟩
    · exact h k c hk hc
    · rfl
  | send j =>
    simp only at hs
    split at hs
    · rename_i retry i e hj
      split at hs
      · simp at hs
      · simp only [Option.some.injEq] at hs; subst hs
        rcases getElem?_set_cases' hc with ⟨rfl, rfl⟩ | ⟨_, hc⟩
        · exact (h _ ⟨retry, .loop i e⟩ hk hj : i = -1)
        · exact h k c hk hc
    · simp at hs
  | answer j r =>
    obtain ⟨sp, hsp, hd⟩ := hans j r rfl
    obtain ⟨j', r', c', he, h1, h2, _⟩ := C18_first_success cfg f f' _ sp hs0 hsp [] f' rfl
    simp only [FAct.answer.injEq] at he
    obtain ⟨rfl, rfl⟩ := he
    by_cases hkj : k = j
    · subst hkj
      rw [hc] at h1
      obtain rfl := Option.some.inj h1
      rw [h2]
      exact ⟨sp, rfl, hd⟩
    · simp only at hs
      split at hs
      · repeat' split at hs
        all_goals (simp only [Option.some.injEq] at hs; subst hs)
        all_goals first
          | exact h k c hk hc
          | (rcases getElem?_set_cases' hc with ⟨hx, _⟩ | ⟨_, hc⟩
             · omega
             · exact h k c hk hc)
      · simp at hs
  | giveUp j =>
    simp only at hs
    split at hs
    · rename_i i e hj
      split at hs
      · simp at hs
      · rename_i hlt
        simp only [Option.some.injEq] at hs; subst hs
        rcases getElem?_set_cases' hc with ⟨rfl, rfl⟩ | ⟨_, hc⟩
        · have := h _ _ hk hj
          simp only [NewCall] at this
          omega
        · exact h k c hk hc
    · simp at hs

theorem newCalls {cfg : SysCfg} {now : Int} {x : SysExec cfg now} {N : Nat} {dom : Str} {d : PolicyDoc} (hR : 0 ≤ cfg.fetch.retryAttempts)
    (hsrv : Serves x N dom d) : ∀ m, N ≤ m → ∀ (k : Nat) (c : FetchCall), ((x.state N).fs dom).calls.length ≤ k →
      ((x.state m).fs dom).calls[k]? = some c → NewCall d c.pc := by
  intro m hm
  induction hm with
  | refl =>
    intro k c hk hc
    have := lt_of_getElem? hc
    omega
  | @step m hm ih =>
    have hst := x.next m
    obtain ⟨_, he⟩ := sysStep_effect hst
    have hsm := hsrv m hm
    simp only [Nat.succ_eq_add_one]
    generalize x.state (m + 1) = s' at he
    generalize x.act m = a at he hsm
    cases he with
    | fetcher dom' b f hb hf =>
      by_cases hdom : dom = dom'
      · subst hdom
        simp only [if_true]
        exact NewCall.step hR hf (fun j r hb => by subst hb; exact hsm j r rfl) ih
      · simp only [if_neg hdom]
        exact ih
    | pd b pd' D F W hb hp hD hF hbr =>
      rcases hF with rfl | ⟨dom', f, hf, rfl⟩
      · exact ih
      · simp only
        by_cases hdom : dom = dom'
        · subst hdom
          simp only [if_true]
          exact NewCall.step hR hf (by simp) ih
        · simp only [if_neg hdom]
          exact ih
    | _ => exact ih

/-! ### What the updates called after the change do -/

theorem updStep_early {U : CaseFns} {s s' : UpdState} {a : UpdAct} (h : updStep U s a = some s') (hc : s.cancelled = false) {j : Nat} {x' : Job}
    (hj : s'.jobs[j]? = some x') :
    (∃ x, s.jobs[j]? = some x ∧ (x' = x ∨ ∀ f, x ≠ .start f ∧ x ≠ .fetching f)) ∨ (∃ f, x' = .fetching f) ∨
    ∃ f o, a = .job j o ∧ s.jobs[j]? = some (.fetching f) := by
  have key : ∀ (i : Nat) (y y' : Job), s.jobs[i]? = some y → (s.jobs.set i y')[j]? = some x' →
      ((∀ f, y ≠ .start f ∧ y ≠ .fetching f) ∨ (∃ f, y' = .fetching f) ∨ ∃ f o, a = .job i o ∧ y = .fetching f) →
      (∃ x, s.jobs[j]? = some x ∧ (x' = x ∨ ∀ f, x ≠ .start f ∧ x ≠ .fetching f)) ∨ (∃ f, x' = .fetching f) ∨
      ∃ f o, a = .job j o ∧ s.jobs[j]? = some (.fetching f) := by
    intro i y y' hy hset hcase
    rcases getElem?_set_cases' hset with ⟨rfl, rfl⟩ | ⟨_, hx⟩
    · rcases hcase with h1 | ⟨f, h1⟩ | ⟨f, o, h1, rfl⟩
      · exact .inl ⟨y, hy, .inr h1⟩
      · exact .inr (.inl ⟨f, h1⟩)
      · exact .inr (.inr ⟨f, o, h1, hy⟩)
    · exact .inl ⟨x', hx, .inl rfl⟩
  cases a with
  | tick d => simp only [updStep, Option.some.injEq] at h; subst h; exact .inl ⟨x', hj, .inl rfl⟩
  | cancel => simp only [updStep, Option.some.injEq] at h; subst h; exact .inl ⟨x', hj, .inl rfl⟩
  | merge i k =>
    simp only [updStep] at h
    split at h
    · rename_i d m hy
      split at h
      · simp only [Option.some.injEq] at h; subst h; exact key i _ _ hy hj (.inl (by simp))
      · simp at h
    · simp at h
  | job i order =>
    simp only [updStep] at h
    split at h
    · rename_i f hy
      simp only [hc] at h
      simp only [Bool.false_eq_true, if_false, Option.some.injEq] at h; subst h
      exact key i _ _ hy hj (.inr (.inl ⟨_, rfl⟩))
    · rename_i hy
      simp only [Option.some.injEq] at h; subst h; exact key i _ _ hy hj (.inr (.inr ⟨_, _, rfl, rfl⟩))
    · rename_i d hy
      simp only [Option.some.injEq] at h; subst h; exact key i _ _ hy hj (.inr (.inr ⟨_, _, rfl, rfl⟩))
    · rename_i hy
      repeat' split at h
      all_goals first
        | (simp at h; done)
        | (simp only [Option.some.injEq] at h; subst h; exact key i _ _ hy hj (.inl (by simp)))
    · rename_i hy
      simp only [Option.some.injEq] at h; subst h; exact key i _ _ hy hj (.inl (by simp))
    · rename_i hy
      repeat' split at h
      all_goals first
        | (simp at h; done)
        | (simp only [Option.some.injEq] at h; subst h; exact key i _ _ hy hj (.inl (by simp)))
    · rename_i hy
      repeat' split at h
      all_goals first
        | (simp at h; done)
        | (simp only [Option.some.injEq] at h; subst h; exact key i _ _ hy hj (.inl (by simp)))
    · simp at h

theorem sysPd_fetched {cfg : SysCfg} {s s' : Sys} {i j : Nat} {o : List RawAssertion} {t : Task} {f : Option PolicyDoc}
    (h : sysPd cfg s (.task i (.job j o)) = some s') (ht : s.pd.tasks[i]? = some t) (hj : t.jobs[j]? = some (.fetching f)) :
    ∃ r, s.fetchResult i j = some r ∧ fetchMatches r f := by
  unfold sysPd at h
  split at h
  · simp at h
  · simp only [ht, hj] at h
    split at h
    · rename_i r hr
      split at h
      · exact ⟨r, hr, by assumption⟩
      · simp at h
    · simp at h

/-- An update called after the change. -/
def NewTask (U : CaseFns) (D : List PolicyDoc) (s : Sys) (t : Task) : Prop :=
  t.cancelled = false ∧ ∃ docs extra, s.pd.srcs[t.obj]? = some (docs ++ extra) ∧ CallOf U docs t ∧ ∀ (j : Nat) (y : Job), t.jobs[j]? = some y →
    (∃ f, y = .start f ∨ y = .fetching f) ∨ ∃ d, D[j]? = some d ∧ docs[j]? = some (some d)

theorem SysExec.hist_add {cfg : SysCfg} {now : Int} (x : SysExec cfg now) (n k : Nat) :
    x.hist (n + k) = x.hist n ++ (List.range k).map (fun i => x.act (n + i)) := by
  simp only [SysExec.hist, List.range_add, List.map_append, List.map_map]
  rfl

theorem SysExec.runFrom {cfg : SysCfg} {now : Int} (x : SysExec cfg now) {n m : Nat} (h : n ≤ m) :
    sysRun cfg (x.state n) ((List.range (m - n)).map (fun i => x.act (n + i))) = some (x.state m) := by
  have h1 := SysExec.run x m
  have h2 := SysExec.hist_add x n (m - n)
  rw [show n + (m - n) = m by omega] at h2
  rw [h2, sysRun_append, SysExec.run x n] at h1
  exact h1

/-- Calls of `FetchWithRetry` made after the moment `N` return the documents `D`, if they return. -/
structure Yields {cfg : SysCfg} {now : Int} (x : SysExec cfg now) (N : Nat) (D : List PolicyDoc) : Prop where
  len : D.length = cfg.domains.length
  calls : ∀ (j : Nat) (dom : Str) (d : PolicyDoc), cfg.domains[j]? = some dom → D[j]? = some d → ∀ m, N ≤ m → ∀ (k : Nat) (retry : Bool)
    (sp : Option SignedPolicy) (e : Option Err), ((x.state N).fs dom).calls.length ≤ k → ((x.state m).fs dom).calls[k]? = some ⟨retry, .ret sp e⟩ →
    ∃ p, sp = some p ∧ PolicySays p d
  good : ∀ d ∈ D, ∀ a ∈ d.policies.flatten, ':' ∈ a.resource
  noCancel : ∀ n i, N ≤ n → x.act n ≠ .pd (.task i .cancel)

theorem Spec.NewPolicies.yields {cfg : SysCfg} {now : Int} {x : SysExec cfg now} {N : Nat} {D : List PolicyDoc} (hD : NewPolicies x N D)
    (hR : 0 ≤ cfg.fetch.retryAttempts) : Yields x N D :=
  ⟨hD.len, fun j dom d hdom hd m hm k _ _ _ hk hc => newCalls hR (hD.serves j dom d hdom hd) m hm k _ hk hc, hD.good, hD.noCancel⟩

/-- The policy that goroutine `j` of an update called after the change got. -/
theorem newResult {cfg : SysCfg} {now : Int} {x : SysExec cfg now} {N : Nat} {D : List PolicyDoc}
    (hD : Yields x N D) {m : Nat} (hm : N ≤ m) {i j : Nat} (hi : (x.state N).pd.tasks.length ≤ i) {t : Task}
    (ht : (x.state m).pd.tasks[i]? = some t) (hu : t.isUpdate = true) {r : Option SignedPolicy} (hr : (x.state m).fetchResult i j = some r) :
    ∃ sp d, r = some sp ∧ D[j]? = some d ∧ Spec.PolicySays sp d := by
  have hfi := forceAny_run (SysExec.run x m)
  have hwi := waitAny_run (SysExec.run x N) (SysExec.runFrom x hm)
  obtain ⟨dom, n, retry, e, h1, h2, h3⟩ := fetchResult_calls.mp hr
  have hdom : cfg.domains[j]? = some dom := by
    unfold Sys.domOf at h1
    rw [hfi.doms i t ht hu] at h1
    exact h1
  obtain ⟨d, hd⟩ := getElem?_of_lt (l := D) (i := j) (by rw [hD.len]; exact lt_of_getElem? hdom)
  obtain ⟨sp, h4, h5⟩ := hD.calls j dom d hdom hd m hm n _ _ _ (hwi.new i j n dom (by rw [(forceAny_run (SysExec.run x N)).len]; exact hi) h2 h1) h3
  exact ⟨sp, d, h4, hd, h5⟩

theorem newTasks {cfg : SysCfg} {now : Int} {x : SysExec cfg now} {N : Nat} {D : List PolicyDoc}
    (hD : Yields x N D) : ∀ m, N ≤ m → ∀ (i : Nat) (t : Task), (x.state N).pd.tasks.length ≤ i → (x.state m).pd.tasks[i]? = some t →
      t.isUpdate = true → NewTask cfg.auth.U D (x.state m) t := by
  intro m hm
  induction hm with
  | refl =>
    intro i t hi ht
    have := lt_of_getElem? ht
    omega
  | @step m hm ih =>
    intro i t' hi ht' hup
    have hst := x.next m
    have hfi := forceAny_run (SysExec.run x m)
    have hold : ∀ (b : PdAct), pdStep cfg.auth.U (x.state m).pd b = some (x.state (m + 1)).pd → b.notHook → (∀ f, b ≠ .update f) → ¬ b.isCancelOf i →
        (∀ j o, b = .task i (.job j o) → sysPd cfg (x.state m) b = some (x.state (m + 1))) →
        NewTask cfg.auth.U D (x.state (m + 1)) t' := by
      intro b hb hnh hnu hnc hpd
      have hmv := taskMoves hb hnh
      rcases hmv.tasks i t' ht' with ⟨t, h1, h2, h3⟩ | ⟨f, rfl, _⟩
      · change (x.state (m + 1)).pd.tasks[i]? = some t' at ht'
        have hu1 : t.isUpdate = true := by
          obtain ⟨t2, k1, k2, _⟩ := pdStep_task hb h1
          rw [ht'] at k1
          obtain rfl := Option.some.inj k1
          rw [← k2]; exact hup
        obtain ⟨hcan, docs, extra, hd1, hd2, hd3⟩ := ih i t hi h1 hu1
        obtain ⟨t2, k1, k2, k3⟩ := CallOf.step hb h1 hd2
        rw [ht'] at k1
        obtain rfl := Option.some.inj k1
        refine ⟨by rw [k3 hnc]; exact hcan, docs, extra, ?_, k2, ?_⟩
        · rw [hmv.srcs, ← h2, List.getElem?_append_left (lt_of_getElem? hd1)]; exact hd1
        · intro j y hy
          rcases h3 with h3 | ⟨u, u', rfl, hu, h3⟩
          · rw [h3] at hy; exact hd3 j y hy
          · rw [h3] at hy
            rcases updStep_early hu hcan hy with ⟨z, hz, rfl | hz'⟩ | ⟨f, rfl⟩ | ⟨f, o, rfl, hz⟩
            · exact hd3 j _ hz
            · rcases hd3 j z hz with ⟨f, rfl | rfl⟩ | h4
              · exact absurd rfl (hz' f).1
              · exact absurd rfl (hz' f).2
              · exact .inr h4
            · exact .inl ⟨f, .inr rfl⟩
            · right
              obtain ⟨r, hr, hmat⟩ := sysPd_fetched (hpd j o rfl) h1 hz
              obtain ⟨sp, d, rfl, hd, hdoc⟩ := newResult hD hm hi h1 hu1 hr
              obtain ⟨docs', extra', g1, _, g3, g4⟩ := hfi.tasks i t h1 hu1
              rw [hd1] at g1
              obtain ⟨rfl, rfl⟩ := List.append_inj (Option.some.inj g1) (by rw [← g3, hd2.jobs.1])
              have hf := (g4 j _ hz).2.1 f rfl
              refine ⟨d, hd, ?_⟩
              cases f with
              | none => exact hmat.elim
              | some d' =>
                have : docOf sp = .ok d' := hmat
                rw [docOf_iff.mpr hdoc] at this
                simp only [Res.ok.injEq] at this
                rw [hf, this]
      · exact absurd rfl (hnu f)
    rcases sysStep_pd hst with ⟨n, hn⟩ | ⟨b, hb, hab⟩
    · rw [Nat.succ_eq_add_one, hn] at ht'
      obtain ⟨hcan, docs, extra, hd1, hd2⟩ := ih i t' hi ht' hup
      exact ⟨hcan, docs, extra, by rw [Nat.succ_eq_add_one, hn]; exact hd1, hd2⟩
    · rcases hab with hab | ⟨q, rfl⟩
      · have hpd : sysPd cfg (x.state m) b = some (x.state (m + 1)) := by
          rw [hab] at hst
          simp only [sysStep, SysExec.alive x m, Bool.false_eq_true, if_false] at hst
          exact hst
        by_cases hhook : ∃ n f, b = .hook n f
        · obtain ⟨n, f, rfl⟩ := hhook
          have old : (x.state m).pd.tasks[i]? = some t' := by
            rcases pdStep_newTask hb ht' with ⟨t, h1⟩ | ⟨_, _, ⟨f', h1, _⟩ | ⟨_, _, _, h2, _⟩⟩
            · rcases pdStep_hook hb with h2 | ⟨k, _, h2⟩
              · rw [Nat.succ_eq_add_one, h2] at ht'; exact ht'
              · rw [Nat.succ_eq_add_one, h2] at ht'
                simp only at ht'
                rwa [List.getElem?_append_left (lt_of_getElem? h1)] at ht'
            · simp at h1
            · rw [hup] at h2; simp at h2
          obtain ⟨hcan, docs, extra, hd1, hd2⟩ := ih i t' hi old hup
          rcases pdStep_hook hb with h2 | ⟨k, _, h2⟩
          · exact ⟨hcan, docs, extra, by rw [Nat.succ_eq_add_one, h2]; exact hd1, hd2⟩
          · by_cases hlive : (x.state m).pd.live = t'.obj
            · refine ⟨hcan, docs, extra ++ [f], ?_, hd2⟩
              rw [Nat.succ_eq_add_one, h2]
              simp only
              rw [hlive, List.getElem?_set_self (lt_of_getElem? hd1), hd1]
              simp
            · refine ⟨hcan, docs, extra, ?_, hd2⟩
              rw [Nat.succ_eq_add_one, h2]
              simp only
              rw [List.getElem?_set_ne hlive]; exact hd1
        have hnh : b.notHook := by
          cases b with
          | hook n f => exact absurd ⟨n, f, rfl⟩ hhook
          | _ => trivial
        by_cases hu : ∃ f, b = .update f
        · obtain ⟨f, rfl⟩ := hu
          have hb' := hb
          unfold pdStep at hb
          split at hb
          · simp at hb
          · simp only [Option.some.injEq] at hb
            rw [Nat.succ_eq_add_one, ← hb] at ht'
            rcases getElem?_append_cases ht' with ht' | ⟨_, rfl⟩
            · obtain ⟨hcan, docs, extra, hd1, hd2, hd3⟩ := ih i t' hi ht' hup
              refine ⟨hcan, docs, extra, ?_, hd2, hd3⟩
              rw [Nat.succ_eq_add_one, ← hb]
              simp only
              rw [List.getElem?_append_left (lt_of_getElem? hd1)]; exact hd1
            · refine ⟨rfl, f, [], ?_, ⟨rfl, updFrom_init _ _, by simp, by simp⟩, ?_⟩
              · rw [Nat.succ_eq_add_one, ← hb]
                simp only
                rw [hfi.objs]
                simp
              · intro j y hy
                left
                simp only [List.getElem?_map, Option.map_eq_some_iff] at hy
                obtain ⟨g, _, rfl⟩ := hy
                exact ⟨g, .inl rfl⟩
        · refine hold b hb hnh (fun f hf => hu ⟨f, hf⟩) ?_ (fun _ _ _ => hpd)
          rintro rfl
          exact hD.noCancel m i hm hab
      · exact hold _ hb trivial (by simp) (by simp [PdAct.isCancelOf]) (by simp)

/-- An update called after the change that has returned, returned nil. -/
theorem newTask_ret {cfg : SysCfg} {now : Int} {x : SysExec cfg now} {N : Nat} {D : List PolicyDoc}
    (hD : Yields x N D) {m : Nat} (hm : N ≤ m) {i : Nat} {t : Task} (hi : (x.state N).pd.tasks.length ≤ i)
    (ht : (x.state m).pd.tasks[i]? = some t) {ok : Bool} (hr : t.ret = some ok) : ok = true := by
  have hup : t.isUpdate = true := by
    cases hu : t.isUpdate with
    | true => rfl
    | false => rw [(forceAny_run (SysExec.run x m)).tinv.ret i t ht hu] at hr; simp at hr
  obtain ⟨hcan, docs, _, _, hcall, hjobs⟩ := newTasks hD m hm i t hi ht hup
  cases ok with
  | true => rfl
  | false =>
    rcases hcall.bad hr with hb | ⟨hd, hb⟩
    · simp [hcan] at hb
    · simp only [Task.allOk, List.all_eq_false] at hb
      obtain ⟨y, hy, hne⟩ := hb
      obtain ⟨e, rfl⟩ := Task.allDone_iff.mp hd y hy
      obtain ⟨j, hj⟩ := List.mem_iff_getElem?.mp hy
      rcases hjobs j _ hj with ⟨f, hf | hf⟩ | ⟨d, hd1, hd2⟩
      · simp at hf
      · simp at hf
      · have hfrom := hcall.jobs.2 j _ _ hj hd2
        cases e with
        | none => simp at hne
        | some e =>
          rcases hfrom with h1 | h1 | ⟨d', a, hd', ha, hcv⟩
          · simp [hcan] at h1
          · simp at h1
          · obtain rfl : d = d' := by simpa using hd'
            exact absurd (hD.good d (List.mem_of_getElem? hd1) a ha) (conv_none_iff.mp hcv)

theorem tasks_len_mono {cfg : SysCfg} {now : Int} (x : SysExec cfg now) {n m : Nat} (h : n ≤ m) :
    (x.state n).pd.tasks.length ≤ (x.state m).pd.tasks.length := by
  induction h with
  | refl => exact Nat.le_refl _
  | @step m hm ih =>
    refine Nat.le_trans ih ?_
    rcases sysStep_pd (x.next m) with ⟨k, hk⟩ | ⟨b, hb, _⟩
    · rw [Nat.succ_eq_add_one, hk]; exact Nat.le_refl _
    · refine Classical.byContradiction fun hlt => ?_
      obtain ⟨t, ht⟩ := getElem?_of_lt (Nat.lt_of_not_le hlt)
      obtain ⟨t', ht', _⟩ := pdStep_left hb ht
      have := lt_of_getElem? ht'
      simp only [Nat.succ_eq_add_one] at this
      omega

/-- C72 in general.  A call of `Update` made after the change returns nil. -/
theorem yields_update_ok (cfg : SysCfg) (now : Int) (x : SysExec cfg now) (hf : UpdFair x) (hfore : Foretold x) (N : Nat)
    (D : List PolicyDoc) (hD : Yields x N D) (n : Nat) (hn : N ≤ n) (fetch : List (Option PolicyDoc)) (hact : x.act n = .pd (.update fetch)) :
    ∃ m t, n < m ∧ (x.state m).pd.tasks[(x.state n).pd.tasks.length]? = some t ∧ t.ret = some true := by
  have hst := x.next n
  have hlenN : (x.state N).pd.tasks.length ≤ (x.state n).pd.tasks.length := (tasks_len_mono x hn)
  obtain ⟨t0, ht0, hu0⟩ : ∃ t0, (x.state (n + 1)).pd.tasks[(x.state n).pd.tasks.length]? = some t0 ∧ t0.isUpdate = true := by
    obtain ⟨_, he⟩ := sysStep_effect hst
    rw [hact] at he
    generalize x.state (n + 1) = s' at he
    cases he with
    | pd a pd' D F W ha hp hD hF hbr =>
      unfold pdStep at hp
      split at hp
      · simp at hp
      · simp only [Option.some.injEq] at hp
        subst hp
        exact ⟨⟨(x.state n).pd.objs.length, true, false, fetch.map .start, none⟩, by simp, rfl⟩
  obtain ⟨m, t, hm, ht, hu, _, hret⟩ := C72_update_returns cfg now x hf hfore (n + 1) _ t0 ht0
  cases hr : t.ret with
  | none => exact absurd hr (hret (by rw [hu, hu0]))
  | some ok =>
    have := newTask_ret hD (by omega : N ≤ m) hlenN ht hr
    subst this
    exact ⟨m, t, by omega, ht, hr⟩

/-- **C72**.  A call of `Update` made after the change returns nil. -/
theorem C72_update_ok (cfg : SysCfg) (now : Int) (hR : 0 ≤ cfg.fetch.retryAttempts) (x : SysExec cfg now) (hf : UpdFair x) (hfore : Foretold x) (N : Nat)
    (D : List PolicyDoc) (hD : NewPolicies x N D) (n : Nat) (hn : N ≤ n) (fetch : List (Option PolicyDoc)) (hact : x.act n = .pd (.update fetch)) :
    ∃ m t, n < m ∧ (x.state m).pd.tasks[(x.state n).pd.tasks.length]? = some t ∧ t.ret = some true :=
  yields_update_ok cfg now x hf hfore N D (hD.yields hR) n hn fetch hact

theorem ret_stays {cfg : SysCfg} {now : Int} (x : SysExec cfg now) {n m : Nat} (h : n ≤ m) {i : Nat}
    {t : Task} (ht : (x.state n).pd.tasks[i]? = some t) :
    ∃ t', (x.state m).pd.tasks[i]? = some t' ∧ t'.isUpdate = t.isUpdate ∧ (t.ret ≠ none → t'.ret = t.ret) := by
  obtain ⟨t', h1, h2, _, h3⟩ := sysRun_task (SysExec.runFrom x h) ht
  exact ⟨t', h1, h2, h3⟩

/-- A call that returned nil did so in a step. -/
theorem finish_at {cfg : SysCfg} {now : Int} (x : SysExec cfg now) {n m : Nat} (h : n ≤ m) {i : Nat}
    {t : Task} (ht : (x.state m).pd.tasks[i]? = some t) (hr : t.ret = some true)
    (h0 : ∀ t0, (x.state n).pd.tasks[i]? = some t0 → t0.ret ≠ some true) : ∃ p, n ≤ p ∧ p < m ∧ x.act p = .pd (.finish i) := by
  induction h generalizing t with
  | refl => exact absurd hr (h0 t ht)
  | @step m hm ih =>
    rcases sysStep_pd (x.next m) with ⟨k, hk⟩ | ⟨b, hb, hab⟩
    · rw [Nat.succ_eq_add_one, hk] at ht
      obtain ⟨p, g1, g2, g3⟩ := ih ht hr
      exact ⟨p, g1, by omega, g3⟩
    · change (x.state (m + 1)).pd.tasks[i]? = some t at ht
      rcases pdStep_newTask hb ht with ⟨t1, h1⟩ | ⟨_, h2, _⟩
      · obtain ⟨t2, k1, _, _, _, _, k2, _⟩ := pdStep_task hb h1
        rw [ht] at k1
        obtain rfl := Option.some.inj k1
        by_cases hr1 : t1.ret = some true
        · obtain ⟨p, g1, g2, g3⟩ := ih h1 hr1
          exact ⟨p, g1, by omega, g3⟩
        · obtain ⟨hb', _⟩ := k2 hr hr1
          rcases hab with hab | ⟨q, hq⟩
          · exact ⟨m, hm, by omega, by rw [hab, hb']⟩
          · rw [hq] at hb'; simp at hb'
      · rw [h2] at hr; simp at hr

theorem hist_split {cfg : SysCfg} {now : Int} {x : SysExec cfg now} {m : Nat} {h1 h2 : List SysAct} {a : SysAct} (h : x.hist m = h1 ++ a :: h2) :
    h1 = x.hist h1.length ∧ h1.length < m ∧ x.act h1.length = a ∧ ∀ p, h1.length < p → p < m → x.act p ∈ h2 := by
  have hlen : m = h1.length + (h2.length + 1) := by
    have := congrArg List.length h
    simpa [SysExec.hist] using this
  have get : ∀ p, p < m → (h1 ++ a :: h2)[p]? = some (x.act p) := by
    intro p hp
    rw [← h]
    simp [SysExec.hist, hp]
  refine ⟨?_, by omega, ?_, ?_⟩
  · apply List.ext_getElem?
    intro p
    by_cases hp : p < h1.length
    · have := get p (by omega)
      rw [List.getElem?_append_left hp] at this
      rw [this]
      simp [SysExec.hist, hp]
    · rw [List.getElem?_eq_none (by omega), List.getElem?_eq_none (by simp [SysExec.hist]; omega)]
  · have := get h1.length (by omega)
    simpa using this.symm
  · intro p hp1 hp2
    have := get p hp2
    rw [List.getElem?_append_right (by omega), show p - h1.length = (p - h1.length - 1) + 1 by omega, List.getElem?_cons_succ] at this
    exact List.mem_of_getElem? this

/-- C72 in general.  If the updates called before the change have returned, then once an update called later has returned, exactly the new policies are
in force, for ever. -/
theorem yields_in_force_at (cfg : SysCfg) (now : Int) (x : SysExec cfg now) (N : Nat) (D : List PolicyDoc) (hD : Yields x N D) (n : Nat) (hn : N ≤ n)
    (hold : ∀ (i : Nat) (t : Task), i < (x.state N).pd.tasks.length → (x.state n).pd.tasks[i]? = some t → t.isUpdate = true → t.ret ≠ none)
    (M k : Nat) (t : Task) (hM : n ≤ M) (hk : (x.state n).pd.tasks.length ≤ k) (ht : (x.state M).pd.tasks[k]? = some t) (hret : t.ret ≠ none)
    (m : Nat) (hm : M ≤ m) :
    (InForce cfg (sysInit cfg now) (x.hist m) (x.state m) (D.map some) ∧
      ∀ docs, InForce cfg (sysInit cfg now) (x.hist m) (x.state m) docs → docs = D.map some) ∧
      InForceSince cfg (sysInit cfg now) (x.hist m) (x.state m) (x.state N).auth.now ∧
      ∃ i, LastUpdate (x.hist m) (x.state m) i ∧ (x.state N).pd.tasks.length ≤ i := by
  have hr : t.ret = some true := by
    cases hr : t.ret with
    | none => exact absurd hr hret
    | some ok => rw [newTask_ret hD (by omega : N ≤ M) (Nat.le_trans (tasks_len_mono x hn) hk) ht hr]
  obtain ⟨t1, ht1, _, hr1⟩ := ret_stays x hm ht
  have hr1 := hr1 (by rw [hr]; simp)
  rw [hr] at hr1
  -- the last update was called after the change
  have hlast : ∀ i, LastUpdate (x.hist m) (x.state m) i → (x.state N).pd.tasks.length ≤ i := by
    rintro i ⟨⟨ti, hti, hri⟩, h1, h2, hh, hlater⟩
    have hui : ti.isUpdate = true := ((forceAny_run (SysExec.run x m)).upd hti hri).1
    refine Classical.byContradiction fun hlt => ?_
    have hlt : i < (x.state N).pd.tasks.length := Nat.lt_of_not_le hlt
    obtain ⟨_, hp1, hp2, hp3⟩ := hist_split hh
    obtain ⟨p0, q1, q2, q3⟩ := finish_at x (Nat.le_trans hM hm) ht1 hr1 (n := n) (by
      intro t0 ht0
      have := lt_of_getElem? ht0
      omega)
    -- it returned before the new one did
    have hbefore : h1.length < n := by
      refine Classical.byContradiction fun hge => ?_
      obtain ⟨tN, htN⟩ := getElem?_of_lt hlt
      obtain ⟨tn, htn, hun, _⟩ := ret_stays x hn htN
      obtain ⟨tm, htm, hum, _⟩ := ret_stays x (Nat.le_trans hn (Nat.le_trans (by omega) hm)) htN
      rw [hti] at htm
      obtain rfl := Option.some.inj htm
      have hne := hold i tn hlt htn (by rw [hun, ← hum]; exact hui)
      obtain ⟨tp, htp, _, hkeep⟩ := ret_stays x (Nat.le_of_not_lt hge) htn
      have hrp := hkeep hne
      have hst := x.next h1.length
      obtain ⟨_, he⟩ := sysStep_effect hst
      rw [hp2] at he
      generalize x.state (h1.length + 1) = s' at he
      cases he with
      | pd a pd' D F W ha hp hD hF hbr =>
        unfold pdStep at hp
        split at hp
        · simp at hp
        · simp only [htp] at hp
          split at hp
          · rename_i hc
            simp only [Bool.and_eq_true, Option.isNone_iff_eq_none] at hc
            exact hne (by rw [← hrp]; exact hc.1.2)
          · simp at hp
    obtain ⟨t2, ht2, hr2⟩ := hlater _ (by rw [← q3]; exact hp3 p0 (by omega) q2)
    rw [ht1] at ht2
    obtain rfl := Option.some.inj ht2
    rw [hr1] at hr2
    simp at hr2
  have huniq : ∀ docs, InForce cfg (sysInit cfg now) (x.hist m) (x.state m) docs → docs = D.map some := by
    intro docs hdocs
    rcases hdocs with ⟨_, h2⟩ | ⟨i, hlu, hlen, hgot⟩
    · exact absurd hr1 (h2 t1 (List.mem_of_getElem? ht1))
    · have hi := hlast i hlu
      obtain ⟨⟨ti, hti, hri⟩, _⟩ := hlu
      have hui : ti.isUpdate = true := ((forceAny_run (SysExec.run x m)).upd hti hri).1
      apply List.ext_getElem?
      intro j
      by_cases hj : j < cfg.domains.length
      · obtain ⟨dom, hdom⟩ := getElem?_of_lt hj
        obtain ⟨sp, d, _, g2, g3, g4, _⟩ := hgot j dom hdom
        obtain ⟨sp', d', k1, k2, k3⟩ := newResult hD (by omega : N ≤ m) hi hti hui g2
        obtain rfl := Option.some.inj k1
        rw [← docOf_iff, docOf_iff.mpr g3] at k3
        simp only [Res.ok.injEq] at k3
        rw [g4, List.getElem?_map, k2, k3]
        rfl
      · rw [List.getElem?_eq_none (by omega), List.getElem?_eq_none (by rw [List.length_map, hD.len]; omega)]
  obtain ⟨docs, hin, _⟩ := C68_in_force_any cfg now (x.hist m) (x.state m) (SysExec.run x m)
  exact ⟨⟨huniq docs hin ▸ hin, huniq⟩, fun i hi => ⟨x.hist N, _, x.state N, by
    have := SysExec.hist_add x N (m - N)
    rwa [show N + (m - N) = m by omega] at this, SysExec.run x N, hlast i hi, Int.le_refl _⟩, by
    rcases hin with ⟨_, h2⟩ | ⟨i, hlu, _⟩
    · exact absurd hr1 (h2 t1 (List.mem_of_getElem? ht1))
    · exact ⟨i, hlu, hlast i hlu⟩⟩

/-- The same when the update returns because of fairness. -/
theorem yields_in_force (cfg : SysCfg) (now : Int) (x : SysExec cfg now)
    (hf : UpdFair x) (hfore : Foretold x) (N : Nat) (D : List PolicyDoc) (hD : Yields x N D) (n : Nat) (hn : N ≤ n)
    (hold : ∀ (i : Nat) (t : Task), i < (x.state N).pd.tasks.length → (x.state n).pd.tasks[i]? = some t → t.isUpdate = true → t.ret ≠ none)
    (fetch : List (Option PolicyDoc)) (hact : x.act n = .pd (.update fetch)) :
    ∃ M, n ≤ M ∧ ∀ m, M ≤ m → (InForce cfg (sysInit cfg now) (x.hist m) (x.state m) (D.map some) ∧
      ∀ docs, InForce cfg (sysInit cfg now) (x.hist m) (x.state m) docs → docs = D.map some) ∧
      InForceSince cfg (sysInit cfg now) (x.hist m) (x.state m) (x.state N).auth.now ∧
      ∃ i, LastUpdate (x.hist m) (x.state m) i ∧ (x.state N).pd.tasks.length ≤ i := by
  obtain ⟨M, t, hM, ht, hr⟩ := yields_update_ok cfg now x hf hfore N D hD n hn fetch hact
  exact ⟨M, by omega, fun m hm => yields_in_force_at cfg now x N D hD n hn hold M _ t (by omega) (Nat.le_refl _) ht (by rw [hr]; simp) m hm⟩

/-- **C72**.  If the updates called before the change have returned, then once an update called later has returned, exactly the new policies are
in force, for ever. -/
theorem C72_in_force (cfg : SysCfg) (now : Int) (hR : 0 ≤ cfg.fetch.retryAttempts) (x : SysExec cfg now)
    (hf : UpdFair x) (hfore : Foretold x) (N : Nat) (D : List PolicyDoc) (hD : NewPolicies x N D) (n : Nat) (hn : N ≤ n)
    (hold : ∀ (i : Nat) (t : Task), i < (x.state N).pd.tasks.length → (x.state n).pd.tasks[i]? = some t → t.isUpdate = true → t.ret ≠ none)
    (fetch : List (Option PolicyDoc)) (hact : x.act n = .pd (.update fetch)) :
    ∃ M, n ≤ M ∧ ∀ m, M ≤ m → InForce cfg (sysInit cfg now) (x.hist m) (x.state m) (D.map some) ∧
      ∀ docs, InForce cfg (sysInit cfg now) (x.hist m) (x.state m) docs → docs = D.map some :=
  have ⟨M, hM, h⟩ := yields_in_force cfg now x hf hfore N D (hD.yields hR) n hn hold fetch hact
  ⟨M, hM, fun m hm => (h m hm).1⟩

/-- C72 in general.  If `Update` is called again and again, the new policies come into force and stay in force. -/
theorem yields_takes_effect (cfg : SysCfg) (now : Int) (x : SysExec cfg now)
    (hf : UpdFair x) (hfore : Foretold x) (N : Nat) (D : List PolicyDoc) (hD : Yields x N D)
    (hagain : ∀ n, ∃ m fetch, n ≤ m ∧ x.act m = .pd (.update fetch)) :
    ∃ M, N ≤ M ∧ ∀ m, M ≤ m → (InForce cfg (sysInit cfg now) (x.hist m) (x.state m) (D.map some) ∧
      ∀ docs, InForce cfg (sysInit cfg now) (x.hist m) (x.state m) docs → docs = D.map some) ∧
      InForceSince cfg (sysInit cfg now) (x.hist m) (x.state m) (x.state N).auth.now ∧
      ∃ i, LastUpdate (x.hist m) (x.state m) i ∧ (x.state N).pd.tasks.length ≤ i := by
  -- all old updates return
  have hall : ∀ k, k ≤ (x.state N).pd.tasks.length → ∃ m, N ≤ m ∧ ∀ (i : Nat) (t : Task), i < k → (x.state m).pd.tasks[i]? = some t →
      t.isUpdate = true → t.ret ≠ none := by
    intro k
    induction k with
    | zero => intro _; exact ⟨N, Nat.le_refl N, by omega⟩
    | succ k ih =>
      intro hk
      obtain ⟨m, hm, h1⟩ := ih (by omega)
      obtain ⟨tN, htN⟩ := getElem?_of_lt (l := (x.state N).pd.tasks) (i := k) (by omega)
      obtain ⟨m', t', hm', ht', hu, _, hret⟩ := C72_update_returns cfg now x hf hfore N k tN htN
      refine ⟨max m m', by omega, ?_⟩
      intro i t hi ht hup
      by_cases hik : i = k
      · subst hik
        obtain ⟨t2, g1, gu, g2⟩ := ret_stays x (Nat.le_max_right m m') ht'
        rw [g1] at ht
        obtain rfl := Option.some.inj ht
        have hne := hret (by rw [← gu]; exact hup)
        rw [g2 hne]; exact hne
      · obtain ⟨ti, hti⟩ := getElem?_of_lt (l := (x.state m).pd.tasks) (i := i) (by have := tasks_len_mono x hm; omega)
        obtain ⟨t2, g1, gu, g2⟩ := ret_stays x (Nat.le_max_left m m') hti
        rw [g1] at ht
        obtain rfl := Option.some.inj ht
        have hne := h1 i ti (by omega) hti (by rw [← gu]; exact hup)
        rw [g2 hne]; exact hne
  obtain ⟨m0, hm0, hret⟩ := hall _ (Nat.le_refl _)
  obtain ⟨n, fetch, hn, hact⟩ := hagain m0
  obtain ⟨M, hM, h⟩ := yields_in_force cfg now x hf hfore N D hD n (by omega) (by
    intro i t hi ht hup
    obtain ⟨ti, hti⟩ := getElem?_of_lt (l := (x.state m0).pd.tasks) (i := i) (by have := tasks_len_mono x hm0; omega)
    obtain ⟨t2, g1, gu, g2⟩ := ret_stays x hn hti
    rw [g1] at ht
    obtain rfl := Option.some.inj ht
    have hne := hret i ti hi hti (by rw [← gu]; exact hup)
    rw [g2 hne]; exact hne) fetch hact
  exact ⟨M, by omega, h⟩

/-- **C72**.  If `Update` is called again and again, the new policies come into force and stay in force. -/
theorem C72_takes_effect (cfg : SysCfg) (now : Int) (hR : 0 ≤ cfg.fetch.retryAttempts) (x : SysExec cfg now)
    (hf : UpdFair x) (hfore : Foretold x) (N : Nat) (D : List PolicyDoc) (hD : NewPolicies x N D)
    (hagain : ∀ n, ∃ m fetch, n ≤ m ∧ x.act m = .pd (.update fetch)) :
    ∃ M, N ≤ M ∧ ∀ m, M ≤ m → InForce cfg (sysInit cfg now) (x.hist m) (x.state m) (D.map some) ∧
      ∀ docs, InForce cfg (sysInit cfg now) (x.hist m) (x.state m) docs → docs = D.map some :=
  have ⟨M, hM, h⟩ := yields_takes_effect cfg now x hf hfore N D (hD.yields hR) hagain
  ⟨M, hM, fun m hm => (h m hm).1⟩

/-- What a goroutine of an update, or of a refresh, that began after the change got. -/
theorem newFetch {cfg : SysCfg} {now : Int} {x : SysExec cfg now} {N : Nat} {D : List PolicyDoc} (hD : Yields x N D) {m : Nat} (hm : N ≤ m) {i j : Nat}
    (hi : (x.state N).pd.tasks.length ≤ i) {r : Option SignedPolicy} (hr : (x.state m).fetchResult i j = some r) :
    ∃ sp d, r = some sp ∧ d ∈ D ∧ Spec.PolicySays sp d := by
  have hwi := waitAny_run (SysExec.run x N) (SysExec.runFrom x hm)
  obtain ⟨dom, n, retry, e, h1, h2, h3⟩ := fetchResult_calls.mp hr
  have hdom : dom ∈ cfg.domains := by
    have hd := (sysRuns_run (SysExec.run x m)).1.doms
    have h4 := h1
    unfold Sys.domOf at h4
    cases hx : (x.state m).doms[i]? with
    | none => rw [hx] at h4; simp at h4
    | some ds =>
      rw [hx] at h4
      exact hd ds (List.mem_of_getElem? hx) dom (List.mem_of_getElem? h4)
  obtain ⟨l, hl⟩ := List.mem_iff_getElem?.mp hdom
  obtain ⟨d, hd⟩ := getElem?_of_lt (l := D) (i := l) (by rw [hD.len]; exact lt_of_getElem? hl)
  obtain ⟨sp, h4, h5⟩ := hD.calls l dom d hl hd m hm n _ _ _ (hwi.new i j n dom (by rw [(forceAny_run (SysExec.run x N)).len]; exact hi) h2 h1) h3
  exact ⟨sp, d, h4, List.mem_of_getElem? hd, h5⟩

/-- Refreshes that begin while an update called after the change is the last get the new policies. -/
theorem yields_refreshed {cfg : SysCfg} {now : Int} {x : SysExec cfg now} {N : Nat} {D : List PolicyDoc} (hD : Yields x N D) {p m : Nat}
    (hl : ∃ i, LastUpdate (x.hist p) (x.state p) i ∧ (x.state N).pd.tasks.length ≤ i) :
    RefreshedWith cfg (sysInit cfg now) (x.hist p) (x.state p) (x.hist m) (x.state m) (· ∈ D) := by
  intro pre n f post s2 he hr hsame sp d hf hp
  obtain ⟨i, hlu, hi⟩ := hl
  obtain ⟨e1, hlt, _⟩ := hist_split he
  rw [e1, SysExec.run x] at hr
  obtain rfl := Option.some.inj hr
  have hlen : i < (x.state pre.length).pd.tasks.length := by
    rcases hsame with ⟨i', h1, h2⟩ | ⟨h1, _⟩
    · obtain rfl := lastUpdate_unique hlu h1
      obtain ⟨⟨t, ht, _⟩, _⟩ := h2
      exact lt_of_getElem? ht
    · obtain ⟨⟨t, ht, hret⟩, _⟩ := hlu
      exact absurd hret (h1 t (List.mem_of_getElem? ht))
  have hN : N ≤ m := by
    refine Classical.byContradiction fun hc => ?_
    have := tasks_len_mono x (show pre.length ≤ N by omega)
    omega
  obtain ⟨sp', d', h1, h2, h3⟩ := newFetch hD hN (by omega) hf
  obtain rfl := Option.some.inj h1
  rw [← docOf_iff, docOf_iff.mpr hp] at h3
  simp only [Res.ok.injEq] at h3
  rw [h3]; exact h2

/-- What the new policies say about roles for which they are regular stays so when they are refreshed. -/
theorem yields_alike {cfg : SysCfg} {now : Int} {x : SysExec cfg now} {N : Nat} {D : List PolicyDoc} (hD : Yields x N D) {p m : Nat}
    (hl : ∃ i, LastUpdate (x.hist p) (x.state p) i ∧ (x.state N).pd.tasks.length ≤ i) {K : Str → Prop} {t0 T : Int}
    (hreg : ∀ k, K k → RegularAt cfg.auth.U (D.map some) t0 T T k) :
    RefreshedWith cfg (sysInit cfg now) (x.hist p) (x.state p) (x.hist m) (x.state m) (fun d => ∀ k, K k → SaysAlike (D.map some) t0 T k d) :=
  (yields_refreshed hD hl).imp fun d hd k hk => (hreg k hk).alike (List.mem_map.mpr ⟨d, hd, rfl⟩)

/-- **C72**.  A check begun once the new policies are in force decides as they say, where they are regular in the sense of C68, even if they are
refreshed.  Missing: policies that are not regular, for which `C68_refuted` shows that the decision can be another one. -/
theorem C72_check_partial (cfg : SysCfg) (now : Int) (hnow : 0 ≤ now) (hR : 0 ≤ cfg.fetch.retryAttempts)
    (x : SysExec cfg now) (hf : UpdFair x) (hfore : Foretold x) (N : Nat) (D : List PolicyDoc) (hD : NewPolicies x N D)
    (hagain : ∀ n, ∃ m fetch, n ≤ m ∧ x.act m = .pd (.update fetch)) :
    ∃ M, N ≤ M ∧ ∀ m k c r, M ≤ m → (x.state M).pd.checks.length ≤ k → (x.state m).pd.checks[k]? = some c → c.cs.coll = .ret r →
      (∀ role ∈ c.q.roles, RegularAt cfg.auth.U (D.map some) now (x.state m).auth.now (x.state m).auth.now (c.q.domain ++ ":role.".toList ++ role)) →
      Decision cfg.auth.U (allAssertions (D.map some)) c.q r := by
  obtain ⟨M, hM, hin⟩ := yields_takes_effect cfg now x hf hfore N D (hD.yields hR) hagain
  refine ⟨M, hM, fun m k c r hm hk hc hret hreg => ?_⟩
  obtain ⟨h1, h2, s1, docs, hh, hr1, hdocs, _, hdec⟩ := C68_check_partial cfg now hnow (x.hist m) (x.state m)
    (SysExec.run x m) k c r hc hret
  have hr1' := hr1
  obtain ⟨e1, hp1, hp2, _⟩ := hist_split hh
  rw [e1, SysExec.run x] at hr1
  obtain rfl := Option.some.inj hr1
  rw [e1] at hdocs
  simp only [SysExec.hist, List.length_map, List.length_range] at hdocs
  have hge : M ≤ h1.length := by
    refine Classical.byContradiction fun hlt => ?_
    have hst := x.next h1.length
    obtain ⟨_, he⟩ := sysStep_effect hst
    rw [hp2] at he
    obtain ⟨c1, hc1⟩ : ∃ c1, (x.state h1.length).pd.checks[k]? = some c1 := by
      generalize x.state (h1.length + 1) = s' at he
      cases he with
      | pd a pd' D F W ha hp hD hF hbr =>
        unfold pdStep at hp
        split at hp
        · simp at hp
        · cases hck : (x.state h1.length).pd.checks[k]? with
          | none => simp [hck] at hp
          | some c1 => exact ⟨c1, rfl⟩
    have : ∀ m, h1.length ≤ m → ∃ c2, (x.state m).pd.checks[k]? = some c2 := by
      intro m hm
      induction hm with
      | refl => exact ⟨c1, hc1⟩
      | @step m hm ih =>
        obtain ⟨c2, h2⟩ := ih
        obtain ⟨c3, h3, _⟩ := sysStep_chk (x.next m) h2
        exact ⟨c3, h3⟩
    obtain ⟨c2, hc2⟩ := this M (by omega)
    have := lt_of_getElem? hc2
    omega
  have := (hin h1.length hge).1.2 docs hdocs
  subst this
  refine hdec hreg ?_
  have := yields_alike (hD.yields hR) (m := m) (hin h1.length hge).2.2 (K := fun k => ∃ role ∈ c.q.roles, k = c.q.domain ++ ":role.".toList ++ role)
    (by rintro _ ⟨role, hr, rfl⟩; exact hreg role hr)
  rw [e1]
  simpa [SysExec.hist] using this.imp fun d h role hr => h _ ⟨role, hr, rfl⟩

/-- **C72**.  A call begun once the new policies are in force is granted what they allow: its token is valid while it runs, they are regular
for the roles of the token, allow one of them and deny none of them the request, and its context is not cancelled.  Missing: as above. -/
theorem C72_granted_partial (cfg : SysCfg) (now : Int) (hnow : 0 ≤ now) (hpol : cfg.auth.disablePolicyd = false) (hR : 0 ≤ cfg.fetch.retryAttempts)
    (x : SysExec cfg now) (hsf : SysFair x) (hf : UpdFair x) (hfore : Foretold x) (N : Nat) (D : List PolicyDoc) (hD : NewPolicies x N D)
    (hagain : ∀ n, ∃ m fetch, n ≤ m ∧ x.act m = .pd (.update fetch)) :
    ∃ M, N ≤ M ∧ ∀ n i q p, M ≤ n → (x.state n).auth.calls i = some ⟨q, .start⟩ → ModeEnabled cfg.auth q.mode → q.act ≠ [] → q.res ≠ [] →
      (∀ m, n ≤ m → Running x i m → TokenSays cfg.auth (x.state m).auth.now (x.state m).auth.keys (x.state m).auth.jwkp q p) →
      (∀ seed, ∃ act res, Translates cfg.auth seed p.domain q act res) →
      (∀ m role, n ≤ m → Running x i m → role ∈ p.roles →
        RegularAt cfg.auth.U (D.map some) now (x.state m).auth.now (x.state m).auth.now (p.domain ++ ":role.".toList ++ role)) →
      (∀ seed act res, Translates cfg.auth seed p.domain q act res →
        (∃ role ∈ p.roles, Allowed cfg.auth.U (allAssertions (D.map some)) p.domain role act (cfg.auth.resourcePrefix ++ res)) ∧
        ¬ ∃ role ∈ p.roles, Denied cfg.auth.U (allAssertions (D.map some)) p.domain role act (cfg.auth.resourcePrefix ++ res)) →
      (∀ m k, (x.state m).checkOf i = some k → x.act m ≠ .pd (.chk k .cancel)) →
      ∃ m p', n ≤ m ∧ (x.state m).auth.calls i = some ⟨q, .done (.ok p')⟩ := by
  obtain ⟨M, hM, hin⟩ := yields_takes_effect cfg now x hf hfore N D (hD.yields hR) hagain
  refine ⟨M, hM, fun n i q p hn hc hen hact hres htok htr hreg hall hcancel => ?_⟩
  refine C69_granted_partial cfg now hnow hpol x hsf n i q p hc hen hact hres htok htr ?_ hcancel
  intro m m' docs seed act res hm hm' hrun hdocs ht
  obtain rfl := (hin m (by omega)).1.2 docs hdocs
  refine ⟨fun role hr => hreg m' role (by omega) hrun hr, ?_, hall seed act res ht⟩
  exact (yields_alike (hD.yields hR) (hin m (by omega)).2.2 (K := fun k => ∃ role ∈ p.roles, k = p.domain ++ ":role.".toList ++ role)
    (by rintro _ ⟨role, hr, rfl⟩; exact hreg m' role (by omega) hrun hr)).imp fun d h role hr => h _ ⟨role, hr, rfl⟩

/-- Only the fetchers of configured domains are asked. -/
theorem SysExec.noOther {cfg : SysCfg} {now : Int} (x : SysExec cfg now) {dom : Str} (hd : dom ∉ cfg.domains) (n : Nat) :
    ((x.state n).fs dom).calls = [] := by
  induction n with
  | zero => rw [x.init]; rfl
  | succ n ih =>
    have hst := x.next n
    have hbase := (sysRuns_run (SysExec.run x (n + 1))).1.doms
    have hlinks := SysExec.links x n
    have hst' := hst
    obtain ⟨_, he⟩ := sysStep_effect hst
    generalize x.state (n + 1) = s' at he hbase hst'
    generalize x.act n = a at he hst'
    cases he with
    | fetcher dom' b f hb hf =>
      by_cases hdom : dom = dom'
      · subst hdom
        cases b <;> simp_all [FAct.own, fStep]
      · simp only [if_neg hdom]
        exact ih
    | pd b pd' D F W hb hp hD hF hbr =>
      have h2 : sysPd cfg (x.state n) b = some { x.state n with pd := pd', dead := pd'.crashed, doms := D, fs := F, waits := W } := by
        simp only [sysStep] at hst'
        split at hst'
        · simp at hst'
        · exact hst'
      rcases (sysPd_links h2 hlinks.len).fs with ⟨h3, _⟩ | ⟨i, j, dom', f, h3, h4, _, h5, _⟩
      · simp only at h3; simp only [h3]; exact ih
      · simp only at h4
        simp only [h4]
        by_cases hdom : dom = dom'
        · subst hdom
          unfold Sys.domOf at h5
          simp only at h5 hbase
          cases hi : D[i]? with
          | none => rw [hi] at h5; simp at h5
          | some ds =>
            rw [hi] at h5
            exact absurd (hbase ds (List.mem_of_getElem? hi) dom (List.mem_of_getElem? h5)) hd
        · simp only [if_neg hdom]; exact ih
    | _ => exact ih

namespace Ex

/-- The new policy of `dom`: nothing is allowed any more. -/
def chPolicy : SignedPolicy :=
  { data := some { policyData := some ⟨"dom".toList, []⟩, zmsSignature := "m".toList, zmsKeyId := "0".toList, expires := some (auT 5000) },
    signature := "z".toList, keyId := "1".toList }

def chDoc : PolicyDoc := ⟨[], auT 5000⟩

def chDom : Str := "dom".toList

/-- The server has two policies. -/
def chCfg : SysCfg :=
  { syCfg [chDom] with
    fetch := { (syCfg [chDom]).fetch with
      codec := { (syCfg [chDom]).fetch.codec with
        decode := fun b => if b = "A".toList then some (some syPolicy) else if b = "B".toList then some (some chPolicy) else none } } }

/-- The keys and the old policy are loaded. -/
def chPre : List SysAct := syKeys ++ syLoad chDom

/-- Step `r` of update `k`, which gets the new policy. -/
def chStep (k : Nat) : Nat → SysAct
  | 0 => .pd (.update [some chDoc])
  | 2 => .fetcher chDom (.send k)
  | 3 => .fetcher chDom (.answer k (.answer 200 "u".toList "B".toList))
  | 7 => .pd (.finish k)
  | _ => .pd (.task k (.job 0 []))

/-- The old policy is loaded, and then one update after the other gets the new one. -/
def chAct (n : Nat) : SysAct :=
  if n < chPre.length then (chPre[n]?).getD (.tick 0) else chStep (1 + (n - chPre.length) / 8) ((n - chPre.length) % 8)

def chStates : Nat → Sys
  | 0 => sysInit chCfg (auT 1500)
  | n + 1 => (sysStep chCfg (chStates n) (chAct n)).getD (chStates n)

/-- What is the same at all stages, when `k` updates have returned: `ts` and `cs` are the task and the call under way. -/
structure ChBase (k : Nat) (s : Sys) (ts : List Task) (ds : List (List Str)) (cs : List FetchCall) : Prop where
  dead : s.dead = false
  pdOk : s.pd.crashed = false
  fOk : (s.fs chDom).crashed = false
  tasks : ∃ T, s.pd.tasks = T ++ ts ∧ T.length = k ∧ ∀ t ∈ T, t.left = 0
  doms : ∃ D, s.doms = D ++ ds ∧ D.length = k
  calls : ∃ C, (s.fs chDom).calls = C ++ cs ∧ C.length = k ∧ ∀ c ∈ C, ∃ sp e, c.pc = .ret sp e
  ver : verifyPolicy chCfg.fetch.codec (s.fs chDom).keys (s.fs chDom).now (some chPolicy) = .ok ()

/-- Update `k` is under way. -/
def ChMid (k : Nat) (s : Sys) (job : Job) (cs : List FetchCall) : Prop :=
  ∃ o, ChBase k s [⟨o, true, false, [job], none⟩] [[chDom]] cs ∧ (cs ≠ [] → s.waits k 0 = some k)

/-- Before step `r` of update `k`. -/
def ChStage (k : Nat) (s : Sys) : Nat → Prop
  | 0 => ChBase k s [] [] []
  | 1 => ChMid k s (.start (some chDoc)) []
  | 2 => ChMid k s (.fetching (some chDoc)) [⟨true, .loop (-1) none⟩]
  | 3 => ∃ tp, ChMid k s (.fetching (some chDoc)) [⟨true, .sent (-1) tp⟩]
  | 4 => ChMid k s (.fetching (some chDoc)) [⟨true, .ret (some chPolicy) none⟩]
  | 5 => ChMid k s (.merge chDoc chDoc.mergeInit) [⟨true, .ret (some chPolicy) none⟩]
  | 6 => ∃ ttl, ChMid k s (.fill ttl [] none) [⟨true, .ret (some chPolicy) none⟩]
  | 7 => ChMid k s (.done none) [⟨true, .ret (some chPolicy) none⟩]
  | _ => False

theorem ch0 {k : Nat} {s : Sys} (h : ChStage k s 0) : ∃ s', sysStep chCfg s (chStep k 0) = some s' ∧ ChStage k s' 1 := by
  obtain ⟨h1, h2, h3, ⟨T, h4, h5, h6⟩, ⟨D, h7, h8⟩, ⟨C, h9, h10, h11⟩, h13⟩ := h
  refine ⟨_, by simp [sysStep, sysPd, pdStep, chStep, h1, h2, chCfg, syCfg]; rfl, ?_⟩
  refine ⟨s.pd.objs.length, ⟨?_, ?_, h3, ⟨T, ?_, h5, h6⟩, ⟨D, ?_, h8⟩, ⟨C, h9, h10, h11⟩, h13⟩, by simp⟩
  · first | exact h2 | rfl
  · first | exact h2 | rfl
  · simp [h4]
  · simp [h7]

theorem ch1 {k : Nat} {s : Sys} (h : ChStage k s 1) : ∃ s', sysStep chCfg s (chStep k 1) = some s' ∧ ChStage k s' 2 := by
  obtain ⟨o, ⟨h1, h2, h3, ⟨T, h4, h5, h6⟩, ⟨D, h7, h8⟩, ⟨C, h9, h10, h11⟩, h13⟩, _⟩ := h
  have hd : s.domOf k 0 = some chDom := by simp [Sys.domOf, h7, ← h8]
  have ht : s.pd.tasks[k]? = some ⟨o, true, false, [.start (some chDoc)], none⟩ := by simp [h4, ← h5]
  refine ⟨_, by simp [sysStep, sysPd, pdStep, chStep, h1, h2, ht, updStep, PdState.taskView, hd, Sys.callFetcher, fStep, h3]; rfl, ?_⟩
  refine ⟨o, ⟨?_, ?_, ?_, ⟨T, ?_, h5, h6⟩, ⟨D, h7, h8⟩, ⟨C, ?_, h10, h11⟩, ?_⟩, ?_⟩
  · first | exact h2 | rfl
  · first | exact h2 | rfl
  · simp
  · simp [h4, ← h5]
  · simp [h9]
  · simp [h13]
  · simp [h9, h10]

theorem ch2 {k : Nat} {s : Sys} (h : ChStage k s 2) : ∃ s', sysStep chCfg s (chStep k 2) = some s' ∧ ChStage k s' 3 := by
  obtain ⟨o, ⟨h1, h2, h3, ⟨T, h4, h5, h6⟩, ⟨D, h7, h8⟩, ⟨C, h9, h10, h11⟩, h13⟩, hw⟩ := h
  have hc : (s.fs chDom).calls[k]? = some ⟨true, .loop (-1) none⟩ := by simp [h9, ← h10]
  have hR : (-1 : Int) < chCfg.fetch.retryAttempts := by decide
  refine ⟨_, by simp only [sysStep, chStep, h1, fStep, h3, hc]; simp [hR]; rfl, ?_⟩
  refine ⟨(s.fs chDom).cache, o, ⟨?_, ?_, ?_, ⟨T, h4, h5, h6⟩, ⟨D, h7, h8⟩, ⟨C, ?_, h10, h11⟩, ?_⟩, ?_⟩
  · simp
  · first | exact h2 | rfl
  · simp
  · simp [h9, ← h10]
  · simp [h13]
  · intro _; exact hw (by simp)

theorem ch3 {k : Nat} {s : Sys} (h : ChStage k s 3) : ∃ s', sysStep chCfg s (chStep k 3) = some s' ∧ ChStage k s' 4 := by
  obtain ⟨tp, o, ⟨h1, h2, h3, ⟨T, h4, h5, h6⟩, ⟨D, h7, h8⟩, ⟨C, h9, h10, h11⟩, h13⟩, hw⟩ := h
  have hc : (s.fs chDom).calls[k]? = some ⟨true, .sent (-1) tp⟩ := by simp [h9, ← h10]
  have hans : ∃ t, fetchAnswer chCfg.fetch tp (s.fs chDom).keys (s.fs chDom).now (.answer 200 "u".toList "B".toList) = (.ok chPolicy, some t) := by
    have hdec : chCfg.fetch.codec.decode "B".toList = some (some chPolicy) := by decide
    simp only [fetchAnswer, hdec, h13]
    exact ⟨_, rfl⟩
  obtain ⟨t, hans⟩ := hans
  refine ⟨_, by simp only [sysStep, chStep, h1, fStep, h3, hc, hans]; rfl, ?_⟩
  refine ⟨o, ⟨?_, ?_, ?_, ⟨T, h4, h5, h6⟩, ⟨D, h7, h8⟩, ⟨C, ?_, h10, h11⟩, ?_⟩, ?_⟩
  · first | exact h3 | rfl
  · first | exact h2 | rfl
  · simp
  · simp [h9, ← h10]
  · simp [h13]
  · intro _; exact hw (by simp)

theorem ch4 {k : Nat} {s : Sys} (h : ChStage k s 4) : ∃ s', sysStep chCfg s (chStep k 4) = some s' ∧ ChStage k s' 5 := by
  obtain ⟨o, ⟨h1, h2, h3, ⟨T, h4, h5, h6⟩, ⟨D, h7, h8⟩, ⟨C, h9, h10, h11⟩, h13⟩, hw⟩ := h
  have hd : s.domOf k 0 = some chDom := by simp [Sys.domOf, h7, ← h8]
  have ht : s.pd.tasks[k]? = some ⟨o, true, false, [.fetching (some chDoc)], none⟩ := by simp [h4, ← h5]
  have hc : (s.fs chDom).calls[k]? = some ⟨true, .ret (some chPolicy) none⟩ := by simp [h9, ← h10]
  have hr : s.fetchResult k 0 = some (some chPolicy) := by simp [Sys.fetchResult, hd, hw (by simp), hc]
  have hm : fetchMatches (some chPolicy) (some chDoc) := by decide
  refine ⟨_, by simp [sysStep, sysPd, pdStep, chStep, h1, h2, ht, updStep, PdState.taskView, hr, hm]; rfl, ?_⟩
  refine ⟨o, ⟨?_, ?_, h3, ⟨T, ?_, h5, h6⟩, ⟨D, h7, h8⟩, ⟨C, h9, h10, h11⟩, h13⟩, fun _ => hw (by simp)⟩
  · first | exact h2 | rfl
  · first | exact h2 | rfl
  · simp [h4, ← h5]

theorem ch5 {k : Nat} {s : Sys} (h : ChStage k s 5) : ∃ s', sysStep chCfg s (chStep k 5) = some s' ∧ ChStage k s' 6 := by
  obtain ⟨o, ⟨h1, h2, h3, ⟨T, h4, h5, h6⟩, ⟨D, h7, h8⟩, ⟨C, h9, h10, h11⟩, h13⟩, hw⟩ := h
  have ht : s.pd.tasks[k]? = some ⟨o, true, false, [.merge chDoc chDoc.mergeInit], none⟩ := by simp [h4, ← h5]
  have e1 : chDoc.mergeInit.finished = true := by decide
  have e2 : chDoc.mergeInit.failed = false := by decide
  have e3 : chDoc.mergeInit.map = [] := rfl
  refine ⟨_, by simp [sysStep, sysPd, pdStep, chStep, h1, h2, ht, updStep, PdState.taskView, e1, e2, e3]; rfl, ?_⟩
  refine ⟨satSub chDoc.expires s.pd.now, o, ⟨?_, ?_, h3, ⟨T, ?_, h5, h6⟩, ⟨D, h7, h8⟩, ⟨C, h9, h10, h11⟩, h13⟩, fun _ => hw (by simp)⟩
  · first | exact h2 | rfl
  · first | exact h2 | rfl
  · simp [h4, ← h5]

theorem ch6 {k : Nat} {s : Sys} (h : ChStage k s 6) : ∃ s', sysStep chCfg s (chStep k 6) = some s' ∧ ChStage k s' 7 := by
  obtain ⟨ttl, o, ⟨h1, h2, h3, ⟨T, h4, h5, h6⟩, ⟨D, h7, h8⟩, ⟨C, h9, h10, h11⟩, h13⟩, hw⟩ := h
  have ht : s.pd.tasks[k]? = some ⟨o, true, false, [.fill ttl [] none], none⟩ := by simp [h4, ← h5]
  refine ⟨_, by simp [sysStep, sysPd, pdStep, chStep, h1, h2, ht, updStep, PdState.taskView]; rfl, ?_⟩
  refine ⟨o, ⟨?_, ?_, h3, ⟨T, ?_, h5, h6⟩, ⟨D, h7, h8⟩, ⟨C, h9, h10, h11⟩, h13⟩, fun _ => hw (by simp)⟩
  · first | exact h2 | rfl
  · first | exact h2 | rfl
  · simp [h4, ← h5]

theorem ch7 {k : Nat} {s : Sys} (h : ChStage k s 7) : ∃ s', sysStep chCfg s (chStep k 7) = some s' ∧ ChStage (k + 1) s' 0 := by
  obtain ⟨o, ⟨h1, h2, h3, ⟨T, h4, h5, h6⟩, ⟨D, h7, h8⟩, ⟨C, h9, h10, h11⟩, h13⟩, hw⟩ := h
  have ht : s.pd.tasks[k]? = some ⟨o, true, false, [.done none], none⟩ := by simp [h4, ← h5]
  have e1 : (⟨o, true, false, [.done none], none⟩ : Task).allDone = true := rfl
  have e2 : (⟨o, true, false, [.done none], none⟩ : Task).allOk = true := rfl
  refine ⟨_, by simp [sysStep, sysPd, pdStep, chStep, h1, h2, ht, e1, e2]; rfl, ?_⟩
  refine ⟨?_, ?_, h3, ⟨T ++ [⟨o, true, false, [.done none], some true⟩], ?_, by simp [h5], ?_⟩, ⟨D ++ [[chDom]], by simp [h7], by simp [h8]⟩,
      ⟨C ++ [⟨true, .ret (some chPolicy) none⟩], by simp [h9], by simp [h10], ?_⟩, h13⟩
  · first | exact h2 | rfl
  · first | exact h2 | rfl
  · simp [h4, ← h5]
  · intro t htm
    rcases List.mem_append.mp htm with htm | htm
    · exact h6 t htm
    · rw [List.mem_singleton.mp htm]; rfl
  · intro c hcm
    rcases List.mem_append.mp hcm with hcm | hcm
    · exact h11 c hcm
    · rw [List.mem_singleton.mp hcm]; exact ⟨_, _, rfl⟩

theorem chNext {k r : Nat} {s : Sys} (hr : r < 8) (h : ChStage k s r) :
    ∃ s', sysStep chCfg s (chStep k r) = some s' ∧ if r = 7 then ChStage (k + 1) s' 0 else ChStage k s' (r + 1) := by
  match r, hr, h with
  | 0, _, h => simpa using ch0 h
  | 1, _, h => simpa using ch1 h
  | 2, _, h => simpa using ch2 h
  | 3, _, h => simpa using ch3 h
  | 4, _, h => simpa using ch4 h
  | 5, _, h => simpa using ch5 h
  | 6, _, h => simpa using ch6 h
  | 7, _, h => simpa using ch7 h

def chLen : Nat := 23

theorem chLen_eq : chPre.length = chLen := by decide

/-- What the old policy leaves behind. -/
def chDoneB (s : Sys) : Bool :=
  !s.dead && !s.pd.crashed && !(s.fs chDom).crashed && decide (s.pd.tasks.map Task.left = [0]) && decide (s.doms.length = 1) &&
    decide ((s.fs chDom).calls = [⟨true, .ret (some syPolicy) none⟩]) &&
    decide (verifyPolicy chCfg.fetch.codec (s.fs chDom).keys (s.fs chDom).now (some chPolicy) = .ok ())

theorem chSteps : ∀ n, n < chLen → (sysStep chCfg (chStates n) (chAct n)).isSome = true := by decide +kernel

theorem chEnds : chDoneB (chStates chLen) = true := by decide +kernel

theorem chAct_late (j r : Nat) (hr : r < 8) : chAct (chLen + (8 * j + r)) = chStep (1 + j) r := by
  unfold chAct
  rw [chLen_eq, if_neg (by omega), show chLen + (8 * j + r) - chLen = 8 * j + r by omega, show (8 * j + r) / 8 = j by omega,
    show (8 * j + r) % 8 = r by omega]

theorem chFirst : ChStage 1 (chStates chLen) 0 := by
  have h := chEnds
  simp only [chDoneB, Bool.and_eq_true, Bool.not_eq_true', decide_eq_true_eq] at h
  obtain ⟨⟨⟨⟨⟨⟨h1, h2⟩, h3⟩, h4⟩, h5⟩, h6⟩, h7⟩ := h
  refine ⟨h1, h2, h3, ⟨(chStates chLen).pd.tasks, by simp, ?_, ?_⟩, ⟨(chStates chLen).doms, by simp, h5⟩, ⟨(((chStates chLen).fs chDom)).calls, by simp, ?_, ?_⟩, h7⟩
  · have := congrArg List.length h4
    simpa using this
  · intro t ht
    have := List.mem_map_of_mem (f := Task.left) ht
    rw [h4] at this
    simpa using this
  · rw [h6]; rfl
  · rw [h6]
    intro c hc
    rw [List.mem_singleton.mp hc]
    exact ⟨_, _, rfl⟩

theorem chStage (j r : Nat) (hr : r < 8) : ChStage (1 + j) (chStates (chLen + (8 * j + r))) r := by
  generalize hv : 8 * j + r = v
  induction v generalizing j r with
  | zero =>
    obtain ⟨rfl, rfl⟩ : j = 0 ∧ r = 0 := by omega
    exact chFirst
  | succ v ih =>
    have hstep : ∀ j' r', r' < 8 → 8 * j' + r' = v → (if r' = 7 then ChStage (1 + j' + 1) (chStates (chLen + (v + 1))) 0
        else ChStage (1 + j') (chStates (chLen + (v + 1))) (r' + 1)) := by
      intro j' r' hr' hv'
      obtain ⟨s', hs, hn⟩ := chNext hr' (ih j' r' hr' hv')
      have : chStates (chLen + (v + 1)) = s' := by
        show (sysStep chCfg (chStates (chLen + v)) (chAct (chLen + v))).getD _ = s'
        rw [← hv', chAct_late j' r' hr', hv', hs]
        rfl
      rw [this]
      exact hn
    by_cases h0 : r = 0
    · subst h0
      have := hstep (j - 1) 7 (by omega) (by omega)
      simpa [show 1 + (j - 1) + 1 = 1 + j by omega] using this
    · have := hstep j (r - 1) (by omega) (by omega)
      rw [if_neg (by omega), show r - 1 + 1 = r by omega] at this
      exact this

theorem chLate {n : Nat} (h : chLen ≤ n) : ∃ j r, r < 8 ∧ n = chLen + (8 * j + r) :=
  ⟨(n - chLen) / 8, (n - chLen) % 8, Nat.mod_lt _ (by omega), by omega⟩

/-- An execution in which the policy changes, and `Update` is called again and again. -/
def chExec : SysExec chCfg (auT 1500) where
  state := chStates
  act := chAct
  init := rfl
  next := by
    intro n
    show sysStep chCfg (chStates n) (chAct n) = some ((sysStep chCfg (chStates n) (chAct n)).getD (chStates n))
    have hsome : ∃ s, sysStep chCfg (chStates n) (chAct n) = some s := by
      by_cases hn : n < chLen
      · exact Option.isSome_iff_exists.mp (chSteps n hn)
      · obtain ⟨j, r, hr, rfl⟩ := chLate (Nat.le_of_not_lt hn)
        obtain ⟨s', hs, _⟩ := chNext hr (chStage j r hr)
        rw [chAct_late j r hr]
        exact ⟨s', hs⟩
    obtain ⟨s, hs⟩ := hsome
    rw [hs]; rfl

/-- No call and no check is made. -/
def chPlain : SysAct → Bool
  | .pk _ => true
  | .fetcher _ _ => true
  | .pd (.update _) => true
  | .pd (.task _ _) => true
  | .pd (.finish _) => true
  | _ => false

theorem chPlain_act (n : Nat) : chPlain (chAct n) = true := by
  by_cases hn : n < chLen
  · exact (by decide +kernel : ∀ n, n < chLen → chPlain (chAct n) = true) n hn
  · obtain ⟨j, r, hr, rfl⟩ := chLate (Nat.le_of_not_lt hn)
    rw [chAct_late j r hr]
    match r, hr with
    | 0, _ => rfl
    | 1, _ => rfl
    | 2, _ => rfl
    | 3, _ => rfl
    | 4, _ => rfl
    | 5, _ => rfl
    | 6, _ => rfl
    | 7, _ => rfl

theorem chAlone (n : Nat) : (chExec.state n).pd.checks = [] ∧ (∀ i, (chExec.state n).auth.calls i = none) ∧
    ∀ k, (chExec.state n).auth.sess k = none := by
  induction n with
  | zero => exact ⟨rfl, fun _ => rfl, fun _ => rfl⟩
  | succ n ih =>
    obtain ⟨_, he⟩ := sysStep_effect (chExec.next n)
    have hp : chPlain (chExec.act n) = true := chPlain_act n
    generalize chExec.act n = a at he hp
    generalize chExec.state (n + 1) = s' at he
    obtain ⟨ih1, ih2⟩ := ih
    cases he with
    | pd b pd' D F W hb h =>
      refine ⟨?_, ih2⟩
      cases b <;> first
        | (simp [chPlain] at hp; done)
        | (simp only [pdStep] at h
           repeat' split at h
           all_goals first
             | (simp at h; done)
             | (simp only [Option.some.injEq] at h; rw [← h]; exact ih1))
    | pk => exact ⟨ih1, ih2⟩
    | fetcher => exact ⟨ih1, ih2⟩
    | _ => simp [chPlain] at hp

theorem chSysFair : SysFair chExec := by
  intro th n h
  exfalso
  obtain ⟨a, ha, hs⟩ := h (chLen + (8 * n + 0)) (by omega)
  obtain ⟨s', hs⟩ := Option.isSome_iff_exists.mp hs
  obtain ⟨hchecks, hcalls, hsess⟩ := chAlone (chLen + (8 * n + 0))
  generalize chExec.state (chLen + (8 * n + 0)) = s at ha hs hchecks hcalls hsess
  obtain ⟨_, he⟩ := sysStep_effect hs
  have hchk : ∀ k, ¬ OfCheck k a := by
    intro k hk
    cases he with
    | pd b pd' D F W hb hp =>
      cases b with
      | load k' => simp [pdStep, hchecks] at hp
      | chk k' b => simp [pdStep, hchecks] at hp
      | _ => simp [OfCheck] at hk
    | _ => simp [OfCheck] at hk
  have hcall : ∀ i, ¬ OfCall s i a := by
    rintro i (⟨k, _, hk⟩ | hi)
    · exact hchk k hk
    · cases he with
      | auth b auth' hb hst =>
        cases b with
        | get j => simp [aStep, hcalls] at hst
        | validate j => simp [aStep, hcalls] at hst
        | translate j seed => simp [aStep, hcalls] at hst
        | store j => simp [aStep, hcalls] at hst
        | _ => exact hi.elim
      | beginCheck j q p act res pd' hcl => rw [hcalls] at hcl; simp at hcl
      | endCheck j view sched k c r auth' hk hck hl hret hv hst => simp [aStep, hcalls] at hst
      | _ => exact hi.elim
  cases th with
  | check k => exact hchk k ha
  | call i => exact hcall i ha
  | sess k =>
    rcases ha with ⟨i, rfl⟩ | rfl | ⟨y, i, hy, _, hi⟩
    · cases he with | auth b auth' hb hst => simp [aStep, hsess k] at hst
    · cases he with | auth b auth' hb hst => simp [aStep, hsess k] at hst
    · exact hcall i hi

theorem chFair : UpdFair chExec := by
  intro th n h
  exfalso
  cases th with
  | fetch dom k =>
    obtain ⟨a, ha, hs⟩ := h (chLen + (8 * (n + k) + 0)) (by omega)
    obtain ⟨s', hs⟩ := Option.isSome_iff_exists.mp hs
    have hst : ChStage (1 + (n + k)) (chExec.state (chLen + (8 * (n + k) + 0))) 0 := chStage (n + k) 0 (by omega)
    have hno : dom ∉ chCfg.domains → ((chExec.state (chLen + (8 * (n + k) + 0))).fs dom).calls = [] := fun hd => SysExec.noOther chExec hd _
    generalize chExec.state (chLen + (8 * (n + k) + 0)) = s at hs hst hno
    obtain ⟨h1, h2, h3, _, _, ⟨C, h9, h10, h11⟩, _⟩ := hst
    have hcall : ∀ c, (s.fs dom).calls[k]? = some c → ∃ sp e, c.pc = .ret sp e := by
      intro c hc
      by_cases hd : dom = chDom
      · subst hd
        rw [h9, List.append_nil] at hc
        exact h11 c (List.mem_of_getElem? hc)
      · rw [hno (by simpa [chCfg, syCfg] using hd)] at hc
        simp at hc
    obtain ⟨_, he⟩ := sysStep_effect hs
    cases he with
    | fetcher dom' b f hb hf =>
      have : dom' = dom ∧ b.ofCall k := by cases b <;> simp_all [UpdThread.Does, OfFetch, FAct.ofCall]
      obtain ⟨rfl, hk⟩ := this
      cases hck : (s.fs dom').calls[k]? with
      | none => cases b <;> simp_all [FAct.ofCall, fStep]
      | some c =>
        obtain ⟨retry, pc⟩ := c
        obtain ⟨sp, e, hpc⟩ := hcall _ hck
        simp only at hpc
        subst hpc
        cases b <;> simp_all [FAct.ofCall, fStep]
    | pd b => cases b <;> simp [UpdThread.Does, OfFetch] at ha
    | _ => simp [UpdThread.Does, OfFetch] at ha
  | update i =>
    obtain ⟨a, ha, hs⟩ := h (chLen + (8 * (n + i) + 0)) (by omega)
    obtain ⟨s', hs⟩ := Option.isSome_iff_exists.mp hs
    have hst : ChStage (1 + (n + i)) (chExec.state (chLen + (8 * (n + i) + 0))) 0 := chStage (n + i) 0 (by omega)
    obtain ⟨_, _, _, ⟨T, h4, h5, h6⟩, _⟩ := hst
    rw [List.append_nil] at h4
    obtain ⟨t, ht⟩ := getElem?_of_lt (l := T) (i := i) (by omega)
    obtain ⟨t', _, _, hl⟩ := sysStep_work hs (by rw [h4]; exact ht) ha
    rw [h6 t (List.mem_of_getElem? ht)] at hl
    omega

theorem chNew : NewPolicies chExec chLen [chDoc] := by
  refine ⟨rfl, ?_, ?_, ?_⟩
  · intro j dom d hdom hd n hn k r hact
    obtain ⟨i, r', hr', rfl⟩ := chLate hn
    have hst : ChStage (1 + i) (chExec.state (chLen + (8 * i + r'))) r' := chStage i r' hr'
    have hact' : chStep (1 + i) r' = .fetcher dom (.answer k r) := by rw [← chAct_late i r' hr']; exact hact
    obtain rfl : r' = 3 := by
      match r', hr' with
      | 0, _ => simp [chStep] at hact'
      | 1, _ => simp [chStep] at hact'
      | 2, _ => simp [chStep] at hact'
      | 3, _ => rfl
      | 4, _ => simp [chStep] at hact'
      | 5, _ => simp [chStep] at hact'
      | 6, _ => simp [chStep] at hact'
      | 7, _ => simp [chStep] at hact'
    simp only [chStep, SysAct.fetcher.injEq, FAct.answer.injEq] at hact'
    obtain ⟨rfl, rfl, rfl⟩ := hact'
    have hd' : d = chDoc := by
      cases j with
      | zero => simpa using hd.symm
      | succ j => simp at hd
    subst hd'
    obtain ⟨tp, o, ⟨h1, h2, h3, _, _, ⟨C, h9, h10, h11⟩, h13⟩, _⟩ := hst
    refine ⟨chPolicy, .inl ⟨"u".toList, 1 + i, "B".toList, rfl, ⟨⟨true, .sent (-1) tp⟩, -1, tp, ?_, rfl⟩, by decide, verifyPolicy_ok.mp h13⟩, docOf_iff.mp (by decide)⟩
    rw [h9, ← h10]
    simp
  · intro d hd a ha
    rw [List.mem_singleton.mp hd] at ha
    simp [chDoc] at ha
  · intro n i hn hact
    obtain ⟨j, r, hr, rfl⟩ := chLate hn
    have hact' : chStep (1 + j) r = .pd (.task i .cancel) := by rw [← chAct_late j r hr]; exact hact
    match r, hr with
    | 0, _ => simp [chStep] at hact'
    | 1, _ => simp [chStep] at hact'
    | 2, _ => simp [chStep] at hact'
    | 3, _ => simp [chStep] at hact'
    | 4, _ => simp [chStep] at hact'
    | 5, _ => simp [chStep] at hact'
    | 6, _ => simp [chStep] at hact'
    | 7, _ => simp [chStep] at hact'

theorem chNoHook : ∀ n j f, chExec.act n ≠ .pd (.hook j f) := by
  intro n j f hact
  by_cases hn : n < chLen
  · have hall : ∀ n, n < chLen → (match chAct n with | .pd (.hook _ _) => false | _ => true) = true := by decide +kernel
    have := hall n hn
    have hact' : chAct n = .pd (.hook j f) := hact
    rw [hact'] at this
    simp at this
  · obtain ⟨i, r, hr, rfl⟩ := chLate (Nat.le_of_not_lt hn)
    have hact' : chStep (1 + i) r = .pd (.hook j f) := by rw [← chAct_late i r hr]; exact hact
    match r, hr with
    | 0, _ => simp [chStep] at hact'
    | 1, _ => simp [chStep] at hact'
    | 2, _ => simp [chStep] at hact'
    | 3, _ => simp [chStep] at hact'
    | 4, _ => simp [chStep] at hact'
    | 5, _ => simp [chStep] at hact'
    | 6, _ => simp [chStep] at hact'
    | 7, _ => simp [chStep] at hact'

/-- What the first update was going to get is what it gets. -/
def chForeB (s : Sys) : Bool :=
  (List.range s.pd.tasks.length).all fun i => match s.pd.tasks[i]? with
    | none => true
    | some t => (List.range t.jobs.length).all fun j => match t.jobs[j]? with
      | some (.fetching f) => match s.fetchResult i j with
        | some r => decide (fetchMatches r f)
        | none => true
      | _ => true

theorem chForeB_spec {s : Sys} (h : chForeB s = true) {i j : Nat} {t : Task} {f : Option PolicyDoc} {r : Option SignedPolicy}
    (ht : s.pd.tasks[i]? = some t) (hj : t.jobs[j]? = some (.fetching f)) (hr : s.fetchResult i j = some r) : fetchMatches r f := by
  unfold chForeB at h
  rw [List.all_eq_true] at h
  have := h i (List.mem_range.mpr (lt_of_getElem? ht))
  rw [ht] at this
  simp only [List.all_eq_true] at this
  have := this j (List.mem_range.mpr (lt_of_getElem? hj))
  rw [hj] at this
  simpa [hr] using this

theorem chForetold : Foretold chExec := by
  intro n i j t f r ht hj hr
  by_cases hn : n < chLen
  · have hall : ∀ n, n < chLen → chForeB (chStates n) = true := by decide +kernel
    exact asSaid_iff.mp (chForeB_spec (hall n hn) ht hj hr)
  · obtain ⟨k, q, hq, rfl⟩ := chLate (Nat.le_of_not_lt hn)
    have hst : ChStage (1 + k) (chExec.state (chLen + (8 * k + q))) q := chStage k q hq
    have hlen : (chExec.state chLen).pd.tasks.length = 1 := by
      obtain ⟨_, _, _, ⟨T, h4, h5, _⟩, _⟩ := chFirst
      show (chStates chLen).pd.tasks.length = 1
      rw [h4, List.append_nil, h5]
    have old : ∀ (T : List Task), (∀ t ∈ T, t.left = 0) → t ∈ T → False := by
      intro T hT htm
      obtain ⟨e, he⟩ := Task.allDone_iff.mp (Task.left_zero (hT t htm)).1 _ (List.mem_of_getElem? hj)
      simp at he
    have key : ∀ o job cs, ChBase (1 + k) (chExec.state (chLen + (8 * k + q))) [⟨o, true, false, [job], none⟩] [[chDom]] cs →
        job = .fetching f ∧ 1 ≤ i ∧ t.isUpdate = true := by
      rintro o job cs ⟨_, _, _, ⟨T, h4, h5, h6⟩, _⟩
      rw [h4] at ht
      rcases getElem?_append_cases ht with ht | ⟨hi, rfl⟩
      · exact (old T h6 (List.mem_of_getElem? ht)).elim
      · refine ⟨?_, by omega, rfl⟩
        cases j with
        | zero => simpa using hj
        | succ j => simp at hj
    have fin : (Job.fetching (some chDoc)) = .fetching f → 1 ≤ i → t.isUpdate = true → AsSaid r f := by
      intro hf hi hu
      simp only [Job.fetching.injEq] at hf
      subst hf
      obtain ⟨sp, d, rfl, hd, hdoc⟩ := newResult (chNew.yields (by decide)) (by omega : chLen ≤ chLen + (8 * k + q)) (by rw [hlen]; exact hi) ht hu hr
      have : d = chDoc := by
        cases j with
        | zero => simpa using hd.symm
        | succ j => simp at hd
      subst this
      exact ⟨_, rfl, hdoc⟩
    match q, hq, hst with
    | 0, _, hst =>
      obtain ⟨_, _, _, ⟨T, h4, h5, h6⟩, _⟩ := hst
      rw [h4, List.append_nil] at ht
      exact (old T h6 (List.mem_of_getElem? ht)).elim
    | 1, _, ⟨o, hb, _⟩ => have := (key o _ _ hb).1; simp at this
    | 2, _, ⟨o, hb, _⟩ => exact fin (key o _ _ hb).1 (key o _ _ hb).2.1 (key o _ _ hb).2.2
    | 3, _, ⟨tp, o, hb, _⟩ => exact fin (key o _ _ hb).1 (key o _ _ hb).2.1 (key o _ _ hb).2.2
    | 4, _, ⟨o, hb, _⟩ => exact fin (key o _ _ hb).1 (key o _ _ hb).2.1 (key o _ _ hb).2.2
    | 5, _, ⟨o, hb, _⟩ => have := (key o _ _ hb).1; simp at this
    | 6, _, ⟨tp, o, hb, _⟩ => have := (key o _ _ hb).1; simp at this
    | 7, _, ⟨o, hb, _⟩ => have := (key o _ _ hb).1; simp at this

theorem chAgain (n : Nat) : ∃ m fetch, n ≤ m ∧ chExec.act m = .pd (.update fetch) :=
  ⟨chLen + (8 * n + 0), [some chDoc], by omega, chAct_late n 0 (by omega)⟩

end Ex

/-- A fair execution in which one policy is loaded first and then another one is served, so that the theorems above are about something: a policy
that allows something is in force when the change comes, and one that allows nothing comes into force. -/
example : Ex.chCfg.auth.disablePolicyd = false ∧ 0 ≤ Ex.chCfg.fetch.retryAttempts ∧ SysFair Ex.chExec ∧ UpdFair Ex.chExec ∧ Foretold Ex.chExec ∧
    NewPolicies Ex.chExec Ex.chLen [Ex.chDoc] ∧ (∀ n, ∃ m fetch, n ≤ m ∧ Ex.chExec.act m = .pd (.update fetch)) ∧
    InForce Ex.chCfg (sysInit Ex.chCfg (Ex.auT 1500)) (Ex.chExec.hist Ex.chLen) (Ex.chExec.state Ex.chLen) [some ⟨[[Ex.syRaw]], Ex.auT 5000⟩] := by
  refine ⟨rfl, by decide, Ex.chSysFair, Ex.chFair, Ex.chForetold, Ex.chNew, Ex.chAgain, ?_⟩
  have h := C68_in_force Ex.chCfg (Ex.auT 1500) _ _ (hist_noHook Ex.chNoHook Ex.chLen) (SysExec.run Ex.chExec Ex.chLen)
  have hl : (Ex.chExec.state Ex.chLen).pd.liveDocs = [some ⟨[[Ex.syRaw]], Ex.auT 5000⟩] := by decide +kernel
  rw [hl] at h
  exact h

/-- At the moment of the change the one older update has returned, and the next one is called. -/
example : (∀ (i : Nat) (t : Task), i < (Ex.chExec.state Ex.chLen).pd.tasks.length → (Ex.chExec.state Ex.chLen).pd.tasks[i]? = some t → t.ret ≠ none) ∧
    Ex.chExec.act Ex.chLen = .pd (.update [some Ex.chDoc]) := by
  refine ⟨?_, Ex.chAct_late 0 0 (by omega)⟩
  have hall : (Ex.chExec.state Ex.chLen).pd.tasks.all (fun t => decide (t.ret ≠ none)) = true := by decide +kernel
  intro i t _ ht
  have := List.all_eq_true.mp hall t (List.mem_of_getElem? ht)
  simpa using this

/-- So the old permission is withdrawn. -/
example : ∃ M, Ex.chLen ≤ M ∧ ∀ m, M ≤ m → ∀ docs,
    InForce Ex.chCfg (sysInit Ex.chCfg (Ex.auT 1500)) (Ex.chExec.hist m) (Ex.chExec.state m) docs → docs = [some ⟨[], Ex.auT 5000⟩] := by
  obtain ⟨M, hM, h⟩ := C72_takes_effect Ex.chCfg (Ex.auT 1500) (by decide) Ex.chExec Ex.chFair Ex.chForetold Ex.chLen [Ex.chDoc] Ex.chNew Ex.chAgain
  exact ⟨M, hM, fun m hm docs hd => (h m hm).2 docs hd⟩

end Athenz
