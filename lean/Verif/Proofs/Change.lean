import Verif.Spec.Change
import Verif.Proofs.InForce
import Verif.Proofs.FreshLive
import Verif.Proofs.PdTerm
import Verif.Proofs.UpdResult
import Verif.Proofs.Fair

/-! Calls of the fetchers and of `Update` in the assembled system: what waits for what, and that all of it goes on. -/

namespace Athenz

open Spec

theorem asSaid_iff {r : Option SignedPolicy} {f : Option PolicyDoc} : fetchMatches r f ↔ AsSaid r f := by
  cases r <;> cases f <;> simp [fetchMatches, AsSaid, docOf_iff]

/-! ### Calls of a fetcher -/

/-- How far a call of `FetchWithRetry` is from its end. -/
def FetchPc.left (R : Int) : FetchPc → Nat
  | .loop i _ => 2 * (R - i).toNat + 2
  | .sent i _ => 2 * (R - i).toNat + 1
  | .ret _ _ => 0

def FAct.ofCall (n : Nat) : FAct → Prop
  | .send k => k = n
  | .answer k _ => k = n
  | .giveUp k => k = n
  | _ => False

/-- Every call is one of `FetchWithRetry`, and a request is only sent while there are attempts left. -/
def CallsOk (R : Int) (f : FState) : Prop :=
  ∀ (n : Nat) (retry : Bool) (pc : FetchPc), f.calls[n]? = some ⟨retry, pc⟩ → retry = true ∧ ∀ i tp, pc = .sent i tp → i < R

theorem CallsOk.step {cfg : FetchCfg} {f f' : FState} {a : FAct} (h : CallsOk cfg.retryAttempts f) (hs : fStep cfg f a = some f')
    (ha : a ≠ .call false) : CallsOk cfg.retryAttempts f' := by
  unfold fStep at hs
  split at hs
  · simp at hs
  have set : ∀ (j : Nat) (pc : FetchPc) (c : List FetchCall), (∀ i tp, pc = .sent i tp → i < cfg.retryAttempts) → c = f.calls.set j ⟨true, pc⟩ →
      ∀ (n : Nat) (retry : Bool) (pc : FetchPc), c[n]? = some ⟨retry, pc⟩ → retry = true ∧ ∀ i tp, pc = .sent i tp → i < cfg.retryAttempts := by
    rintro j pc c hpc rfl n retry pc' hn
    rcases getElem?_set_cases' hn with ⟨rfl, hx⟩ | ⟨_, hn⟩
    · simp only [FetchCall.mk.injEq] at hx
      obtain ⟨rfl, rfl⟩ := hx
      exact ⟨rfl, hpc⟩
    · exact h n retry pc' hn
  cases a with
  | tick d => simp only [Option.some.injEq] at hs; subst hs; exact h
  | setKeys ks => simp only [Option.some.injEq] at hs; subst hs; exact h
  | call retry =>
    simp only [Option.some.injEq] at hs; subst hs
    intro n r pc hn
    rcases getElem?_append_cases hn with hn | ⟨_, hx⟩
    · exact h n r pc hn
    · simp only [FetchCall.mk.injEq] at hx
      obtain ⟨rfl, rfl⟩ := hx
      refine ⟨?_, by simp⟩
      cases r with
      | true => rfl
      | false => exact absurd rfl ha
  | send j =>
    simp only at hs
    split at hs
    · rename_i retry i e hj
      obtain ⟨rfl, _⟩ := h j retry _ hj
      split at hs
      · simp at hs
      · rename_i hlt
        simp only [Option.some.injEq] at hs; subst hs
        refine set j _ _ ?_ rfl
        intro i' tp he
        simp only [FetchPc.sent.injEq] at he
        simp only [true_and, Classical.not_not] at hlt
        omega
    · simp at hs
  | answer j r =>
    simp only at hs
    split at hs
    · rename_i retry i tp hj
      obtain ⟨rfl, _⟩ := h j retry _ hj
      split at hs
      · simp only [Option.some.injEq] at hs; subst hs; exact h
      · simp only [Option.some.injEq] at hs; subst hs; exact set j _ _ (by simp) rfl
      · simp only [if_true, Option.some.injEq] at hs; subst hs; exact set j _ _ (by simp) rfl
    · simp at hs
  | giveUp j =>
    simp only at hs
    split at hs
    · split at hs
      · simp at hs
      · simp only [Option.some.injEq] at hs; subst hs; exact set j _ _ (by simp) rfl
    · simp at hs

/-- Steps of a call bring it nearer to its end; other steps change nothing about it. -/
theorem fStep_left {cfg : FetchCfg} {f f' : FState} {a : FAct} (h : CallsOk cfg.retryAttempts f) (hs : fStep cfg f a = some f')
    (hc : f'.crashed = false) {n : Nat} {pc : FetchPc} (hn : f.calls[n]? = some ⟨true, pc⟩) :
    ∃ pc', f'.calls[n]? = some ⟨true, pc'⟩ ∧ (a.ofCall n → pc'.left cfg.retryAttempts < pc.left cfg.retryAttempts) ∧ (¬ a.ofCall n → pc' = pc) := by
  have hlt : n < f.calls.length := lt_of_getElem? hn
  unfold fStep at hs
  split at hs
  · simp at hs
  have set : ∀ (j : Nat) (pc0 pc1 : FetchPc) (c : List FetchCall) (b : FAct), (b.ofCall n ↔ j = n) → f.calls[j]? = some ⟨true, pc0⟩ →
      pc1.left cfg.retryAttempts < pc0.left cfg.retryAttempts → c = f.calls.set j ⟨true, pc1⟩ →
      ∃ pc', c[n]? = some ⟨true, pc'⟩ ∧ (b.ofCall n → pc'.left cfg.retryAttempts < pc.left cfg.retryAttempts) ∧ (¬ b.ofCall n → pc' = pc) := by
    rintro j pc0 pc1 c b hb hj hl rfl
    by_cases he : j = n
    · subst he
      rw [hj] at hn
      simp only [Option.some.injEq, FetchCall.mk.injEq, true_and] at hn
      subst hn
      exact ⟨pc1, List.getElem?_set_self hlt, fun _ => hl, fun hx => absurd (hb.mpr rfl) hx⟩
    · exact ⟨pc, by rw [List.getElem?_set_ne he]; exact hn, fun hx => absurd (hb.mp hx) he, fun _ => rfl⟩
  cases a with
  | tick d => simp only [Option.some.injEq] at hs; subst hs; exact ⟨pc, hn, fun hx => hx.elim, fun _ => rfl⟩
  | setKeys ks => simp only [Option.some.injEq] at hs; subst hs; exact ⟨pc, hn, fun hx => hx.elim, fun _ => rfl⟩
  | call retry =>
    simp only [Option.some.injEq] at hs; subst hs
    exact ⟨pc, getElem?_append_left' hn, fun hx => hx.elim, fun _ => rfl⟩
  | send j =>
    simp only at hs
    split at hs
    · rename_i retry i e hj
      obtain ⟨rfl, _⟩ := h j retry _ hj
      split at hs
      · simp at hs
      · simp only [Option.some.injEq] at hs; subst hs
        exact set j _ _ _ _ Iff.rfl hj (by simp only [FetchPc.left]; omega) rfl
    · simp at hs
  | answer j r =>
    simp only at hs
    split at hs
    · rename_i retry i tp hj
      obtain ⟨rfl, hi⟩ := h j retry _ hj
      have hi := hi i tp rfl
      split at hs
      · simp only [Option.some.injEq] at hs; subst hs; simp at hc
      · simp only [Option.some.injEq] at hs; subst hs
        exact set j _ _ _ _ Iff.rfl hj (by simp only [FetchPc.left]; omega) rfl
      · simp only [if_true, Option.some.injEq] at hs; subst hs
        exact set j _ _ _ _ Iff.rfl hj (by simp only [FetchPc.left]; omega) rfl
    · simp at hs
  | giveUp j =>
    simp only at hs
    split at hs
    · rename_i i e hj
      split at hs
      · simp at hs
      · simp only [Option.some.injEq] at hs; subst hs
        exact set j _ _ _ _ Iff.rfl hj (by simp only [FetchPc.left]; omega) rfl
    · simp at hs

theorem fStep_ready {cfg : FetchCfg} {f : FState} (hc : f.crashed = false) {n : Nat} {pc : FetchPc} (hn : f.calls[n]? = some ⟨true, pc⟩)
    (hl : pc.left cfg.retryAttempts ≠ 0) : ∃ a, a.ofCall n ∧ a.own = true ∧ (fStep cfg f a).isSome := by
  cases pc with
  | loop i e =>
    by_cases hi : i < cfg.retryAttempts
    · exact ⟨.send n, rfl, rfl, by simp [fStep, hc, hn, hi]⟩
    · exact ⟨.giveUp n, rfl, rfl, by simp [fStep, hc, hn, hi]⟩
  | sent i tp => exact ⟨.answer n (.fail .fetchPolicy), rfl, rfl, by simp [fStep, hc, hn, fetchAnswer]⟩
  | ret sp e => simp [FetchPc.left] at hl

/-! ### Who waits for whom -/

theorem domOf_mono {s s' : Sys} {more : List (List Str)} (h : s'.doms = s.doms ++ more) {i j : Nat} {dom : Str} (hd : s.domOf i j = some dom) :
    s'.domOf i j = some dom := by
  unfold Sys.domOf at *
  rw [h]
  cases hi : s.doms[i]? with
  | none => rw [hi] at hd; simp at hd
  | some ds =>
    rw [List.getElem?_append_left (lt_of_getElem? hi), hi]
    rw [hi] at hd
    exact hd

/-- Goroutines that are about to fetch know their domain, goroutines that wait for a fetcher wait for a call there is. -/
structure FetchLinks (cfg : SysCfg) (s : Sys) : Prop where
  calls : ∀ dom, CallsOk cfg.fetch.retryAttempts (s.fs dom)
  len : s.doms.length = s.pd.tasks.length
  start : ∀ (i j : Nat) (t : Task) (f : Option PolicyDoc), s.pd.tasks[i]? = some t → t.jobs[j]? = some (.start f) → ∃ dom, s.domOf i j = some dom
  fetch : ∀ (i j : Nat) (t : Task) (f : Option PolicyDoc), s.pd.tasks[i]? = some t → t.jobs[j]? = some (.fetching f) → ∃ n, s.waits i j = some n
  waits : ∀ i j n, s.waits i j = some n → ∃ dom, s.domOf i j = some dom ∧ n < (s.fs dom).calls.length

/-- The jobs of a task after a step. -/
theorem pdStep_jobs {U : CaseFns} {s s' : PdState} {a : PdAct} (h : pdStep U s a = some s') {i : Nat} {t' : Task} (ht : s'.tasks[i]? = some t') :
    (∃ t, s.tasks[i]? = some t ∧ (t'.jobs = t.jobs ∨ ∃ u u', a = .task i u ∧ updStep U (s.taskView t) u = some u' ∧ t'.jobs = u'.jobs)) ∨
    (∃ fetch, a = .update fetch ∧ i = s.tasks.length ∧ t'.jobs = fetch.map .start) ∨ ∃ n f, a = .hook n f ∧ t'.jobs = [.fetching f] := by
  by_cases hnh : a.notHook
  · rcases (taskMoves h hnh).tasks i t' ht with ⟨t, h1, _, h2⟩ | ⟨fetch, h1, h2, _, h3⟩
    · exact .inl ⟨t, h1, h2⟩
    · exact .inr (.inl ⟨fetch, h1, h2, h3⟩)
  · cases a with
    | hook n f =>
      unfold pdStep at h
      split at h
      · simp at h
      simp only at h
      split at h
      · simp at h
      · split at h
        · simp only [Option.some.injEq] at h; subst h
          rcases getElem?_append_cases ht with ht | ⟨_, rfl⟩
          · exact .inl ⟨t', ht, .inl rfl⟩
          · exact .inr (.inr ⟨n, f, rfl, rfl⟩)
        · simp only [Option.some.injEq] at h; subst h
          exact .inl ⟨t', ht, .inl rfl⟩
    | _ => exact absurd trivial hnh

theorem FetchLinks.pd {cfg : SysCfg} {s s' : Sys} {a : PdAct} (hi : FetchLinks cfg s) (hs : sysPd cfg s a = some s') (hd : s'.dead = false) :
    FetchLinks cfg s' := by
  have hl := sysPd_links hs hi.len
  obtain ⟨more, hmore⟩ := hl.doms
  refine ⟨?_, hl.len hd, ?_, ?_, ?_⟩
  · intro dom
    rcases hl.fs with ⟨h1, _⟩ | ⟨i, j, dom', f, h1, h2, _⟩
    · rw [h1]; exact hi.calls dom
    · rw [h2]
      simp only
      split
      · exact (hi.calls dom').step h1 (by simp)
      · exact hi.calls dom
  · intro i j t' f ht hj
    rcases pdStep_jobs hl.step ht with ⟨t, h1, h2 | ⟨u, u', rfl, h3, h2⟩⟩ | ⟨fetch, rfl, rfl, h2⟩ | ⟨n, g, rfl, h2⟩
    · rw [h2] at hj
      obtain ⟨dom, h4⟩ := hi.start i j t f h1 hj
      exact ⟨dom, domOf_mono hmore h4⟩
    · rw [h2] at hj
      rcases (updStep_job h3).2 j _ hj with h5 | ⟨e, h5⟩ | ⟨x, _, _, h5⟩ | ⟨g, _, h5⟩ | ⟨o, d, _, _, h5⟩
      · obtain ⟨dom, h4⟩ := hi.start i j t f h1 h5
        exact ⟨dom, domOf_mono hmore h4⟩
      · simp at h5
      · simp [Job.past] at h5
      · simp at h5
      · simp [Job.past] at h5
    · rcases sysPd_doms hs trivial with ⟨g, hg, hlen, hdoms⟩ | ⟨hne, _⟩
      · simp only [PdAct.update.injEq] at hg
        subst hg
        have hjl : j < cfg.domains.length := by
          have := lt_of_getElem? hj
          rw [h2, List.length_map] at this
          omega
        obtain ⟨dom, hdom⟩ := getElem?_of_lt hjl
        refine ⟨dom, ?_⟩
        unfold Sys.domOf
        rw [hdoms, ← hi.len]
        simp [hdom]
      · exact absurd rfl (hne fetch)
    · rw [h2] at hj
      cases j with
      | zero => simp at hj
      | succ j => simp at hj
  · intro i j t' f ht hj
    rcases hl.begins i j t' f ht hj with ⟨t, h1, _, h2⟩ | ⟨dom, _, h2⟩
    · obtain ⟨n, hn⟩ := hi.fetch i j t f h1 h2
      rcases hl.fs with ⟨_, h3⟩ | ⟨i0, j0, dom, f0, _, _, h3, _⟩
      · exact ⟨n, by rw [h3]; exact hn⟩
      · rw [h3]
        simp only
        split
        · exact ⟨_, rfl⟩
        · exact ⟨n, hn⟩
    · exact ⟨_, h2⟩
  · intro i j n hn
    rcases hl.fs with ⟨h2, h3⟩ | ⟨i0, j0, dom0, f0, h1, h2, h3, h4, _⟩
    · rw [h3] at hn
      obtain ⟨dom, h5, h6⟩ := hi.waits i j n hn
      exact ⟨dom, domOf_mono hmore h5, by rw [h2]; exact h6⟩
    · have hlen0 : f0.calls.length = (s.fs dom0).calls.length + 1 := by
        unfold fStep at h1
        split at h1
        · simp at h1
        · simp only [Option.some.injEq] at h1; subst h1; simp
      rw [h3] at hn
      simp only at hn
      split at hn
      · rename_i he
        obtain ⟨rfl, rfl⟩ := he
        simp only [Option.some.injEq] at hn
        refine ⟨dom0, h4, ?_⟩
        rw [h2]
        simp only [if_true]
        omega
      · obtain ⟨dom, h5, h6⟩ := hi.waits i j n hn
        refine ⟨dom, domOf_mono hmore h5, ?_⟩
        rw [h2]
        simp only
        split
        · rename_i he; subst he; omega
        · exact h6

theorem FetchLinks.step {cfg : SysCfg} {s s' : Sys} {a : SysAct} (hi : FetchLinks cfg s) (hs : sysStep cfg s a = some s') (hd : s'.dead = false) :
    FetchLinks cfg s' := by
  have hs' := hs
  obtain ⟨_, he⟩ := sysStep_effect hs
  cases he with
  | tick d => exact ⟨hi.calls, hi.len, hi.start, hi.fetch, hi.waits⟩
  | pk a pk' ha hp => exact ⟨hi.calls, hi.len, hi.start, hi.fetch, hi.waits⟩
  | jwk a jwk' hj => exact ⟨hi.calls, hi.len, hi.start, hi.fetch, hi.waits⟩
  | fetcher dom a f ha hf =>
    refine ⟨?_, hi.len, hi.start, hi.fetch, ?_⟩
    · intro x
      simp only
      split
      · exact (hi.calls dom).step hf (by rintro rfl; simp [FAct.own] at ha)
      · exact hi.calls x
    · intro i j n hn
      obtain ⟨x, h5, h6⟩ := hi.waits i j n hn
      refine ⟨x, h5, ?_⟩
      simp only
      split
      · rename_i he; subst he; have := fStep_calls_len hf; omega
      · exact h6
  | pd a pd' D F W ha hp hD hF hbr =>
    have h2 : sysPd cfg s a = some { s with pd := pd', dead := pd'.crashed, doms := D, fs := F, waits := W } := by
      simp only [sysStep] at hs'
      split at hs'
      · simp at hs'
      · exact hs'
    exact hi.pd h2 hd
  | nilPolicy i j => exact ⟨hi.calls, hi.len, hi.start, hi.fetch, hi.waits⟩
  | beginCheck i q p act res pd' hc hn hp =>
    have ht : pd'.tasks = s.pd.tasks := by
      unfold pdStep at hp
      split at hp
      · simp at hp
      · simp only [Option.some.injEq] at hp; subst hp; rfl
    exact ⟨hi.calls, by simp only [ht]; exact hi.len, by simp only [ht]; exact hi.start, by simp only [ht]; exact hi.fetch, hi.waits⟩
  | endCheck i view sched k c r auth' hk hc hl' hr hv hst => exact ⟨hi.calls, hi.len, hi.start, hi.fetch, hi.waits⟩
  | auth a auth' ha hst => exact ⟨hi.calls, hi.len, hi.start, hi.fetch, hi.waits⟩

theorem fetchLinks_init (cfg : SysCfg) (now : Int) : FetchLinks cfg (sysInit cfg now) :=
  ⟨by intro dom n r pc h; simp [sysInit, fInit] at h, rfl, by simp [sysInit, pdInit], by simp [sysInit, pdInit], by simp [sysInit]⟩

/-! ### What a step does to a call of a fetcher and to an update -/

theorem sysStep_fetch {cfg : SysCfg} {s s' : Sys} {a : SysAct} (hi : FetchLinks cfg s) (hs : sysStep cfg s a = some s') (hd : s'.dead = false)
    {dom : Str} {n : Nat} {pc : FetchPc} (hn : (s.fs dom).calls[n]? = some ⟨true, pc⟩) :
    ∃ pc', (s'.fs dom).calls[n]? = some ⟨true, pc'⟩ ∧ (OfFetch dom n a → pc'.left cfg.fetch.retryAttempts < pc.left cfg.fetch.retryAttempts) ∧
      (¬ OfFetch dom n a → pc' = pc) := by
  obtain ⟨_, he⟩ := sysStep_effect hs
  cases he with
  | fetcher dom' b f hb hf =>
    by_cases hdom : dom' = dom
    · subst hdom
      obtain ⟨pc', h1, h2, h3⟩ := fStep_left (hi.calls dom') hf hd hn
      have hiff : OfFetch dom' n (.fetcher dom' b) ↔ b.ofCall n := by cases b <;> simp [OfFetch, FAct.ofCall]
      exact ⟨pc', by simp only [if_true]; exact h1, fun h => h2 (hiff.mp h), fun h => h3 fun hx => h (hiff.mpr hx)⟩
    · refine ⟨pc, by simp only [if_neg (Ne.symm hdom)]; exact hn, ?_, fun _ => rfl⟩
      intro h
      cases b <;> simp_all [OfFetch]
  | pd b pd' D F W hb hp hD hF hbr =>
    refine ⟨pc, ?_, ?_, fun _ => rfl⟩
    · rcases hF with rfl | ⟨dom', f, hf, rfl⟩
      · exact hn
      · simp only
        split
        · rename_i hx; subst hx
          unfold fStep at hf
          split at hf
          · simp at hf
          · simp only [Option.some.injEq] at hf; subst hf; exact getElem?_append_left' hn
        · exact hn
    · intro h; cases b <;> simp [OfFetch] at h
  | _ => exact ⟨pc, hn, by intro h; simp [OfFetch] at h, fun _ => rfl⟩

theorem ofUpdate_iff {i : Nat} {a : SysAct} : OfUpdate i a ↔ ∃ b, a = .pd b ∧ b.worksFor i = true := by
  constructor
  · intro h
    cases a with
    | pd b =>
      refine ⟨b, rfl, ?_⟩
      cases b with
      | task k u => cases u <;> simp_all [OfUpdate, PdAct.worksFor, UpdAct.isWork]
      | finish k => simpa [OfUpdate, PdAct.worksFor] using h
      | abort k => simpa [OfUpdate, PdAct.worksFor] using h
      | _ => simp [OfUpdate] at h
    | _ => simp [OfUpdate] at h
  · rintro ⟨b, rfl, h⟩
    cases b with
    | task k u => cases u <;> simp_all [OfUpdate, PdAct.worksFor, UpdAct.isWork]
    | finish k => simpa [OfUpdate, PdAct.worksFor] using h
    | abort k => simpa [OfUpdate, PdAct.worksFor] using h
    | _ => simp [PdAct.worksFor] at h

/-- Steps of others leave the goroutines of a task as they are. -/
theorem pdStep_idle {U : CaseFns} {s s' : PdState} {a : PdAct} (h : pdStep U s a = some s') {i : Nat} {t : Task} (ht : s.tasks[i]? = some t)
    (hw : a.worksFor i = false) : ∃ t', s'.tasks[i]? = some t' ∧ t'.jobs = t.jobs ∧ t'.ret = t.ret ∧ t'.isUpdate = t.isUpdate := by
  have hlt : i < s.tasks.length := lt_of_getElem? ht
  unfold pdStep at h
  split at h
  · simp at h
  cases a with
  | update fetch => simp only [Option.some.injEq] at h; subst h; exact ⟨t, getElem?_append_left' ht, rfl, rfl, rfl⟩
  | task k u =>
    simp only at h
    split at h
    · simp at h
    · rename_i t0 ht0
      split at h
      · simp at h
      · rename_i hnt
        split at h
        · simp at h
        · rename_i v hv
          simp only [Option.some.injEq] at h; subst h
          by_cases hk : k = i
          · subst hk
            obtain rfl : t0 = t := by rw [ht0] at ht; exact Option.some.inj ht
            cases u with
            | cancel =>
              simp only [updStep, Option.some.injEq] at hv; subst hv
              exact ⟨_, List.getElem?_set_self hlt, rfl, rfl, rfl⟩
            | tick d => exact absurd rfl (hnt d)
            | _ => simp [PdAct.worksFor, UpdAct.isWork] at hw
          · exact ⟨t, by rw [List.getElem?_set_ne hk]; exact ht, rfl, rfl, rfl⟩
  | finish k =>
    simp only at h
    repeat' split at h
    all_goals first
      | (simp at h; done)
      | (simp only [Option.some.injEq] at h; subst h
         exact ⟨t, by rw [List.getElem?_set_ne (by simpa [PdAct.worksFor] using hw)]; exact ht, rfl, rfl, rfl⟩)
  | abort k =>
    simp only at h
    repeat' split at h
    all_goals first
      | (simp at h; done)
      | (simp only [Option.some.injEq] at h; subst h
         exact ⟨t, by rw [List.getElem?_set_ne (by simpa [PdAct.worksFor] using hw)]; exact ht, rfl, rfl, rfl⟩)
  | hook j fetch =>
    simp only at h
    split at h
    · simp at h
    · split at h
      · simp only [Option.some.injEq] at h; subst h; exact ⟨t, getElem?_append_left' ht, rfl, rfl, rfl⟩
      · simp only [Option.some.injEq] at h; subst h; exact ⟨t, ht, rfl, rfl, rfl⟩
  | _ =>
    simp only at h
    repeat' split at h
    all_goals first
      | (simp only [Option.some.injEq] at h; subst h; exact ⟨t, ht, rfl, rfl, rfl⟩)
      | (simp at h)

theorem sysStep_idle {cfg : SysCfg} {s s' : Sys} {a : SysAct} (hs : sysStep cfg s a = some s') {i : Nat} {t : Task} (ht : s.pd.tasks[i]? = some t)
    (hw : ¬ OfUpdate i a) : ∃ t', s'.pd.tasks[i]? = some t' ∧ t'.jobs = t.jobs ∧ t'.ret = t.ret ∧ t'.isUpdate = t.isUpdate := by
  rcases sysStep_pd hs with ⟨n, hn⟩ | ⟨b, hb, hab⟩
  · rw [hn]; exact ⟨t, ht, rfl, rfl, rfl⟩
  · refine pdStep_idle hb ht ?_
    rcases hab with rfl | ⟨q, rfl⟩
    · rw [ofUpdate_iff] at hw
      simpa using fun hx => hw ⟨b, rfl, hx⟩
    · rfl

theorem sysStep_work {cfg : SysCfg} {s s' : Sys} {a : SysAct} (hs : sysStep cfg s a = some s') {i : Nat} {t : Task} (ht : s.pd.tasks[i]? = some t)
    (hw : OfUpdate i a) : ∃ t', s'.pd.tasks[i]? = some t' ∧ t'.isUpdate = t.isUpdate ∧ t'.left < t.left := by
  obtain ⟨b, rfl, hb⟩ := ofUpdate_iff.mp hw
  rcases sysStep_pd hs with ⟨n, hn⟩ | ⟨b', hb', hab⟩
  · -- a step of the daemon is no passing of time
    obtain ⟨_, he⟩ := sysStep_effect hs
    generalize hs' : s' = s2 at he
    cases he with
    | pd a pd' D F W ha hp hD hF hbr =>
      obtain ⟨t', h1, h2, h3, _⟩ := pdStep_left hp ht
      exact ⟨t', h1, h2, h3 hb⟩
  · rcases hab with hab | ⟨q, rfl⟩
    · simp only [SysAct.pd.injEq] at hab
      subst hab
      obtain ⟨t', h1, h2, h3, _⟩ := pdStep_left hb' ht
      exact ⟨t', h1, h2, h3 hb⟩
    · obtain ⟨_, he⟩ := sysStep_effect hs
      generalize hs' : s' = s2 at he
      cases he with
      | pd a pd' D F W ha hp hD hF hbr =>
        obtain ⟨t', h1, h2, h3, _⟩ := pdStep_left hp ht
        exact ⟨t', h1, h2, h3 hb⟩

/-- The goroutine can go on, unless it waits for a fetcher. -/
def CanGoOn (s : Sys) (i : Nat) (t : Task) : Prop :=
  (t.allDone = true ∧ t.isUpdate = true ∧ t.ret = none) ∨
  ∃ (j : Nat) (x : Job), t.jobs[j]? = some x ∧ (∀ e, x ≠ .done e) ∧
    ∀ f, x = .fetching f → ∃ r, s.fetchResult i j = some r ∧ fetchMatches r f

theorem canGoOn_enabled {cfg : SysCfg} {s : Sys} (hi : FetchLinks cfg s) (hfine : PdFine cfg.auth.U s.pd) (hd : s.dead = false)
    (hc : s.pd.crashed = false) (hfc : ∀ x, (s.fs x).crashed = false) {i : Nat} {t : Task} (ht : s.pd.tasks[i]? = some t)
    (h : CanGoOn s i t) : ∃ a, OfUpdate i a ∧ (sysStep cfg s a).isSome := by
  rcases h with ⟨hdone, hu, hr⟩ | ⟨j, x, hj, hne, hfet⟩
  · refine ⟨.pd (.finish i), rfl, ?_⟩
    cases hok : t.allOk <;> simp [sysStep, hd, sysPd, pdStep, hc, ht, hu, hr, hdone, hok]
  · have h0 : UpdFine cfg.auth.U (s.pd.taskView t) := hfine t (List.mem_of_getElem? ht)
    obtain ⟨u, u', hno, hw, hst⟩ := job_ready h0 (i := j) (j := x) hj hne
    refine ⟨.pd (.task i u), ofUpdate_iff.mpr ⟨_, rfl, by simp [PdAct.worksFor, hw]⟩, ?_⟩
    cases u with
    | tick d => simp [UpdAct.isWork] at hw
    | cancel => simp [UpdAct.isWork] at hw
    | merge a b => simp [sysStep, hd, sysPd, pdStep, hc, ht, hst]
    | job a b =>
      obtain rfl : a = j := by simpa [UpdAct.jobNo] using hno
      cases x with
      | start f =>
        cases hcan : t.cancelled with
        | true => simp [sysStep, hd, sysPd, pdStep, hc, ht, hst, hj, hcan]
        | false =>
          obtain ⟨dom, hdom⟩ := hi.start i a t f ht hj
          simp [sysStep, hd, sysPd, pdStep, hc, ht, hst, hj, hcan, hdom, Sys.callFetcher, fStep, hfc]
      | fetching f =>
        obtain ⟨r, hr, hm⟩ := hfet f rfl
        simp [sysStep, hd, sysPd, pdStep, hc, ht, hst, hj, hr, hm]
      | merge d m => simp [sysStep, hd, sysPd, pdStep, hc, ht, hst, hj]
      | fill ttl todo pc => simp [sysStep, hd, sysPd, pdStep, hc, ht, hst, hj]
      | done e => exact absurd rfl (hne e)

end Athenz
