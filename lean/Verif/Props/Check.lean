import Verif.Props.Examples

/-! # C03, C04, C05: `CheckPolicyRoles` as a concurrent program -/

namespace Athenz

/-- Specification: in `view`, the first assertion that matches the request, in the list of role `r`, has effect `e`. -/
def Spec.Decides (U : CaseFns) (q : CheckReq) (view : PolicyView) (r : Str) (e : Option Err) : Prop :=
  ∃ l pre a post, view (q.domain ++ ":role.".toList ++ r) = some l ∧ l = pre ++ a :: post ∧
    (∀ b ∈ pre, b.matches U q.domain q.action q.resource = false) ∧ a.matches U q.domain q.action q.resource = true ∧ a.effect = e

/-- Specification of the result for a fixed view, `parent` = the caller's context is done at the end. -/
def Spec.CheckResult (U : CaseFns) (q : CheckReq) (view : PolicyView) (cancelled : Prop) : Res (List Str) → Prop
  | .ok rs => rs ≠ [] ∧ (∀ r ∈ q.roles, ∀ e, ¬ Decides U q view r (some e)) ∧
      ∃ f : Str → Bool, (∀ r, f r = true ↔ Decides U q view r none) ∧ rs.Perm (q.roles.filter f)
  | .err e => (∃ r ∈ q.roles, Decides U q view r (some e)) ∨ (e = .ctx ∧ cancelled) ∨
      (e = .noMatch ∧ ∀ r ∈ q.roles, ∀ e', ¬ Decides U q view r e')
  | .panic => False

theorem decides_iff (U : CaseFns) (q : CheckReq) (view : PolicyView) (r : Str) (e : Option Err) :
    Spec.Decides U q view r e ↔ roleVerdict U q view r = some e := by
  simp only [Spec.Decides, roleVerdict, Option.bind_eq_some_iff, firstMatch, Option.map_eq_some_iff, List.find?_eq_some_iff_append]
  constructor
  · rintro ⟨l, pre, a, post, hl, rfl, hpre, ha, he⟩
    exact ⟨_, hl, a, ⟨ha, pre, post, rfl, fun b hb => by simp [hpre b hb]⟩, he⟩
  · rintro ⟨l, hl, a, ⟨ha, pre, post, rfl, hpre⟩, he⟩
    exact ⟨_, pre, a, post, hl, rfl, fun b hb => by simpa using hpre b hb, ha, he⟩

theorem retOk_spec {U : CaseFns} {q : CheckReq} {view : PolicyView} {parent : Bool} {r : Res (List Str)}
    (h : RetOk U q (· = view) parent r) : Spec.CheckResult U q view (parent = true) r := by
  cases r with
  | ok rs =>
    obtain ⟨hne, os, h1, h2, h3⟩ := h
    have h2' : ∀ o ∈ os, roleVerdict U q view o.1 = o.2 ∧ ∀ e, o.2 ≠ some (some e) := by
      intro o ho
      obtain ⟨⟨v, rfl, hv⟩, he⟩ := h2 o ho
      exact ⟨hv, he⟩
    refine ⟨hne, ?_, fun r => decide (roleVerdict U q view r = some none), ?_, ?_⟩
    · intro r hr e hd
      rw [← h1] at hr
      obtain ⟨o, ho, rfl⟩ := List.mem_map.mp hr
      rw [decides_iff, (h2' o ho).1] at hd
      exact (h2' o ho).2 e hd
    · intro r; simp [decides_iff]
    · refine h3.trans (List.Perm.of_eq ?_)
      rw [← h1]
      clear h1 h2 h3 hne
      induction os with
      | nil => rfl
      | cons o os ih =>
        have ih := ih (fun o' ho' => h2' o' (by simp [ho']))
        have ho := (h2' o (by simp)).1
        rw [List.filterMap_cons, List.map_cons, List.filter_cons, ih]
        by_cases h' : o.2 = some none
        · simp [h', ho]
        · simp [h', ho]
  | err e =>
    rcases h with ⟨r, hr, v, rfl, hv⟩ | h | ⟨rfl, h⟩
    · exact .inl ⟨r, hr, (decides_iff ..).mpr hv⟩
    · exact .inr (.inl h)
    · refine .inr (.inr ⟨rfl, ?_⟩)
      intro r hr e' hd
      obtain ⟨v, rfl, hv⟩ := h r hr
      rw [decides_iff, hv] at hd
      simp at hd
  | panic => exact h

theorem viewStable_ok {sched : List CheckAct} (h : ViewStable sched) (V : PolicyView → Prop) : ∀ a ∈ sched, ActOk V a := by
  intro a ha
  have := h a ha
  cases a <;> simp_all [ActOk]

theorem undisturbed_stable {sched : List CheckAct} (h : Undisturbed sched) : ViewStable sched := by
  intro a ha
  have := h a ha
  cases a <;> simp_all

theorem check_result {U : CaseFns} {q : CheckReq} {view : PolicyView} {sched : List CheckAct} (hs : ViewStable sched)
    {r : Res (List Str)} (h : CheckReturns U q view sched r) :
    Spec.CheckResult U q view (CheckAct.cancel ∈ sched) r := by
  obtain ⟨s, hrun, hret⟩ := h
  have hinv := (CheckReq.init_inv U q (· = view) view rfl).run (viewStable_ok hs _) hrun
  have hspec := retOk_spec (hinv.ret r hret)
  cases r with
  | ok rs => exact hspec
  | panic => exact hspec
  | err e =>
    rcases hspec with h1 | ⟨h1, h2⟩ | h1
    · exact .inl h1
    · right; left
      refine ⟨h1, ?_⟩
      rcases parent_run hrun h2 with h3 | ⟨a, ha, rfl⟩
      · simp [CheckReq.init] at h3
      · exact ha
    · exact .inr (.inr h1)

/-- **C03**. Without cancellation and with a fixed cache, every schedule yields the result the specification prescribes: success
with exactly the roles (with multiplicity) whose decisive assertion allows if no role is denied and one is allowed, the error of a
denied role if there is one, the no-match error if nothing matches. -/
theorem C03_result (U : CaseFns) (q : CheckReq) (view : PolicyView) (sched : List CheckAct) (hs : Undisturbed sched)
    (r : Res (List Str)) (h : CheckReturns U q view sched r) : Spec.CheckResult U q view False r := by
  have := check_result (undisturbed_stable hs) h
  have hc : CheckAct.cancel ∉ sched := fun hc => hs _ hc
  cases r with
  | ok rs => exact this
  | panic => exact this
  | err e =>
    rcases this with h1 | ⟨_, h1⟩ | h1
    · exact .inl h1
    · exact absurd h1 hc
    · exact .inr (.inr h1)

/-- The same verdict: both succeed with the same multiset of roles, or both fail with the same error. -/
def Spec.SameVerdict : Res (List Str) → Res (List Str) → Prop
  | .ok a, .ok b => a.Perm b
  | .err e, .err e' => e = e'
  | _, _ => False

/-- All effects in the lists of the caller's roles are allow or the policy denial (which `NewAssertion` guarantees, see C09). -/
def EffectsOk (q : CheckReq) (view : PolicyView) : Prop :=
  ∀ r ∈ q.roles, ∀ l, view (q.domain ++ ":role.".toList ++ r) = some l → ∀ a ∈ l, a.effect = none ∨ a.effect = some .denyByPolicy

theorem EffectsOk.decides {U : CaseFns} {q : CheckReq} {view : PolicyView} (h : EffectsOk q view) {r : Str} (hr : r ∈ q.roles)
    {e : Err} (hd : Spec.Decides U q view r (some e)) : e = .denyByPolicy := by
  obtain ⟨l, pre, a, post, hl, rfl, _, _, he⟩ := hd
  rcases h r hr _ hl a (by simp) with h' | h'
  · rw [he] at h'; simp at h'
  · rw [he] at h'; simpa using h'

theorem same_of_spec {U : CaseFns} {q : CheckReq} {view : PolicyView} (hE : EffectsOk q view) {r1 r2 : Res (List Str)}
    (h1 : Spec.CheckResult U q view False r1) (h2 : Spec.CheckResult U q view False r2) : Spec.SameVerdict r1 r2 := by
  -- a success excludes every failure
  have hex : ∀ rs e, Spec.CheckResult U q view False (.ok rs) → ¬ Spec.CheckResult U q view False (.err e) := by
    rintro rs e ⟨hne, hnd, f, hf, hp⟩ he
    rcases he with ⟨r, hr, hd⟩ | ⟨_, hd⟩ | ⟨_, hd⟩
    · exact hnd r hr e hd
    · exact hd
    · cases rs with
      | nil => exact hne rfl
      | cons x xs =>
        have hx : x ∈ q.roles.filter f := hp.mem_iff.mp (by simp)
        obtain ⟨hx1, hx2⟩ := List.mem_filter.mp hx
        exact hd x hx1 none ((hf x).mp hx2)
  cases r1 with
  | panic => exact h1.elim
  | ok a =>
    cases r2 with
    | panic => exact h2.elim
    | err e => exact absurd h2 (hex a e h1)
    | ok b =>
      obtain ⟨_, _, f, hf, hp⟩ := h1
      obtain ⟨_, _, g, hg, hq⟩ := h2
      have : f = g := by
        funext r
        have : f r = true ↔ g r = true := by rw [hf, hg]
        cases hfr : f r <;> cases hgr : g r <;> simp_all
      subst this
      exact hp.trans hq.symm
  | err e =>
    cases r2 with
    | panic => exact h2.elim
    | ok b => exact absurd h1 (hex b e h2)
    | err e' =>
      show e = e'
      rcases h1 with ⟨r, hr, hd⟩ | ⟨_, hd⟩ | ⟨he, hd⟩
      · have he := hE.decides hr hd
        rcases h2 with ⟨r', hr', hd'⟩ | ⟨_, hd'⟩ | ⟨_, hd'⟩
        · rw [he, hE.decides hr' hd']
        · exact hd'.elim
        · exact absurd hd (hd' r hr _)
      · exact hd.elim
      · rcases h2 with ⟨r', hr', hd'⟩ | ⟨_, hd'⟩ | ⟨he', _⟩
        · exact absurd hd' (hd r' hr' _)
        · exact hd'.elim
        · rw [he, he']

/-- **C03**. Two schedules of the same call agree. -/
theorem C03_schedule_independent (U : CaseFns) (q : CheckReq) (view : PolicyView) (hE : EffectsOk q view)
    (s1 s2 : List CheckAct) (h1 : Undisturbed s1) (h2 : Undisturbed s2) (r1 r2 : Res (List Str))
    (hr1 : CheckReturns U q view s1 r1) (hr2 : CheckReturns U q view s2 r2) : Spec.SameVerdict r1 r2 :=
  same_of_spec hE (C03_result U q view s1 h1 r1 hr1) (C03_result U q view s2 h2 r2 hr2)

/-- The cache of the examples: `r` may read `x*`, `s` may do nothing with `xy?`. -/
def Ex.viewRS : PolicyView := fun k =>
  if k = "d:role.r".toList then (Ex.allowR.conv asciiCase).map fun x => [x]
  else if k = "d:role.s".toList then (Ex.denyS.conv asciiCase).map fun x => [x] else none

theorem Ex.viewRS_effects : EffectsOk Ex.reqRS Ex.viewRS := by
  intro r _ l hl a ha
  simp only [Ex.viewRS] at hl
  split at hl
  · obtain ⟨x, hx, rfl⟩ := Option.map_eq_some_iff.mp hl
    simp at ha; subst ha; exact conv_effect_cases hx
  · split at hl
    · obtain ⟨x, hx, rfl⟩ := Option.map_eq_some_iff.mp hl
      simp at ha; subst ha; exact conv_effect_cases hx
    · simp at hl

example : Undisturbed Ex.schedRS ∧ Undisturbed Ex.schedRS' ∧ EffectsOk Ex.reqRS Ex.viewRS ∧
    CheckReturns asciiCase Ex.reqRS Ex.viewRS Ex.schedRS (.err .denyByPolicy) ∧
    CheckReturns asciiCase Ex.reqRS Ex.viewRS Ex.schedRS' (.err .denyByPolicy) := by
  refine ⟨?_, ?_, Ex.viewRS_effects, Ex.returns_of_ret (by decide +kernel), Ex.returns_of_ret (by decide +kernel)⟩
  · intro a ha; simp [Ex.schedRS] at ha; rcases ha with rfl | rfl | rfl | rfl <;> trivial
  · intro a ha; simp [Ex.schedRS'] at ha; rcases ha with rfl | rfl | rfl | rfl | rfl | rfl <;> trivial

/-- **C04**. A successful return under any schedule with cancellation is the verdict every uncancelled run gives. -/
theorem C04_cancel_no_grant (U : CaseFns) (q : CheckReq) (view : PolicyView) (hE : EffectsOk q view) (sched sched' : List CheckAct)
    (hs : ViewStable sched) (hs' : Undisturbed sched') (rs : List Str) (r' : Res (List Str))
    (h : CheckReturns U q view sched (.ok rs)) (h' : CheckReturns U q view sched' r') :
    ∃ rs', r' = .ok rs' ∧ rs.Perm rs' := by
  have h1 : Spec.CheckResult U q view False (.ok rs) := check_result hs h
  have := same_of_spec hE h1 (C03_result U q view sched' hs' r' h')
  cases r' with
  | ok rs' => exact ⟨rs', rfl, this⟩
  | err e => exact this.elim
  | panic => exact this.elim

/-- A cancellation after the allowed role was received: still success. -/
def Ex.schedCancel : List CheckAct := [.worker 0, .worker 0, .recv, .cancel, .close, .recv]

example : ViewStable Ex.schedCancel ∧ CheckReturns asciiCase Ex.reqR Ex.viewRS Ex.schedCancel (.ok ["r".toList]) ∧
    CheckReturns asciiCase Ex.reqR Ex.viewRS Ex.schedR (.ok ["r".toList]) := by
  refine ⟨?_, Ex.returns_of_ret (by decide +kernel), Ex.returns_of_ret (by decide +kernel)⟩
  intro a ha; simp [Ex.schedCancel] at ha; rcases ha with rfl | rfl | rfl | rfl | rfl <;> trivial

/-- **C04**. The context error is returned only if the context was cancelled. -/
theorem C04_ctx_error_only_if_cancelled (U : CaseFns) (q : CheckReq) (view : PolicyView) (hE : EffectsOk q view)
    (sched : List CheckAct) (hs : ViewStable sched) (h : CheckReturns U q view sched (.err .ctx)) :
    CheckAct.cancel ∈ sched := by
  rcases check_result hs h with ⟨r, hr, hd⟩ | ⟨_, h1⟩ | ⟨h1, _⟩
  · have := hE.decides hr hd; simp at this
  · exact h1
  · simp at h1

example : CheckReturns asciiCase Ex.reqR Ex.viewRS [.cancel, .worker 0, .recv] (.err .ctx) :=
  Ex.returns_of_ret (by decide +kernel)

/-- **C04**. Also a policy denial or a no-match answer given while the context is cancelled is the true verdict. -/
theorem C04_other_errors_true (U : CaseFns) (q : CheckReq) (view : PolicyView) (sched : List CheckAct) (hs : ViewStable sched)
    (e : Err) (he : e ≠ .ctx) (h : CheckReturns U q view sched (.err e)) :
    (∃ r ∈ q.roles, Spec.Decides U q view r (some e)) ∨
    (e = .noMatch ∧ ∀ r ∈ q.roles, ∀ e', ¬ Spec.Decides U q view r e') := by
  rcases check_result hs h with h1 | ⟨h1, _⟩ | h1
  · exact .inl h1
  · exact absurd h1 he
  · exact .inr h1

example : CheckReturns asciiCase Ex.reqRS Ex.viewRS [.worker 1, .worker 1, .cancel, .recv] (.err .denyByPolicy) :=
  Ex.returns_of_ret (by decide +kernel)

/-- **C04**, changing cache. If entries of the cache object are replaced or expire during the call, every allowed role was allowed
by some version `v` that was current during the call, and no role was found denied. -/
theorem C04_changing_cache (U : CaseFns) (q : CheckReq) (V : PolicyView → Prop) (view : PolicyView) (hv : V view)
    (sched : List CheckAct) (hs : ∀ v, CheckAct.mutate v ∈ sched → V v) (rs : List Str)
    (h : CheckReturns U q view sched (.ok rs)) :
    rs ≠ [] ∧ (∀ r ∈ rs, r ∈ q.roles ∧ ∃ v, V v ∧ Spec.Decides U q v r none) ∧
    ∀ r ∈ q.roles, ∃ v, V v ∧ ∀ e, ¬ Spec.Decides U q v r (some e) := by
  obtain ⟨s, hrun, hret⟩ := h
  have hinv := (CheckReq.init_inv U q V view hv).run (as := sched) ?_ hrun
  · obtain ⟨hne, os, h1, h2, h3⟩ := hinv.ret _ hret
    refine ⟨hne, ?_, ?_⟩
    · intro r hr
      obtain ⟨o, ho, hor⟩ := List.mem_filterMap.mp (h3.mem_iff.mp hr)
      split at hor
      · rename_i h'
        simp only [Option.some.injEq] at hor
        subst hor
        obtain ⟨⟨v, hv, hd⟩, _⟩ := h2 o ho
        refine ⟨by rw [← h1]; exact List.mem_map_of_mem ho, v, hv, ?_⟩
        rw [decides_iff, hd, h']
      · simp at hor
    · intro r hr
      rw [← h1] at hr
      obtain ⟨o, ho, rfl⟩ := List.mem_map.mp hr
      obtain ⟨⟨v, hv, hd⟩, he⟩ := h2 o ho
      refine ⟨v, hv, fun e h' => ?_⟩
      rw [decides_iff, hd] at h'
      exact he e h'
  · intro a ha
    cases a with
    | mutate v => exact hs v ha
    | _ => trivial

/-- The entry of the denied role expires between the call and its lookup. -/
example : CheckReturns asciiCase Ex.reqRS Ex.viewRS
    [.worker 0, .worker 0, .mutate (fun _ => none), .worker 1, .close, .recv, .recv] (.ok ["r".toList]) :=
  Ex.returns_of_ret (by decide +kernel)

/-- A state the call can reach, under any schedule, cancellation and change of the cache. -/
def Reachable (U : CaseFns) (q : CheckReq) (s : CheckState) : Prop :=
  ∃ view sched, checkRun U q (q.init view) sched = some s

theorem Reachable.inv {U : CaseFns} {q : CheckReq} {s : CheckState} (h : Reachable U q s) : CheckInv U q (fun _ => True) s := by
  obtain ⟨view, sched, hrun⟩ := h
  exact (CheckReq.init_inv U q _ view trivial).run (fun a _ => by cases a <;> trivial) hrun

/-- **C05**. Nothing is ever sent on the closed channel, the channel never holds more than its capacity, and no worker is ever
blocked: whatever it has to do next (including a send) is possible, also after the collector returned. -/
theorem C05_no_block (U : CaseFns) (q : CheckReq) (s : CheckState) (h : Reachable U q s) :
    s.panicked = false ∧ s.chan.length ≤ q.roles.length ∧
    ∀ (i : Nat) (w : Worker), s.workers[i]? = some w → (∀ r o, w ≠ .done r o) → ∃ s', checkStep U q s (.worker i) = some s' := by
  have hi := h.inv
  refine ⟨hi.nopanic, by have := hi.cap; omega, ?_⟩
  intro i w hw hd
  refine hi.worker_step hw ?_
  cases w with
  | done r o => exact absurd rfl (hd r o)
  | _ => rfl

/-- The collector returned on the deny of `s`; the worker of `r` still has to send. -/
example : ∃ s, Reachable asciiCase Ex.reqRS s ∧ s.coll = .ret (.err .denyByPolicy) ∧ s.workers[0]? = some (Worker.start "r".toList) := by
  obtain ⟨s, hs, hp⟩ := Ex.exists_of_map (o := checkRun asciiCase Ex.reqRS (Ex.reqRS.init Ex.viewRS) [.worker 1, .worker 1, .recv])
    (p := fun s => decide (s.coll = Collector.ret (.err .denyByPolicy)) && decide (s.workers[0]? = some (Worker.start "r".toList)))
    (by decide +kernel)
  simp only [Bool.and_eq_true, decide_eq_true_eq] at hp
  exact ⟨s, ⟨_, _, hs⟩, hp⟩

/-- **C05**. Until every worker, the closer and the collector have finished, one of them can take a step. -/
theorem C05_progress (U : CaseFns) (q : CheckReq) (s : CheckState) (h : Reachable U q s) :
    ((∀ w ∈ s.workers, ∃ r o, w = .done r o) ∧ s.closed = true ∧ ∃ r, s.coll = .ret r) ∨
    ∃ a s', (a = .close ∨ a = .recv ∨ ∃ i, a = .worker i) ∧ checkStep U q s a = some s' := by
  by_cases hf : s.finished
  · left
    refine ⟨fun w hw => ?_, hf.2⟩
    have := hf.1 w hw
    cases w with
    | done r o => exact ⟨r, o, rfl⟩
    | _ => simp [Worker.isDone] at this
  · right
    obtain ⟨a, s', ha, hs⟩ := h.inv.progress hf
    refine ⟨a, s', ?_, hs⟩
    cases a <;> simp_all [CheckAct.internal]

/-- **C05**. No execution is infinite: with at most `L` assertions per role, the goroutines of the call and the cancellation
together make at most `n (L + 3) + 3` steps, whatever the environment does to the cache meanwhile. -/
theorem C05_bounded (U : CaseFns) (q : CheckReq) (L : Nat) (view : PolicyView) (sched : List CheckAct) (s : CheckState)
    (hv : ∀ v, v = view ∨ CheckAct.mutate v ∈ sched → ∀ r ∈ q.roles, ∀ l, v (roleKey q.domain r) = some l → l.length ≤ L)
    (h : checkRun U q (q.init view) sched = some s) :
    (sched.filter fun a => match a with | .mutate _ => false | _ => true).length ≤ q.roles.length * (L + 3) + 3 := by
  have hinv := CheckReq.init_inv U q (ShortLists q L) view (hv view (.inl rfl))
  have := hinv.cost_run (as := sched) (fun a ha => by
    cases a with
    | mutate v => exact hv v (.inr ha)
    | _ => trivial) h
  rw [cost_init] at this
  have he : (fun a : CheckAct => match a with | .mutate _ => false | _ => true) = CheckAct.notMutate := by
    funext a; cases a <;> rfl
  rw [he]
  omega

/-- The hypothesis of `C05_bounded` for the view of the examples. -/
example : ∀ r ∈ Ex.reqRS.roles, ∀ l, Ex.viewRS (roleKey Ex.reqRS.domain r) = some l → l.length ≤ 1 := by
  intro r _ l hl
  simp only [Ex.viewRS] at hl
  split at hl
  · obtain ⟨x, _, rfl⟩ := Option.map_eq_some_iff.mp hl; simp
  · split at hl
    · obtain ⟨x, _, rfl⟩ := Option.map_eq_some_iff.mp hl; simp
    · simp at hl

/-- **C05**. From every reachable state the goroutines can run to the end on their own, and then the collector has returned. -/
theorem C05_returns (U : CaseFns) (q : CheckReq) (view : PolicyView) (sched : List CheckAct) (hs : ViewStable sched)
    (s : CheckState) (h : checkRun U q (q.init view) sched = some s) :
    ∃ sched' r, (∀ a ∈ sched', a.internal = true) ∧ CheckReturns U q view (sched ++ sched') r := by
  obtain ⟨L, hL⟩ : ∃ L, ShortLists q L view := by
    have : ∀ rs : List Str, ∃ L, ∀ r ∈ rs, ∀ l, view (roleKey q.domain r) = some l → l.length ≤ L := by
      intro rs
      induction rs with
      | nil => exact ⟨0, by simp⟩
      | cons x xs ih =>
        obtain ⟨L, hL⟩ := ih
        refine ⟨L + ((view (roleKey q.domain x)).getD []).length, ?_⟩
        intro r hr l hl
        rcases List.mem_cons.mp hr with rfl | hr
        · simp [hl]
        · have := hL r hr l hl; omega
    exact this q.roles
  have hinv := (CheckReq.init_inv U q (ShortLists q L) view hL).run (viewStable_ok hs _) h
  obtain ⟨as, s', h1, h2, h3⟩ := hinv.finishes
  obtain ⟨r, hr⟩ := h3.2.2
  exact ⟨as, r, h1, s', by simp [checkRun_append, h, h2], hr⟩

end Athenz
