import Verif.Proofs.UpdResult
import Verif.Props.Policyd

/-! # C65: an update of the policies returns, and with an error only if there is a reason -/

namespace Athenz

/-- An infinite execution of the policy daemon: any number of updates, hooks and checks, none of which crashes the process. -/
structure Spec.PdExec (U : CaseFns) (n0 : Int) (domains : List Str) where
  state : Nat → PdState
  act : Nat → PdAct
  init : state 0 = pdInit n0 domains
  next : ∀ n, pdStep U (state n) (act n) = some (state (n + 1))

/-- Fairness: a call that can go on from some time on goes on at some time. -/
def Spec.PdFair {U : CaseFns} {n0 : Int} {domains : List Str} (x : Spec.PdExec U n0 domains) : Prop :=
  ∀ i n, (∀ m, n ≤ m → ∃ a, a.worksFor i = true ∧ (pdStep U (x.state m) a).isSome) → ∃ m, n ≤ m ∧ (x.act m).worksFor i = true

/-- `Update` was called when `fetch` is what the domains' `FetchWithRetry` give, its context is not cancelled, and it returned nil
(`ok`) or an error. -/
def Spec.UpdateReturns (U : CaseFns) (n0 : Int) (domains : List Str) (fetch : List (Option PolicyDoc)) (ok : Bool) : Prop :=
  ∃ pre post s0 s t, pdRun U (pdInit n0 domains) pre = some s0 ∧ pdRun U s0 (.update fetch :: post) = some s ∧
    .task s0.tasks.length .cancel ∉ post ∧ s.tasks[s0.tasks.length]? = some t ∧ t.ret = some ok

/-- Every domain has a policy, and the resource of every assertion in it names a domain. -/
def Spec.AllGood (fetch : List (Option PolicyDoc)) : Prop :=
  ∀ f ∈ fetch, ∃ d, f = some d ∧ ∀ a ∈ d.policies.flatten, ':' ∈ a.resource

/-- An upper bound on the steps of an update: two for a domain without policy, four per assertion and four more for one with a policy. -/
def Spec.updateCost : List (Option PolicyDoc) → Nat
  | [] => 0
  | none :: fs => 2 + Spec.updateCost fs
  | some d :: fs => 4 * d.policies.flatten.length + 4 + Spec.updateCost fs

open Spec

/-- The full statement of C65. -/
def C65_statement : Prop :=
  (∀ (U : CaseFns) (n0 : Int) (domains : List Str) (x : PdExec U n0 domains), PdFair x → ∀ (n i : Nat) (t : Task),
    (x.state n).tasks[i]? = some t → ∃ (m : Nat) (t' : Task), n ≤ m ∧ (x.state m).tasks[i]? = some t' ∧ (∀ j ∈ t'.jobs, ∃ e, j = .done e) ∧ (t'.isUpdate = true → t'.ret ≠ none)) ∧
  ∀ (U : CaseFns) (n0 : Int) (domains : List Str) (fetch : List (Option PolicyDoc)) (ok : Bool), UpdateReturns U n0 domains fetch ok →
    (ok = true ↔ AllGood fetch)

theorem PdExec.fine {U : CaseFns} {n0 : Int} {domains : List Str} (x : PdExec U n0 domains) (n : Nat) : PdFine U (x.state n) := by
  induction n with
  | zero => rw [x.init]; exact pdInit_fine U n0 domains
  | succ n ih => exact ih.step (x.next n)

theorem PdExec.running {U : CaseFns} {n0 : Int} {domains : List Str} (x : PdExec U n0 domains) (n : Nat) : (x.state n).crashed = false := by
  have := x.next n
  cases hc : (x.state n).crashed with
  | false => rfl
  | true => simp [pdStep, hc] at this

/-- **C65**. Among whatever else goes on - further updates, refreshes of expired entries, checks, cancellation - every call of `Update`
returns, and all goroutines of an update or of a refresh end. -/
theorem C65_returns (U : CaseFns) (n0 : Int) (domains : List Str) (x : PdExec U n0 domains) (hfair : PdFair x) (n i : Nat) (t : Task)
    (ht : (x.state n).tasks[i]? = some t) :
    ∃ m t', n ≤ m ∧ (x.state m).tasks[i]? = some t' ∧ (∀ j ∈ t'.jobs, ∃ e, j = .done e) ∧ (t'.isUpdate = true → t'.ret ≠ none) := by
  -- until the call makes a step, it stays as it is
  have hstay : ∀ n t, (x.state n).tasks[i]? = some t → ∀ k, (∀ m, n ≤ m → m < n + k → (x.act m).worksFor i = false) →
      ∃ t', (x.state (n + k)).tasks[i]? = some t' ∧ t'.left = t.left := by
    intro n t ht k
    induction k with
    | zero => intro _; exact ⟨t, ht, rfl⟩
    | succ k ih =>
      intro hno
      obtain ⟨t1, ht1, he1⟩ := ih fun m h1 h2 => hno m h1 (by omega)
      obtain ⟨t2, ht2, _, _, hn⟩ := pdStep_left (x.next (n + k)) ht1
      exact ⟨t2, ht2, (hn (hno (n + k) (by omega) (by omega))).trans he1⟩
  generalize hl : t.left = l
  induction l using Nat.strongRecOn generalizing n t with
  | _ l ih =>
    by_cases hz : l = 0
    · obtain ⟨h1, h2⟩ := Task.left_zero (hl.trans hz)
      replace h1 := Task.allDone_iff.mp h1
      exact ⟨n, t, Nat.le_refl _, ht, h1, h2⟩
    · -- some step of the call happens
      have hex : ∃ m, n ≤ m ∧ (x.act m).worksFor i = true := by
        refine Classical.byContradiction fun hnone => ?_
        have hno : ∀ m, n ≤ m → (x.act m).worksFor i = false := fun m hm => by
          cases hw : (x.act m).worksFor i with
          | false => rfl
          | true => exact absurd ⟨m, hm, hw⟩ hnone
        refine hnone (hfair i n fun m hm => ?_)
        obtain ⟨t', ht', hl'⟩ := hstay n t ht (m - n) fun k h1 _ => hno k h1
        rw [show n + (m - n) = m by omega] at ht'
        obtain ⟨a, s', ha, hs⟩ := task_ready (PdExec.fine x m) (PdExec.running x m) ht' (by omega)
        exact ⟨a, ha, by rw [hs]; rfl⟩
      -- the first one
      obtain ⟨m, ⟨hm, hw⟩, hmin⟩ : ∃ m, (n ≤ m ∧ (x.act m).worksFor i = true) ∧ ∀ k, k < m → ¬ (n ≤ k ∧ (x.act k).worksFor i = true) := by
        obtain ⟨m0, hm0⟩ := hex
        induction m0 using Nat.strongRecOn with
        | _ m0 ihm =>
          by_cases hlt : ∃ k, k < m0 ∧ n ≤ k ∧ (x.act k).worksFor i = true
          · obtain ⟨k, hk, hk'⟩ := hlt; exact ihm k hk hk'
          · exact ⟨m0, hm0, fun k hk hk' => hlt ⟨k, hk, hk'⟩⟩
      obtain ⟨t1, ht1, hl1⟩ := hstay n t ht (m - n) fun k h1 h2 => by
        cases hwk : (x.act k).worksFor i with
        | false => rfl
        | true => exact absurd ⟨h1, hwk⟩ (hmin k (by omega))
      rw [show n + (m - n) = m by omega] at ht1
      obtain ⟨t2, ht2, _, hlt2, _⟩ := pdStep_left (x.next m) ht1
      have := hlt2 hw
      obtain ⟨m', t', hm', h⟩ := ih t2.left (by omega) (m + 1) t2 ht2 rfl
      exact ⟨m', t', by omega, h⟩

theorem updateCost_eq (fetch : List (Option PolicyDoc)) : ((fetch.map Job.start).map Job.left).sum = updateCost fetch := by
  induction fetch with
  | nil => rfl
  | cons f fs ih =>
    cases f with
    | none => simp only [List.map_cons, List.sum_cons, ih, updateCost, Job.left]
    | some d => simp only [List.map_cons, List.sum_cons, ih, updateCost, Job.left, mergeInit_left]

/-- **C65**. However the goroutines are interleaved and whatever else goes on, a call of `Update` makes no more than a fixed number of
steps, and as long as it has not returned one of them is possible. -/
theorem C65_bounded (U : CaseFns) (n0 : Int) (domains : List Str) (fetch : List (Option PolicyDoc)) (pre post : List PdAct) (s0 s : PdState)
    (h0 : pdRun U (pdInit n0 domains) pre = some s0) (h : pdRun U s0 (.update fetch :: post) = some s) :
    (post.filter (PdAct.worksFor s0.tasks.length)).length ≤ updateCost fetch + 1 ∧
    ∃ t, s.tasks[s0.tasks.length]? = some t ∧
      (t.ret = none → s.crashed = false → ∃ a, a.worksFor s0.tasks.length = true ∧ (pdStep U s a).isSome) := by
  have hf0 := (pdInit_fine U n0 domains).run h0
  have hf := hf0.run h
  simp only [pdRun] at h
  split at h
  · simp at h
  · rename_i s1 hs1
    have ht : s1.tasks[s0.tasks.length]? = some ⟨s0.objs.length, true, false, fetch.map .start, none⟩ := by
      unfold pdStep at hs1
      split at hs1
      · simp at hs1
      · simp only [Option.some.injEq] at hs1; subst hs1; simp
    obtain ⟨t, ht', hu, hl⟩ := pdRun_left h ht
    have hc := updateCost_eq fetch
    refine ⟨by simp only [Task.left, hc, and_self, if_true] at hl; omega, t, ht', fun hr hcr => ?_⟩
    have hne : t.left ≠ 0 := fun hz => (Task.left_zero hz).2 hu hr
    obtain ⟨a, s', ha, hs⟩ := task_ready hf hcr ht' hne
    exact ⟨a, ha, by rw [hs]; rfl⟩

theorem updateReturns_call {U : CaseFns} {n0 : Int} {domains : List Str} {fetch : List (Option PolicyDoc)} {ok : Bool}
    (h : UpdateReturns U n0 domains fetch ok) : ∃ t, CallOf U fetch t ∧ t.cancelled = false ∧ t.ret = some ok := by
  obtain ⟨pre, post, s0, s, t, h0, h, hnc, ht, hr⟩ := h
  simp only [pdRun] at h
  split at h
  · simp at h
  · rename_i s1 hs1
    have ht1 : s1.tasks[s0.tasks.length]? = some ⟨s0.objs.length, true, false, fetch.map .start, none⟩ := by
      unfold pdStep at hs1
      split at hs1
      · simp at hs1
      · simp only [Option.some.injEq] at hs1; subst hs1; simp
    obtain ⟨t', ht', hc, hn⟩ := CallOf.run (docs := fetch) h ht1 ⟨rfl, updFrom_init U fetch, by simp, by simp⟩
    obtain rfl : t' = t := by rw [ht'] at ht; exact Option.some.inj ht
    exact ⟨t', hc, hn fun a ha he => hnc (by rw [← show a = .task s0.tasks.length .cancel from he]; exact ha), hr⟩

theorem conv_none_iff {U : CaseFns} {a : RawAssertion} : a.conv U = none ↔ ':' ∉ a.resource := by
  constructor
  · intro h hm
    obtain ⟨x, hx⟩ := (C09_newAssertion U a.action a.resource a.effect).2.2 hm
    simp [RawAssertion.conv, hx] at h
  · intro h
    have := (C09_newAssertion U a.action a.resource a.effect).1.mpr h
    simp [RawAssertion.conv, this]

/-- **C65**. If every domain has a policy without malformed resources, an `Update` that is not cancelled returns nil. -/
theorem C65_ok (U : CaseFns) (n0 : Int) (domains : List Str) (fetch : List (Option PolicyDoc)) (ok : Bool)
    (h : UpdateReturns U n0 domains fetch ok) (hg : AllGood fetch) : ok = true := by
  obtain ⟨t, hc, hcan, hr⟩ := updateReturns_call h
  cases ok with
  | true => rfl
  | false =>
    rcases hc.bad hr with hb | ⟨hd, hb⟩
    · simp [hcan] at hb
    · simp only [Task.allOk, List.all_eq_false] at hb
      obtain ⟨j, hj, hne⟩ := hb
      obtain ⟨e, rfl⟩ := Task.allDone_iff.mp hd j hj
      obtain ⟨i, hi⟩ := List.mem_iff_getElem?.mp hj
      obtain ⟨f, hf⟩ := getElem?_of_lt (l := fetch) (i := i) (by rw [← hc.jobs.1]; exact (List.getElem?_eq_some_iff.mp hi).1)
      have hfrom := hc.jobs.2 i _ f hi hf
      obtain ⟨d, rfl, hgood⟩ := hg f (List.mem_of_getElem? hf)
      cases e with
      | none => simp at hne
      | some e =>
        rcases hfrom with h1 | h1 | ⟨d', a, hd', ha, hcv⟩
        · simp [hcan] at h1
        · simp at h1
        · obtain rfl : d = d' := by simpa using hd'
          exact absurd (hgood a ha) (conv_none_iff.mp hcv)

/-- **C65**. If some domain has no policy, `Update` returns an error; and so it does if some assertion has a malformed resource, provided
that no role and action contains a comma.  Missing: names with commas. -/
theorem C65_error_partial (U : CaseFns) (n0 : Int) (domains : List Str) (fetch : List (Option PolicyDoc))
    (h : UpdateReturns U n0 domains fetch true) :
    (∀ f ∈ fetch, f ≠ none) ∧ ((∀ d, some d ∈ fetch → CommaFree d.policies.flatten) → AllGood fetch) := by
  obtain ⟨t, hc, hcan, hr⟩ := updateReturns_call h
  have hok := hc.ok hr
  have hall : ∀ f ∈ fetch, ∃ d l, f = some d ∧ Merged U d l ∧ ∀ a ∈ l, ∃ x, a.conv U = some x := by
    intro f hf
    obtain ⟨i, hi⟩ := List.mem_iff_getElem?.mp hf
    obtain ⟨j, hj⟩ := getElem?_of_lt (l := t.jobs) (i := i) (by rw [hc.jobs.1]; exact (List.getElem?_eq_some_iff.mp hi).1)
    have hfrom := hc.jobs.2 i j f hj hi
    simp only [Task.allOk, List.all_eq_true] at hok
    have := hok j (List.mem_of_getElem? hj)
    split at this
    · exact hfrom
    · simp at this
  refine ⟨fun f hf hn => ?_, fun hcf f hf => ?_⟩
  · obtain ⟨d, l, h1, _⟩ := hall f hf
    rw [hn] at h1; simp at h1
  · obtain ⟨d, l, rfl, hm, hcv⟩ := hall f hf
    refine ⟨d, rfl, fun a ha => ?_⟩
    obtain ⟨b, hb, hk⟩ := hm.cover a ha
    obtain ⟨x, hx⟩ := hcv b hb
    have hbr : ':' ∈ b.resource := by
      refine Classical.byContradiction fun hn => ?_
      rw [conv_none_iff.mpr hn] at hx; simp at hx
    rw [← (key_inj hk (hcf d hf b (hm.sub b hb)) (hcf d hf a ha)).2.2]
    exact hbr

namespace Ex

/-- Nothing is wrong with `goodKey`; the resource of `badKey` names no domain.  Both are the same if written with commas. -/
def goodKey : RawAssertion := ⟨"d:role.r".toList, "a".toList, "b:c,d".toList, "allow".toList⟩
def badKey : RawAssertion := ⟨"d:role.r".toList, "a,b:c".toList, "d".toList, "allow".toList⟩

def commaUpdate : List PdAct :=
  [.task 0 (.job 0 []), .task 0 (.job 0 []), .task 0 (.merge 0 0), .task 0 (.merge 0 0), .task 0 (.merge 0 0), .task 0 (.merge 0 0),
   .task 0 (.job 0 [goodKey]), .task 0 (.job 0 []), .task 0 (.job 0 []), .task 0 (.job 0 []), .finish 0]

theorem updateReturns_of {fetch : List (Option PolicyDoc)} {post : List PdAct} {ok : Bool}
    (h : ((pdRun asciiCase (pdInit 0 []) (.update fetch :: post)).bind fun s => (s.tasks[0]?).bind fun t => t.ret) = some ok)
    (hn : post.all (fun a => match a with | .task _ .cancel => false | _ => true) = true) :
    UpdateReturns asciiCase 0 [] fetch ok := by
  simp only [Option.bind_eq_some_iff] at h
  obtain ⟨s, hs, t, ht, hr⟩ := h
  refine ⟨[], post, pdInit 0 [], s, t, rfl, hs, fun hm => ?_, ht, hr⟩
  simp only [List.all_eq_true] at hn
  simpa using hn _ hm

/-- `C65_ok` is about something: an update of two domains that returns nil. -/
example : UpdateReturns asciiCase 0 [] [some ⟨[[goodKey]], 1000⟩, some ⟨[], 1000⟩] true ∧
    AllGood [some ⟨[[goodKey]], 1000⟩, some ⟨[], 1000⟩] := by
  refine ⟨updateReturns_of (post := [.task 0 (.job 0 []), .task 0 (.job 1 []), .task 0 (.job 0 []), .task 0 (.merge 0 0),
    .task 0 (.merge 0 0), .task 0 (.job 1 []), .task 0 (.job 0 [goodKey]), .task 0 (.job 1 []), .task 0 (.job 0 []), .task 0 (.job 0 []),
    .task 0 (.job 1 []), .task 0 (.job 0 []), .finish 0]) (by decide +kernel) (by decide +kernel), ?_⟩
  intro f hf
  simp only [List.mem_cons, List.not_mem_nil, or_false] at hf
  rcases hf with rfl | rfl
  · exact ⟨_, rfl, by decide +kernel⟩
  · exact ⟨_, rfl, by simp⟩

/-- An update that returns an error since one domain has no policy. -/
example : UpdateReturns asciiCase 0 [] [none] false :=
  updateReturns_of (post := [.task 0 (.job 0 []), .task 0 (.job 0 []), .finish 0]) (by decide +kernel) (by decide +kernel)

/-- The schedule, and then nothing but the passing of no time. -/
def pdAct (as : List PdAct) (n : Nat) : PdAct := (as[n]?).getD (.tick 0)

def pdStates (as : List PdAct) : Nat → PdState
  | 0 => pdInit 0 []
  | n + 1 => (pdStep asciiCase (pdStates as n) (pdAct as n)).getD (pdStates as n)

theorem pdStates_end {as : List PdAct} (n : Nat) : pdStates as (as.length + n) = pdStates as as.length := by
  induction n with
  | zero => rfl
  | succ n ih =>
    show (pdStep asciiCase (pdStates as (as.length + n)) (pdAct as (as.length + n))).getD _ = _
    rw [ih, show pdAct as (as.length + n) = .tick 0 by simp [pdAct]]
    simp only [pdStep]
    split
    · exact ih
    · simp

def pdExec (as : List PdAct) (h1 : ∀ n, n < as.length → (pdStep asciiCase (pdStates as n) (pdAct as n)).isSome)
    (h2 : (pdStates as as.length).crashed = false) : PdExec asciiCase 0 [] where
  state := pdStates as
  act := pdAct as
  init := rfl
  next := by
    intro n
    show pdStep asciiCase (pdStates as n) (pdAct as n) = some ((pdStep asciiCase (pdStates as n) (pdAct as n)).getD (pdStates as n))
    have hsome : (pdStep asciiCase (pdStates as n) (pdAct as n)).isSome = true := by
      by_cases hn : n < as.length
      · exact h1 n hn
      · obtain ⟨k, rfl⟩ : ∃ k, n = as.length + k := ⟨n - as.length, by omega⟩
        rw [pdStates_end, show pdAct as (as.length + k) = .tick 0 by simp [pdAct]]
        simp [pdStep, h2]
    obtain ⟨s, hs⟩ := Option.isSome_iff_exists.mp hsome
    rw [hs]; rfl

theorem pdExec_fair {as : List PdAct} {h1 : ∀ n, n < as.length → (pdStep asciiCase (pdStates as n) (pdAct as n)).isSome}
    {h2 : (pdStates as as.length).crashed = false} (h3 : ∀ t ∈ (pdStates as as.length).tasks, t.left = 0) : PdFair (pdExec as h1 h2) := by
  intro i n h
  exfalso
  obtain ⟨a, ha, hs⟩ := h (as.length + n) (by omega)
  obtain ⟨s', hs⟩ := Option.isSome_iff_exists.mp hs
  rw [show (pdExec as h1 h2).state (as.length + n) = pdStates as as.length from pdStates_end n] at hs
  cases ht : (pdStates as as.length).tasks[i]? with
  | some t =>
    obtain ⟨t', _, _, hl, _⟩ := pdStep_left hs ht
    have := hl ha
    rw [h3 t (List.mem_of_getElem? ht)] at this
    omega
  | none =>
    cases a with
    | task k u =>
      simp only [PdAct.worksFor, Bool.and_eq_true, beq_iff_eq] at ha
      obtain ⟨rfl, _⟩ := ha
      simp [pdStep, h2, ht] at hs
    | finish k =>
      simp only [PdAct.worksFor, beq_iff_eq] at ha
      subst ha
      simp [pdStep, h2, ht] at hs
    | abort k =>
      simp only [PdAct.worksFor, beq_iff_eq] at ha
      subst ha
      simp [pdStep, h2, ht] at hs
    | _ => simp [PdAct.worksFor] at ha

/-- A fair execution with an update in it. -/
example : ∃ x : PdExec asciiCase 0 [], PdFair x ∧ ∃ t, (x.state 1).tasks[0]? = some t ∧ t.ret = none ∧ t.allDone = false := by
  have h1 : ∀ n, n < (PdAct.update [some ⟨[[goodKey, badKey]], 1000⟩] :: commaUpdate).length →
      (pdStep asciiCase (pdStates (.update [some ⟨[[goodKey, badKey]], 1000⟩] :: commaUpdate) n)
        (pdAct (.update [some ⟨[[goodKey, badKey]], 1000⟩] :: commaUpdate) n)).isSome := by decide +kernel
  refine ⟨pdExec (.update [some ⟨[[goodKey, badKey]], 1000⟩] :: commaUpdate) h1 (by decide +kernel), pdExec_fair (by decide +kernel), ?_⟩
  exact ⟨_, rfl, rfl, by decide +kernel⟩

end Ex

/-- **C65** is false as it stands: an assertion whose resource names no domain is overlooked if another one is written the same with
commas. -/
theorem C65_refuted : ¬ C65_statement := by
  intro h
  have hgood : AllGood [some ⟨[[Ex.goodKey, Ex.badKey]], 1000⟩] := (h.2 asciiCase 0 [] _ true
    (Ex.updateReturns_of (post := Ex.commaUpdate) (by decide +kernel) (by decide +kernel))).mp rfl
  obtain ⟨d, hd, hg⟩ := hgood _ List.mem_cons_self
  simp only [Option.some.injEq] at hd
  subst hd
  exact absurd (hg Ex.badKey (by simp)) (by decide +kernel)

end Athenz
