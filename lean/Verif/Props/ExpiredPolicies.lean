import Verif.Proofs.ExpiryRuns
import Verif.Proofs.ExpiryHit
import Verif.Props.Examples

/-! # C89–C91: expired policies are fetched again, lookups return, goroutines do not pile up -/

namespace Athenz

open Spec Spec.XExec

/-! ## C89 -/

/-- **C89**, the full statement.  If nobody cancels anything, then whenever a lookup finds that an entry of the policies in use is expired, the hook is called for
it, which fetches the policy again, or the policies are replaced by those of another Update. -/
def C89_statement : Prop :=
  ∀ (cap : Nat) (now : Int) (x : XExec cap now), XFair x → (∀ n i, x.act n ≠ some (.cancel i)) →
    ∀ n j i k, FoundExpired (x.state n) j i k → ∃ m, n ≤ m ∧ (HookCalled x m j i k ∨ ((x.state m).obj i).stopped = true)

/-- A context that is not of Init is done only if somebody cancels it. -/
theorem ctx_not_done {cap : Nat} {now : Int} (x : XExec cap now) {n i : Nat} (hi : i < (x.state n).objs) (ho : ((x.state n).obj i).ofInit = false)
    (hc : ∀ m, x.act m ≠ some (.cancel i)) : ∀ m, n ≤ m → ((x.state m).obj i).ctxDone = false := by
  have step : ∀ s s' a, XInv s → xStep cap s a = some s' → a ≠ .cancel i →
      (((s.obj i).ctxDone = true → (s.obj i).ofInit = true) → ((s'.obj i).ctxDone = true → (s'.obj i).ofInit = true)) ∧
      (i < s.objs → i < s'.objs ∧ (s'.obj i).ofInit = (s.obj i).ofInit) := by
    intro s s' a h hs ha
    have keep : ∀ i' o, (o.ctxDone = true → o.ofInit = true ∨ (s.obj i').ctxDone = true) → o.ofInit = (s.obj i').ofInit →
        (((s.obj i).ctxDone = true → (s.obj i).ofInit = true) → (((s.setObj i' o).obj i).ctxDone = true → ((s.setObj i' o).obj i).ofInit = true)) ∧
        ((s.setObj i' o).obj i).ofInit = (s.obj i).ofInit := by
      intro i' o h1 h2
      simp only [XState.setObj]
      split
      · rename_i e
        subst e
        refine ⟨fun hh hd => ?_, h2⟩
        rcases h1 hd with h3 | h3
        · exact h3
        · rw [h2]; exact hh h3
      · exact ⟨fun hh => hh, rfl⟩
    cases a with
    | cancel i' =>
      simp only [xStep] at hs
      split at hs <;> simp only [Option.some.injEq, reduceCtorEq] at hs
      subst hs
      have : i ≠ i' := fun e => ha (by rw [e])
      simp [XState.setObj, this]
    | update b =>
      simp only [xStep, Option.some.injEq] at hs
      subst hs
      simp only [XState.setObj]
      split
      · rename_i e
        subst e
        refine ⟨?_, fun h => absurd h (by omega)⟩
        simp [XObj.new]
      · exact ⟨fun hh => hh, fun h => ⟨by omega, rfl⟩⟩
    | initRet i' =>
      simp only [xStep] at hs
      split at hs <;> simp only [Option.some.injEq, reduceCtorEq] at hs
      rename_i hp
      subst hs
      have := keep i' { s.obj i' with ctxDone := true } (fun _ => .inl hp.1) rfl
      exact ⟨this.1, fun h => ⟨h, this.2⟩⟩
    | stop i' =>
      simp only [xStep] at hs
      split at hs <;> simp only [Option.some.injEq, reduceCtorEq] at hs
      rename_i old hp
      subst hs
      simp only [XState.setObj]
      by_cases h1 : i = i' <;> by_cases h2 : i = old
      · subst h1; subst h2; simp only [if_true]; exact ⟨fun hh => hh, fun h => ⟨h, trivial⟩⟩
      · subst h1; simp only [if_neg h2, if_true]; exact ⟨fun hh => hh, fun h => ⟨h, trivial⟩⟩
      · subst h2; simp only [if_neg h1, if_true]; exact ⟨fun hh => hh, fun h => ⟨h, trivial⟩⟩
      · simp only [if_neg h1, if_neg h2]; exact ⟨fun hh => hh, fun h => ⟨h, trivial⟩⟩
    | tick _ | lookup _ => simp only [xStep, Option.some.injEq] at hs; subst hs; exact ⟨fun hh => hh, fun h => ⟨h, rfl⟩⟩
    | sweep _ _ | ret _ =>
      simp only [xStep] at hs
      split at hs <;> simp only [Option.some.injEq, reduceCtorEq] at hs
      subst hs
      exact ⟨fun hh => hh, fun h => ⟨h, rfl⟩⟩
    | get j =>
      simp only [xStep] at hs
      (repeat' split at hs) <;> simp only [Option.some.injEq, reduceCtorEq] at hs <;> subst hs
      · exact ⟨fun hh => hh, fun h => ⟨h, rfl⟩⟩
      · exact ⟨fun hh => hh, fun h => ⟨h, rfl⟩⟩
      all_goals
        have := keep (s.look j).obj { s.obj (s.look j).obj with cache := (s.obj (s.look j).obj).cache.delete (s.look j).key } (fun h => .inr h) rfl
        exact ⟨this.1, fun h => ⟨h, this.2⟩⟩
    | send j =>
      simp only [xStep] at hs
      split at hs <;> simp only [Option.some.injEq, reduceCtorEq] at hs
      subst hs
      have := keep (s.look j).obj { s.obj (s.look j).obj with queue := (s.obj (s.look j).obj).queue ++ [((s.look j).key, j)] } (fun h => .inr h) rfl
      exact ⟨this.1, fun h => ⟨h, this.2⟩⟩
    | take i' =>
      simp only [xStep] at hs
      split at hs
      · split at hs <;> simp only [Option.some.injEq, reduceCtorEq] at hs
        rename_i kj rest hq
        subst hs
        have := keep i' { s.obj i' with queue := rest } (fun h => .inr h) rfl
        exact ⟨this.1, fun h => ⟨h, this.2⟩⟩
      · simp at hs
    | hookStore _ _ _ | store _ _ _ | fail _ | start _ | enable _ | swap _ | exit _ =>
      simp only [xStep] at hs
      split at hs <;> simp only [Option.some.injEq, reduceCtorEq] at hs
      subst hs
      refine ⟨?_, fun h => ⟨h, ?_⟩⟩
      · simp only [XState.setObj]
        split
        · rename_i e
          intro hh
          rw [e] at hh
          exact hh
        · exact fun hh => hh
      · simp only [XState.setObj]
        split
        · rename_i e
          rw [e]
        · rfl
  have ne : ∀ m a, x.act m = some a → a ≠ .cancel i := fun m a ha e => hc m (by rw [ha, e])
  have h0 : ∀ m, ((x.state m).obj i).ctxDone = true → ((x.state m).obj i).ofInit = true := by
    intro m
    induction m with
    | zero => rw [x.init]; simp [xInit, XObj.new]
    | succ m ih =>
      rcases x.cases_next m with ⟨_, he⟩ | ⟨a, ha, hs⟩
      · rw [he]; exact ih
      · exact (step _ _ _ (x.inv m) hs (ne m a ha)).1 ih
  have h1 : ∀ m, n ≤ m → i < (x.state m).objs ∧ ((x.state m).obj i).ofInit = false := by
    intro m hm
    induction hm with
    | refl => exact ⟨hi, ho⟩
    | @step m _ ih =>
      rcases x.cases_next m with ⟨_, he⟩ | ⟨a, ha, hs⟩
      · rw [he]; exact ih
      · have := (step _ _ _ (x.inv m) hs (ne m a ha)).2 ih.1
        exact ⟨this.1, by rw [this.2]; exact ih.2⟩
  intro m hm
  cases hb : ((x.state m).obj i).ctxDone with
  | false => rfl
  | true =>
    have := h0 m hb
    rw [(h1 m hm).2] at this
    simp at this

/-- **C89** for the policies of every Update whose context is not cancelled, but for that of Init.  (Missing: the policies of the Update of Init.) -/
theorem C89_refreshed_partial {cap : Nat} {now : Int} (x : XExec cap now) (hf : XFair x) (n j i : Nat) (k : Str) (h : FoundExpired (x.state n) j i k)
    (ho : ((x.state n).obj i).ofInit = false) (hc : ∀ m, x.act m ≠ some (.cancel i)) :
    ∃ m, n ≤ m ∧ (HookCalled x m j i k ∨ ((x.state m).obj i).stopped = true) := by
  have hi : i < (x.state n).objs := by
    have := (x.inv n).lookObj j
    rw [h.2] at this
    exact this
  have hd := ctx_not_done x hi ho hc
  by_cases hst : ∃ m, n ≤ m ∧ ((x.state m).obj i).stopped = true
  · obtain ⟨m, hm, h'⟩ := hst
    exact ⟨m, hm, .inr h'⟩
  · obtain ⟨m, hm, _, p, hp⟩ := x.sends hf h
    have hen : ((x.state n).obj i).enabled = true := by
      have := (x.inv n).found j (by rw [h.2]; exact .inl rfl)
      rwa [h.2] at this
    obtain ⟨m', hm', hh⟩ := x.taken hf p m hp (by
      intro m' hm'
      rcases (x.inv m').alive i (.inr (x.enabled_mono hen (by omega))) with h' | h' | h'
      · exact h'
      · rw [hd m' (by omega)] at h'
        simp at h'
      · exact absurd ⟨m', by omega, h'⟩ hst)
    exact ⟨m', by omega, .inl hh⟩

/-- **C89**.  Policies that were stopped are not in use, and never will be again. -/
theorem C89_stopped (cap : Nat) (now : Int) (as as' : List XAct) (s s' : XState) (h : xRun cap (xInit now) as = some s) (h' : xRun cap s as' = some s') (i : Nat)
    (hs : (s.obj i).stopped = true) : s.live ≠ i ∧ s'.live ≠ i := by
  have h0 := (xInv_init now).run h
  have key : ∀ as s s', XInv s → xRun cap s as = some s' → (s.obj i).stopped = true → (s'.obj i).stopped = true := by
    intro as
    induction as with
    | nil => intro s s' _ hr hs; simp only [xRun, Option.some.injEq] at hr; subst hr; exact hs
    | cons a as ih =>
      intro s s' hi hr hs
      simp only [xRun, Option.bind_eq_some_iff] at hr
      obtain ⟨s1, h1, h2⟩ := hr
      exact ih s1 s' (hi.step h1) h2 ((xStep_mono hi h1 i).2.1 hs)
  exact ⟨fun e => ((h0.stopped i hs).2.1) e.symm, fun e => (((h0.run h').stopped i (key as' s s' h0 h' hs)).2.1) e.symm⟩

/-- **C89**.  After Init has returned, the hook is not called for long for the policies that it fetched: from some time on, expired entries of theirs are not
fetched again. -/
theorem C89_init {cap : Nat} {now : Int} (x : XExec cap now) (hf : XFair x) (n i : Nat) (h : x.act n = some (.initRet i)) :
    ∃ m, ∀ m', m ≤ m' → x.act m' ≠ some (.take i) := by
  have hs : xStep cap (x.state n) (.initRet i) = some (x.state (n + 1)) := by
    rcases x.cases_next n with ⟨h', _⟩ | ⟨a, ha, hs⟩
    · rw [h'] at h; simp at h
    · rw [ha] at h
      simp only [Option.some.injEq] at h
      rw [← h]
      exact hs
  have hd : ((x.state (n + 1)).obj i).ctxDone = true ∧ ((x.state (n + 1)).obj i).pc = .returned := by
    simp only [xStep] at hs
    split at hs <;> simp only [Option.some.injEq, reduceCtorEq] at hs
    rename_i hp
    rw [← hs]
    simp [XState.setObj, hp.2]
  obtain ⟨m, hm⟩ := x.told_ends hf (by simp [hd.2]) (by simp [hd.2]) (.inl hd.1)
  refine ⟨m, fun m' hm' ha => ?_⟩
  rcases x.cases_next m' with ⟨h', _⟩ | ⟨a, ha', hs'⟩
  · rw [h'] at ha; simp at ha
  · rw [ha'] at ha
    simp only [Option.some.injEq] at ha
    subst ha
    simp [xStep, hm m' hm'] at hs'

/-! ## C90 -/

/-- **C90**, the full statement.  If nobody cancels anything, every lookup of a role returns. -/
def C90_statement : Prop :=
  ∀ (cap : Nat) (now : Int) (x : XExec cap now), XFair x → (∀ n i, x.act n ≠ some (.cancel i)) → ∀ n j, j < (x.state n).looks → ∃ m, n ≤ m ∧ HasReturned (x.state m) j

/-- **C90**, what a lookup answers when it returns: it finds the role if, at the moment when it looked, the object had an entry for the role that was not expired, and only
then. -/
theorem C90_hit (cap : Nat) (now : Int) (as : List XAct) (s : XState) (h : xRun cap (xInit now) as = some s) (j : Nat) (hj : j < s.looks) (hit : Bool)
    (hr : (s.look j).pc = .returned hit) :
    ∃ pre post t, as = pre ++ .get j :: post ∧ xRun cap (xInit now) pre = some t ∧
      (hit = true ↔ ∃ e, (t.obj (s.look j).obj).cache (s.look j).key = some e ∧ (e.expire ≤ 0 ∨ t.now ≤ e.expire)) := by
  obtain ⟨pre, post, t, h1, h2, _, _, h5⟩ := (ExpiryHitP.answers cap now as s h j hj).2 hit hr
  exact ⟨pre, post, t, h1, h2, h5⟩

/-- **C90**.  A lookup that does not return has found an expired entry, waits behind as many others as the channel has room for, and the goroutine that should take
them has ended, as its context is done or the policies are not in use any more. -/
theorem C90_blocked {cap : Nat} {now : Int} (x : XExec cap now) (hf : XFair x) (n j : Nat) (hj : j < (x.state n).looks) (hn : ∀ m, n ≤ m → ¬ HasReturned (x.state m) j) :
    ∃ m, ∀ m', m ≤ m' → let i := ((x.state n).look j).obj
      ((x.state m').look j).pc = .sent ∧ ((x.state m').obj i).running = false ∧ (((x.state m').obj i).ctxDone = true ∨ ((x.state m').obj i).stopped = true) ∧
        ∃ p, cap ≤ p ∧ ((x.state m').obj i).queue[p]? = some (((x.state n).look j).key, j) := by
  generalize hI : ((x.state n).look j).obj = i
  generalize hK : ((x.state n).look j).key = k
  -- it sends its key
  have hfound : ∀ m, n ≤ m → ((x.state m).look j).pc = .found → ∃ m, n ≤ m ∧ ((x.state m).look j).pc = .sent := by
    intro m hm hp
    have hc := x.look_const hj hm
    obtain ⟨m', hm', h1, _⟩ := x.sends hf (n := m) (j := j) (i := i) (k := k) ⟨hc.1, by
      rw [← hI, ← hK, ← hc.2.1, ← hc.2.2, ← hp]⟩
    exact ⟨m', by omega, h1⟩
  have hsent : ∃ m, n ≤ m ∧ ((x.state m).look j).pc = .sent := by
    cases hp : ((x.state n).look j).pc with
    | returned b => exact absurd ⟨b, hp⟩ (hn n (Nat.le_refl _))
    | found => exact hfound n (Nat.le_refl _) hp
    | sent => exact ⟨n, Nat.le_refl _, hp⟩
    | begun =>
      obtain ⟨m, hm, hp', a, ha, ho⟩ := x.moves hf (p := .begun) hj hp (by
        intro m hm hp'
        refine ⟨.get j, .inl rfl, ?_⟩
        simp only [xStep, hp', if_true]
        split
        · rfl
        · split <;> rfl)
      have hc := x.look_const hj hm
      rcases x.cases_next m with ⟨h', _⟩ | ⟨a', ha', hs⟩
      · rw [h'] at ha; simp at ha
      · rw [ha'] at ha
        simp only [Option.some.injEq] at ha
        subst ha
        rcases ho with rfl | rfl | rfl
        · rcases (xStep_look hs j hc.1).2.2.2 with h | h | h | h
          · exfalso
            simp only [xStep, hp', if_true] at hs
            have h2 := congrArg Lookup.pc h
            rw [hp'] at h2
            (repeat' split at hs) <;> simp only [Option.some.injEq] at hs <;> rw [← hs] at h2 <;> simp [XState.setLook, XState.setObj] at h2
          · rcases h.2.2 with h | ⟨b, h⟩
            · exact hfound (m + 1) (by omega) h
            · exact absurd ⟨b, h⟩ (hn (m + 1) (by omega))
          · simp at h
          · simp at h
        · simp [xStep, hp'] at hs
        · simp [xStep, hp'] at hs
  obtain ⟨m0, hm0, hp0⟩ := hsent
  have hj0 := (x.look_const hj hm0).1
  have hn0 : ∀ m, m0 ≤ m → ¬ HasReturned (x.state m) j := fun m hm => hn m (by omega)
  have hobj : ∀ m, n ≤ m → ((x.state m).look j).obj = i := fun m hm => by rw [(x.look_const hj hm).2.1, hI]
  -- it waits from then on
  have hwait : ∀ m, m0 ≤ m → j ∈ (((x.state m).obj i).queue.drop cap).map (·.2) := by
    intro m hm
    refine Classical.byContradiction fun hq => ?_
    have hpm := (x.passed (i := i) hj0 hn0 hp0 m hm).1
    have hjm := (x.look_const hj0 hm).1
    have hnm : ∀ m', m ≤ m' → ¬ HasReturned (x.state m') j := fun m' hm' => hn m' (by omega)
    have hst := x.passed (i := i) hjm hnm hpm
    obtain ⟨m', hm', hp', a, ha, ho⟩ := x.moves hf (p := .sent) hjm hpm (by
      intro m' hm' hp'
      refine ⟨.ret j, .inr (.inr rfl), ?_⟩
      simp only [xStep, hp', hobj m' (by omega), true_and]
      rw [if_pos ((hst m' hm').2 hq)]
      rfl)
    rcases x.cases_next m' with ⟨h', _⟩ | ⟨a', ha', hs⟩
    · rw [h'] at ha; simp at ha
    · rw [ha'] at ha
      simp only [Option.some.injEq] at ha
      subst ha
      rcases ho with rfl | rfl | rfl
      · simp [xStep, hp'] at hs
      · simp [xStep, hp'] at hs
      · have := (hst (m' + 1) (by omega)).1
        simp only [xStep] at hs
        split at hs <;> simp only [Option.some.injEq, reduceCtorEq] at hs
        rw [← hs] at this
        simp [XState.setLook] at this
  have hpos : ∀ m, m0 ≤ m → ∃ p, cap ≤ p ∧ ((x.state m).obj i).queue[p]? = some (k, j) := by
    intro m hm
    obtain ⟨p, k', hc, hp⟩ := mem_drop_iff.mp (hwait m hm)
    have := ((x.inv m).queue i k' j (List.mem_of_getElem? hp)).2.1
    rw [(x.look_const hj (Nat.le_trans hm0 hm)).2.2, hK] at this
    exact ⟨p, hc, by rw [this]; exact hp⟩
  -- the goroutine ends
  have hend : ∃ m, m0 ≤ m ∧ ((x.state m).obj i).running = false := by
    refine Classical.byContradiction fun hno => ?_
    obtain ⟨p, _, hp⟩ := hpos m0 (Nat.le_refl _)
    obtain ⟨m, hm, ha, hh, _⟩ := x.taken hf p m0 hp (by
      intro m hm
      cases hb : ((x.state m).obj i).running with
      | true => rfl
      | false => exact absurd ⟨m, hm, hb⟩ hno)
    rcases x.cases_next m with ⟨h', _⟩ | ⟨a', ha', hs⟩
    · rw [h'] at ha; simp at ha
    · rw [ha'] at ha
      simp only [Option.some.injEq] at ha
      subst ha
      simp only [xStep] at hs
      split at hs
      · split at hs <;> simp only [Option.some.injEq, reduceCtorEq] at hs
        rename_i kj rest hq
        have hw := hwait (m + 1) (by omega)
        rw [← hs] at hw
        simp only [XState.setObj, if_true] at hw
        have hnd := (x.inv m).nodup i
        rw [hq] at hh hnd
        simp only [List.head?_cons, Option.some.injEq] at hh
        rw [hh] at hnd
        simp only [List.map_cons, List.nodup_cons] at hnd
        obtain ⟨t, ht, he⟩ := List.mem_map.mp hw
        exact hnd.1 (List.mem_map.mpr ⟨t, List.mem_of_mem_drop ht, he⟩)
      · simp at hs
  obtain ⟨m1, hm1, hr1⟩ := hend
  have hen : ∀ m, m0 ≤ m → ((x.state m).obj i).enabled = true := by
    intro m hm
    have := (x.inv m).found j (.inr (x.passed (i := i) hj0 hn0 hp0 m hm).1)
    rwa [hobj m (by omega)] at this
  have hpc : ((x.state m1).obj i).pc ≠ .none ∧ ((x.state m1).obj i).pc ≠ .filling := by
    constructor <;> intro h' <;> have h2 := (x.inv m1).early i (by simp [h']) <;> rw [hen m1 hm1] at h2 <;> simp at h2
  refine ⟨m1, fun m hm => ?_⟩
  have hr := x.ended hpc.1 hpc.2 hr1 m hm
  refine ⟨(x.passed (i := i) hj0 hn0 hp0 m (by omega)).1, hr, ?_, hpos m (by omega)⟩
  rcases (x.inv m).alive i (.inr (hen m (by omega))) with h' | h'
  · rw [hr] at h'; simp at h'
  · exact h'

/-- **C90** for lookups in policies that are in use, of an Update whose context is not cancelled, but for that of Init.  (Missing: lookups in policies of the Update
of Init, and in policies that are replaced while the lookup is at work.) -/
theorem C90_returns_partial {cap : Nat} {now : Int} (x : XExec cap now) (hf : XFair x) (n j : Nat) (hj : j < (x.state n).looks)
    (ho : ((x.state n).obj ((x.state n).look j).obj).ofInit = false) (hc : ∀ m, x.act m ≠ some (.cancel ((x.state n).look j).obj))
    (hs : ∀ m, ((x.state m).obj ((x.state n).look j).obj).stopped = false) : ∃ m, n ≤ m ∧ HasReturned (x.state m) j := by
  refine Classical.byContradiction fun hno => ?_
  obtain ⟨m, hm⟩ := C90_blocked x hf n j hj fun m hm h' => hno ⟨m, hm, h'⟩
  have hd := ctx_not_done x ((x.inv n).lookObj j) ho hc (max n m) (Nat.le_max_left _ _)
  rcases (hm (max n m) (Nat.le_max_right _ _)).2.2.1 with h' | h'
  · rw [hd] at h'; simp at h'
  · rw [hs] at h'; simp at h'

/-- **C90**.  With a channel of any capacity: a run of the daemon in which a lookup never returns, however it goes on.  Nobody cancels anything, but Init has returned. -/
theorem C90_stuck (cap : Nat) : ∃ as s j, xRun cap (xInit 0) as = some s ∧ (∀ i, XAct.cancel i ∉ as) ∧ j < s.looks ∧
    ∀ as' s', xRun cap s as' = some s' → ¬ HasReturned s' j := by
  refine ⟨Ex.epStuck cap, _, cap, Ex.epStuck_run cap, Ex.epStuck_noCancel cap, by simp [Ex.epLooked], ?_⟩
  intro as'
  have key : ∀ as' s s', XInv s → (s.look cap).pc = .sent ∧ (s.look cap).obj = 1 ∧ cap < s.looks ∧ (s.obj 1).running = false ∧ ((s.obj 1).pc ≠ .none ∧ (s.obj 1).pc ≠ .filling) ∧
      (∃ k, (s.obj 1).queue[cap]? = some (k, cap)) → xRun cap s as' = some s' → (s'.look cap).pc = .sent := by
    intro as'
    induction as' with
    | nil => intro s s' _ hp hr; simp only [xRun, Option.some.injEq] at hr; rw [← hr]; exact hp.1
    | cons a as' ih =>
      intro s s' hi hp hr
      simp only [xRun, Option.bind_eq_some_iff] at hr
      obtain ⟨s1, h1, h2⟩ := hr
      refine ih s1 s' (hi.step h1) ?_ h2
      obtain ⟨h3, h4, h5, h6, h7, k, h8⟩ := hp
      have hl := xStep_look h1 cap h5
      have hm := xStep_mono hi h1 1
      refine ⟨?_, by rw [hl.2.1, h4], hl.1, hm.2.2.2.2.1 h7.1 h7.2 h6, hm.2.2.2.1 h7.1 h7.2, ?_⟩
      · rcases hl.2.2.2 with h | h | h | h
        · rw [h]; exact h3
        · rw [h3] at h; simp at h
        · rw [h3] at h; simp at h
        · exfalso
          rw [h.1] at h1
          simp only [xStep] at h1
          split at h1
          · rename_i hd
            rw [h4] at hd
            exact hd.2 (mem_drop_iff.mpr ⟨cap, k, Nat.le_refl _, h8⟩)
          · simp at h1
      · rcases xStep_queue hi h1 1 with h | ⟨t, h, _⟩ | ⟨h, _⟩
        · rw [h]; exact ⟨k, h8⟩
        · rw [h, List.getElem?_append_left (List.getElem?_eq_some_iff.mp h8).1]; exact ⟨k, h8⟩
        · rw [h] at h1; simp [xStep, h6] at h1
  intro s' hr ⟨b, hb⟩
  rw [key as' _ s' ((xInv_init 0).run (Ex.epStuck_run cap)) (by simp [Ex.epLooked, List.range_succ]) hr] at hb
  simp at hb

/-- **C90** fails, whatever the capacity of the channel. -/
theorem C90_refuted (cap : Nat) : ∃ x : XExec cap 0, XFair x ∧ (∀ n i, x.act n ≠ some (.cancel i)) ∧ ∃ n j, j < (x.state n).looks ∧ ∀ m, n ≤ m → ¬ HasReturned (x.state m) j := by
  refine ⟨xExecOf (Ex.epStuck_run cap), Ex.epStuck_fair cap, ?_, (Ex.epStuck cap).length, cap, ?_, ?_⟩
  · intro n i h
    exact Ex.epStuck_noCancel cap i (List.mem_of_getElem? h)
  · rw [xExecOf_end _ (Nat.le_refl _)]; simp [Ex.epLooked]
  · intro m hm
    rw [xExecOf_end _ hm]
    rintro ⟨b, hb⟩
    simp [Ex.epLooked] at hb

theorem C90_statement_refuted : ¬ C90_statement := by
  intro h
  obtain ⟨x, hf, hc, n, j, hj, hn⟩ := C90_refuted 0
  obtain ⟨m, hm, hr⟩ := h 0 0 x hf hc n j hj
  exact hn m hm hr

/-- **C89** fails: a lookup finds an expired policy, the hook is not called for it, and the policies are not replaced; whatever the capacity of the channel. -/
theorem C89_refuted (cap : Nat) : ∃ x : XExec cap 0, XFair x ∧ (∀ n i, x.act n ≠ some (.cancel i)) ∧
    ∃ n j i k, FoundExpired (x.state n) j i k ∧ ∀ m, n ≤ m → ¬ (HookCalled x m j i k ∨ ((x.state m).obj i).stopped = true) := by
  generalize hpre : Ex.epStores (cap + 1) ++ Ex.epMid ++ Ex.epLooks cap cap ++ [.lookup (Ex.epKey cap), .get cap] = pre
  have hsp : Ex.epStuck cap = pre ++ [.send cap] := by
    rw [← hpre]
    simp [Ex.epStuck, Ex.epLooks, Ex.epLook]
  obtain ⟨s, hs, hfd⟩ := Ex.epLook_found cap cap (Nat.le_refl _)
  have hrun : xRun cap (xInit 0) pre = some s := by
    rw [← hpre, xRun_append, xRun_append, xRun_append, Ex.epStores_run, Option.bind_some, Ex.epMid_run, Option.bind_some, Ex.epLooks_run _ _ (Nat.le_succ _),
      Option.bind_some, hs]
  have hst : (xExecOf (Ex.epStuck_run cap)).state pre.length = s := by
    simp only [xExecOf, hsp, List.take_left', hrun, Option.getD_some]
  refine ⟨xExecOf (Ex.epStuck_run cap), Ex.epStuck_fair cap, ?_, pre.length, cap, 1, Ex.epKey cap, by rw [hst]; exact hfd, ?_⟩
  · intro n i h
    exact Ex.epStuck_noCancel cap i (List.mem_of_getElem? h)
  · rintro m hm (⟨h, _⟩ | h)
    · exact Ex.epStuck_noTake cap 1 (List.mem_of_getElem? h)
    · have := (xExecOf (Ex.epStuck_run cap)).stopped_mono h (Nat.le_max_left m (Ex.epStuck cap).length)
      rw [xExecOf_end _ (Nat.le_max_right _ _)] at this
      simp [Ex.epLooked] at this

theorem C89_statement_refuted : ¬ C89_statement := by
  intro h
  obtain ⟨x, hf, hc, n, j, i, k, he, hn⟩ := C89_refuted 0
  obtain ⟨m, hm, hr⟩ := h 0 0 x hf hc n j i k he
  exact hn m hm hr

/-! ## C91 -/

/-- **C91**.  A goroutine that nobody told to end is that of the policies in use, or belongs to a call of Update at work: as its own, or as that of the policies
that the call has just replaced, and is about to stop. -/
theorem C91_account (cap : Nat) (now : Int) (as : List XAct) (s : XState) (h : xRun cap (xInit now) as = some s) (i : Nat) (hk : KeepsRunning s i) :
    i = s.live ∨ InProgress s i ∨ ∃ c, InProgress s c ∧ (s.obj c).pc = .swapped i := by
  rcases ((xInv_init now).run h).one i hk.1 hk.2 with h' | h' | h' | ⟨c, h'⟩
  · exact .inl h'
  · exact .inr (.inl (by simp [InProgress, h']))
  · exact .inr (.inl (by simp [InProgress, h']))
  · exact .inr (.inr ⟨c, by simp [InProgress, h'], h'⟩)

/-- **C91**.  With no call of Update at work there is at most one such goroutine. -/
theorem C91_one (cap : Nat) (now : Int) (as : List XAct) (s : XState) (h : xRun cap (xInit now) as = some s) (hq : ∀ c, ¬ InProgress s c) (i i' : Nat)
    (hk : KeepsRunning s i) (hk' : KeepsRunning s i') : i = i' := by
  have key : ∀ i, KeepsRunning s i → i = s.live := by
    intro i hk
    rcases C91_account cap now as s h i hk with h' | h' | ⟨c, h', _⟩
    · exact h'
    · exact absurd h' (hq i)
    · exact absurd h' (hq c)
  rw [key i hk, key i' hk']

/-- **C91**.  There are at most as many as there are calls of Update at work, and one more. -/
theorem C91_count (cap : Nat) (now : Int) (as : List XAct) (s : XState) (h : xRun cap (xInit now) as = some s) (G C : List Nat) (hG : G.Nodup)
    (hk : ∀ i ∈ G, KeepsRunning s i) (hC : ∀ c, InProgress s c → c ∈ C) : G.length ≤ C.length + 1 := by
  have hi := (xInv_init now).run h
  -- each but one goes to the call it belongs to
  have own : ∀ i, ∃ c, KeepsRunning s i → i ≠ s.live → InProgress s c ∧ (((s.obj c).pc = .started ∨ (s.obj c).pc = .hooked) ∧ c = i ∨ (s.obj c).pc = .swapped i) := by
    intro i
    by_cases hk : KeepsRunning s i
    · rcases hi.one i hk.1 hk.2 with h' | h' | h' | ⟨c, h'⟩
      · exact ⟨0, fun _ hl => absurd h' hl⟩
      · exact ⟨i, fun _ _ => ⟨by simp [InProgress, h'], .inl ⟨.inl h', rfl⟩⟩⟩
      · exact ⟨i, fun _ _ => ⟨by simp [InProgress, h'], .inl ⟨.inr h', rfl⟩⟩⟩
      · exact ⟨c, fun _ _ => ⟨by simp [InProgress, h'], .inr h'⟩⟩
    · exact ⟨0, fun h' => absurd h' hk⟩
  obtain ⟨own, hown⟩ := Classical.axiomOfChoice own
  have key : ∀ G : List Nat, G.Nodup → (∀ i ∈ G, KeepsRunning s i ∧ i ≠ s.live) → (G.map own).Nodup ∧ ∀ c ∈ G.map own, c ∈ C := by
    intro G hG hk
    constructor
    · rw [List.nodup_iff_pairwise_ne, List.pairwise_map]
      rw [List.nodup_iff_pairwise_ne] at hG
      refine hG.imp_of_mem fun {i i'} hi hi' hne he => hne ?_
      have h1 := (hown i (hk i hi).1 (hk i hi).2).2
      have h2 := (hown i' (hk i' hi').1 (hk i' hi').2).2
      rw [he] at h1
      rcases h1 with ⟨h1, e1⟩ | h1 <;> rcases h2 with ⟨h2, e2⟩ | h2
      · exact e1.symm.trans e2
      · rcases h1 with h1 | h1 <;> rw [h1] at h2 <;> simp at h2
      · rcases h2 with h2 | h2 <;> rw [h2] at h1 <;> simp at h1
      · rw [h1] at h2
        simpa using h2
    · intro c hc
      obtain ⟨i, hi, rfl⟩ := List.mem_map.mp hc
      exact hC _ (hown i (hk i hi).1 (hk i hi).2).1
  have hG' : (G.erase s.live).Nodup := hG.erase _
  have := key (G.erase s.live) hG' fun i hi => by
    rw [hG.mem_erase_iff] at hi
    exact ⟨hk i hi.2, hi.1⟩
  have hle := this.1.length_le_of_subset this.2
  rw [List.length_map, List.length_erase] at hle
  split at hle <;> omega

/-- **C91**.  A goroutine that is told to end, as its context is done or its policies are replaced, ends. -/
theorem C91_ends {cap : Nat} {now : Int} (x : XExec cap now) (hf : XFair x) (n i : Nat) (hr : ((x.state n).obj i).running = true)
    (hd : ((x.state n).obj i).ctxDone = true ∨ ((x.state n).obj i).stopped = true) : ∃ m, ∀ m', m ≤ m' → ((x.state m').obj i).running = false := by
  obtain ⟨_, h1, h2⟩ := (x.inv n).running i hr
  exact x.told_ends hf h1 h2 hd

/-! ## Cases that meet the hypotheses -/

namespace Ex

/-- A periodic Update, then a lookup that finds its policy expired, up to the moment it has found it; then the hook is called. -/
def epFind : List XAct := [.update false, .store 1 (epKey 1) 1, .start 1, .enable 1, .swap 1, .stop 1, .tick 2, .lookup (epKey 1), .get 0]
def epHook : List XAct := epFind ++ [.send 0, .ret 0, .take 1]

/-- A second Update has just replaced the policies, and a third has begun; the goroutines of both objects are there. -/
def epTwo : List XAct := [.update false, .start 1, .enable 1, .swap 1, .stop 1, .update false, .start 2, .enable 2, .swap 2, .update true]

/-- Nothing can go on. -/
def epIdle (cap : Nat) (s : XState) : Bool :=
  (List.range s.looks).all (fun j => (xStep cap s (.get j)).isNone && (xStep cap s (.send j)).isNone && (xStep cap s (.ret j)).isNone) &&
    (List.range s.objs).all (fun i => (xStep cap s (.take i)).isNone && (xStep cap s (.exit i)).isNone)

theorem epIdle_fair {cap : Nat} {now : Int} {as : List XAct} {s : XState} (h : xRun cap (xInit now) as = some s) (hi : epIdle cap s = true) : XFair (xExecOf h) := by
  simp only [epIdle, Bool.and_eq_true, List.all_eq_true, List.mem_range, Option.isNone_iff_eq_none] at hi
  refine xExecOf_fair h ?_ ?_
  · intro j hj a ha
    rcases ha with rfl | rfl | rfl
    · exact (hi.1 j hj).1.1
    · exact (hi.1 j hj).1.2
    · exact (hi.1 j hj).2
  · intro i hj a ha
    rcases ha with rfl | rfl
    · exact (hi.2 i hj).1
    · exact (hi.2 i hj).2

end Ex

/-- The hypotheses of `C89_refreshed_partial` and `C90_returns_partial` are met: a fair execution in which a lookup finds a policy of a periodic Update expired, and
the policies are not replaced. -/
example : ∃ x : XExec 1 0, XFair x ∧ FoundExpired (x.state 9) 0 1 (Ex.epKey 1) ∧ ((x.state 9).obj 1).ofInit = false ∧ (∀ m i, x.act m ≠ some (.cancel i)) ∧
    ∀ m, ((x.state m).obj 1).stopped = false := by
  obtain ⟨s, hs, hp⟩ := Ex.exists_of_map (o := xRun 1 (xInit 0) Ex.epHook) (p := fun s => Ex.epIdle 1 s && !(s.obj 1).stopped) (by decide +kernel)
  simp only [Bool.and_eq_true, Bool.not_eq_true'] at hp
  obtain ⟨s9, h9, hp9⟩ := Ex.exists_of_map (o := xRun 1 (xInit 0) Ex.epFind)
    (p := fun s => decide (0 < s.looks) && decide (s.look 0 = ⟨1, Ex.epKey 1, .found⟩) && !(s.obj 1).ofInit) (by decide +kernel)
  simp only [Bool.and_eq_true, Bool.not_eq_true', decide_eq_true_eq] at hp9
  have h : (xExecOf hs).state 9 = s9 := by
    have : Ex.epHook.take 9 = Ex.epFind := rfl
    simp only [xExecOf, this, h9, Option.getD_some]
  refine ⟨xExecOf hs, Ex.epIdle_fair hs hp.1, by rw [h]; exact hp9.1, by rw [h]; exact hp9.2, ?_, ?_⟩
  · intro m i hm
    have := List.mem_of_getElem? (show Ex.epHook[m]? = some (.cancel i) from hm)
    simp [Ex.epHook, Ex.epFind] at this
  · intro m
    cases hb : (((xExecOf hs).state m).obj 1).stopped with
    | false => rfl
    | true =>
      have := (xExecOf hs).stopped_mono hb (Nat.le_max_left m Ex.epHook.length)
      rw [xExecOf_end _ (Nat.le_max_right _ _), hp.2] at this
      simp at this

/-- The hypotheses of `C89_init` and `C90_blocked` are met: Init returns, and a lookup never does. -/
example (cap : Nat) : ∃ x : XExec cap 0, XFair x ∧ (∃ n, x.act n = some (.initRet 1)) ∧ ∃ n j, j < (x.state n).looks ∧ ∀ m, n ≤ m → ¬ HasReturned (x.state m) j := by
  refine ⟨xExecOf (Ex.epStuck_run cap), Ex.epStuck_fair cap, ?_, (Ex.epStuck cap).length, cap, ?_, ?_⟩
  · obtain ⟨n, hn⟩ := List.mem_iff_getElem?.mp (show XAct.initRet 1 ∈ Ex.epStuck cap by simp [Ex.epStuck, Ex.epMid])
    exact ⟨n, hn⟩
  · rw [xExecOf_end _ (Nat.le_refl _)]; simp [Ex.epLooked]
  · intro m hm
    rw [xExecOf_end _ hm]
    rintro ⟨b, hb⟩
    simp [Ex.epLooked] at hb

/-- The hypotheses of `C89_stopped`, `C91_account` and `C91_count` are met: stopped policies; two goroutines, that of the policies in use and that of those just
replaced, with two calls of Update at work. -/
example : ∃ s, xRun 1 (xInit 0) Ex.epTwo = some s ∧ (s.obj 0).stopped = true ∧ KeepsRunning s 1 ∧ KeepsRunning s 2 ∧ s.live = 2 ∧ InProgress s 2 ∧ InProgress s 3 := by
  obtain ⟨s, hs, hp⟩ := Ex.exists_of_map (o := xRun 1 (xInit 0) Ex.epTwo)
    (p := fun s => (s.obj 0).stopped && (s.obj 1).running && !(s.obj 1).stopped && (s.obj 2).running && !(s.obj 2).stopped && decide (s.live = 2) &&
      decide ((s.obj 2).pc ≠ .none ∧ (s.obj 2).pc ≠ .returned) && decide ((s.obj 3).pc ≠ .none ∧ (s.obj 3).pc ≠ .returned)) (by decide +kernel)
  simp only [Bool.and_eq_true, Bool.not_eq_true', decide_eq_true_eq] at hp
  obtain ⟨⟨⟨⟨⟨⟨⟨h0, h1⟩, h2⟩, h3⟩, h4⟩, h5⟩, h6⟩, h7⟩ := hp
  exact ⟨s, hs, h0, ⟨h1, h2⟩, ⟨h3, h4⟩, h5, h6, h7⟩

/-- The hypotheses of `C91_one` and `C91_ends` are met: no call at work, and a goroutine that keeps running; one that is told to end. -/
example : (∃ s, xRun 1 (xInit 0) Ex.epHook = some s ∧ (∀ c, ¬ InProgress s c) ∧ KeepsRunning s 1) ∧
    ∃ (cap : Nat) (x : XExec cap 0) (n : Nat), XFair x ∧ ((x.state n).obj 1).running = true ∧ ((x.state n).obj 1).ctxDone = true := by
  constructor
  · obtain ⟨s, hs, hp⟩ := Ex.exists_of_map (o := xRun 1 (xInit 0) Ex.epHook)
      (p := fun s => decide (s.objs = 2) && decide ((s.obj 0).pc = .none) && decide ((s.obj 1).pc = .returned) && (s.obj 1).running && !(s.obj 1).stopped) (by decide +kernel)
    simp only [Bool.and_eq_true, Bool.not_eq_true', decide_eq_true_eq] at hp
    obtain ⟨⟨⟨⟨h0, h1⟩, h2⟩, h3⟩, h4⟩ := hp
    refine ⟨s, hs, ?_, h3, h4⟩
    rintro c ⟨h5, h6⟩
    by_cases hc : c < s.objs
    · have : c = 0 ∨ c = 1 := by omega
      rcases this with rfl | rfl
      · exact h5 h1
      · exact h6 h2
    · rw [((xInv_init 0).run hs).fresh c (by omega)] at h5
      exact h5 rfl
  · obtain ⟨s, hs, hp⟩ := Ex.exists_of_map (o := xRun 1 (xInit 0) [.update false, .start 1, .cancel 1, .exit 1]) (p := fun s => Ex.epIdle 1 s) (by decide +kernel)
    obtain ⟨s', hs', hp'⟩ := Ex.exists_of_map (o := xRun 1 (xInit 0) [.update false, .start 1, .cancel 1]) (p := fun s => (s.obj 1).running && (s.obj 1).ctxDone)
      (by decide +kernel)
    simp only [Bool.and_eq_true] at hp'
    have h : (xExecOf hs).state 3 = s' := by
      have : ([.update false, .start 1, .cancel 1, .exit 1] : List XAct).take 3 = [.update false, .start 1, .cancel 1] := rfl
      simp only [xExecOf, this, hs', Option.getD_some]
    exact ⟨1, xExecOf hs, 3, Ex.epIdle_fair hs hp, by rw [h]; exact hp'.1, by rw [h]; exact hp'.2⟩

/-- A lookup that finds the role, and one that comes too late, as in `C90_hit`. -/
example : (∃ s, xRun 1 (xInit 0) [.update false, .store 1 (Ex.epKey 1) 5, .start 1, .enable 1, .swap 1, .tick 2, .lookup (Ex.epKey 1), .get 0] = some s ∧ 0 < s.looks ∧
      (s.look 0).pc = .returned true) ∧
    ∃ s, xRun 1 (xInit 0) (Ex.epHook) = some s ∧ 0 < s.looks ∧ (s.look 0).pc = .returned false := by
  constructor
  · obtain ⟨s, hs, hp⟩ := Ex.exists_of_map (o := xRun 1 (xInit 0) [.update false, .store 1 (Ex.epKey 1) 5, .start 1, .enable 1, .swap 1, .tick 2, .lookup (Ex.epKey 1), .get 0])
      (p := fun s => decide (0 < s.looks) && decide ((s.look 0).pc = .returned true)) (by decide +kernel)
    exact ⟨s, hs, by simpa using hp⟩
  · obtain ⟨s, hs, hp⟩ := Ex.exists_of_map (o := xRun 1 (xInit 0) Ex.epHook)
      (p := fun s => decide (0 < s.looks) && decide ((s.look 0).pc = .returned false)) (by decide +kernel)
    exact ⟨s, hs, by simpa using hp⟩

end Athenz
