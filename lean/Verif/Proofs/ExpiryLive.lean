import Verif.Proofs.Expiry

/-! # Executions with expired policies -/

namespace Athenz

open Spec

/-- How a step changes a channel. -/
theorem xStep_queue {cap : Nat} {s s' : XState} {a : XAct} (h : XInv s) (hs : xStep cap s a = some s') (i : Nat) :
    (s'.obj i).queue = (s.obj i).queue ∨ (∃ t, (s'.obj i).queue = (s.obj i).queue ++ [t] ∧ (s.look t.2).pc = .found) ∨ (a = .take i ∧ ∃ t, (s.obj i).queue = t :: (s'.obj i).queue) := by
  have hf := h.fresh s.objs (Nat.le_refl _)
  have same : ∀ i' o, o.queue = (s.obj i').queue → ((s.setObj i' o).obj i).queue = (s.obj i).queue := by
    intro i' o ho
    simp only [XState.setObj]
    split
    · rename_i e; rw [e, ho]
    · rfl
  cases a with
  | send j =>
    simp only [xStep] at hs
    split at hs <;> simp only [Option.some.injEq, reduceCtorEq] at hs
    rename_i hp
    subst hs
    simp only [XState.setObj, XState.setLook]
    split
    · rename_i e; subst e; exact .inr (.inl ⟨_, rfl, hp⟩)
    · exact .inl rfl
  | take i' =>
    simp only [xStep] at hs
    split at hs
    · split at hs <;> simp only [Option.some.injEq, reduceCtorEq] at hs
      rename_i kj rest hq
      subst hs
      simp only [XState.setObj]
      split
      · rename_i e; subst e; exact .inr (.inr ⟨rfl, kj, hq⟩)
      · exact .inl rfl
    · simp at hs
  | stop i' =>
    simp only [xStep] at hs
    split at hs <;> simp only [Option.some.injEq, reduceCtorEq] at hs
    subst hs
    left
    simp only [XState.setObj]
    split <;> split <;> simp_all
  | get j =>
    simp only [xStep] at hs
    (repeat' split at hs) <;> simp only [Option.some.injEq, reduceCtorEq] at hs <;> subst hs
    · exact .inl rfl
    · exact .inl rfl
    · exact .inl (same _ _ rfl)
    · exact .inl (same _ _ rfl)
  | update b =>
    simp only [xStep, Option.some.injEq] at hs
    subst hs
    exact .inl (same _ _ (by rw [hf]; rfl))
  | tick _ | lookup _ => simp only [xStep, Option.some.injEq] at hs; subst hs; exact .inl rfl
  | sweep _ _ | ret _ => simp only [xStep] at hs; split at hs <;> simp only [Option.some.injEq, reduceCtorEq] at hs; subst hs; exact .inl rfl
  | hookStore _ _ _ | store _ _ _ | fail _ | start _ | enable _ | swap _ | initRet _ | cancel _ | exit _ =>
    simp only [xStep] at hs
    split at hs <;> simp only [Option.some.injEq, reduceCtorEq] at hs
    subst hs
    exact .inl (same _ _ rfl)

/-- What is done or stopped stays so, and a goroutine that has ended does not come back. -/
theorem xStep_mono {cap : Nat} {s s' : XState} {a : XAct} (h : XInv s) (hs : xStep cap s a = some s') (i : Nat) :
    ((s.obj i).ctxDone = true → (s'.obj i).ctxDone = true) ∧ ((s.obj i).stopped = true → (s'.obj i).stopped = true) ∧
    ((s.obj i).enabled = true → (s'.obj i).enabled = true) ∧
    ((s.obj i).pc ≠ .none → (s.obj i).pc ≠ .filling → (s'.obj i).pc ≠ .none ∧ (s'.obj i).pc ≠ .filling) ∧
    ((s.obj i).pc ≠ .none → (s.obj i).pc ≠ .filling → (s.obj i).running = false → (s'.obj i).running = false) ∧
    ((s'.obj i).running = false → (s.obj i).running = false ∨ a = .exit i) := by
  have hf := h.fresh s.objs (Nat.le_refl _)
  have hid : ∀ (o o' : XObj) (p : Prop), (o.ctxDone = true → o'.ctxDone = true) → (o.stopped = true → o'.stopped = true) → (o.enabled = true → o'.enabled = true) →
      (o.pc ≠ .none → o.pc ≠ .filling → o'.pc ≠ .none ∧ o'.pc ≠ .filling) → (o'.running = o.running ∨ o.pc = .none ∨ o.pc = .filling) →
      (o'.running = false → o.running = false ∨ p) →
      (o.ctxDone = true → o'.ctxDone = true) ∧ (o.stopped = true → o'.stopped = true) ∧ (o.enabled = true → o'.enabled = true) ∧
      (o.pc ≠ .none → o.pc ≠ .filling → o'.pc ≠ .none ∧ o'.pc ≠ .filling) ∧ (o.pc ≠ .none → o.pc ≠ .filling → o.running = false → o'.running = false) ∧
      (o'.running = false → o.running = false ∨ p) := by
    intro o o' p h1 h2 h3 h4 h5 h6
    refine ⟨h1, h2, h3, h4, ?_, h6⟩
    intro a b c
    rcases h5 with h | h | h
    · rw [h]; exact c
    · exact absurd h a
    · exact absurd h b
  have refl : ∀ (o : XObj) (p : Prop), (o.ctxDone = true → o.ctxDone = true) ∧ (o.stopped = true → o.stopped = true) ∧ (o.enabled = true → o.enabled = true) ∧
      (o.pc ≠ .none → o.pc ≠ .filling → o.pc ≠ .none ∧ o.pc ≠ .filling) ∧ (o.pc ≠ .none → o.pc ≠ .filling → o.running = false → o.running = false) ∧
      (o.running = false → o.running = false ∨ p) := fun o p => ⟨id, id, id, fun a b => ⟨a, b⟩, fun _ _ a => a, fun a => .inl a⟩
  cases a with
  | tick _ | lookup _ => simp only [xStep, Option.some.injEq] at hs; subst hs; exact refl _ _
  | sweep _ _ | ret _ => simp only [xStep] at hs; split at hs <;> simp only [Option.some.injEq, reduceCtorEq] at hs; subst hs; exact refl _ _
  | update b =>
    simp only [xStep, Option.some.injEq] at hs
    subst hs
    simp only [XState.setObj]
    split
    · rename_i e; subst e; rw [hf]; simp [XObj.new]
    · exact refl _ _
  | get j =>
    simp only [xStep] at hs
    (repeat' split at hs) <;> simp only [Option.some.injEq, reduceCtorEq] at hs <;> subst hs
    · exact refl _ _
    · exact refl _ _
    all_goals
      simp only [XState.setObj, XState.setLook]
      split
      · rename_i e; subst e; exact refl _ _
      · exact refl _ _
  | send j =>
    simp only [xStep] at hs
    split at hs <;> simp only [Option.some.injEq, reduceCtorEq] at hs
    subst hs
    simp only [XState.setObj, XState.setLook]
    split
    · rename_i e; subst e; exact refl _ _
    · exact refl _ _
  | take i' =>
    simp only [xStep] at hs
    split at hs
    · split at hs <;> simp only [Option.some.injEq, reduceCtorEq] at hs
      subst hs
      simp only [XState.setObj]
      split
      · rename_i e; subst e; exact refl _ _
      · exact refl _ _
    · simp at hs
  | stop i' =>
    simp only [xStep] at hs
    split at hs <;> simp only [Option.some.injEq, reduceCtorEq] at hs
    subst hs
    simp only [XState.setObj]
    rename_i old hp
    by_cases h1 : i = i' <;> by_cases h2 : i = old
    · subst h1; subst h2; simp only [if_true]; exact ⟨id, fun _ => trivial, id, fun _ _ => ⟨by simp, by simp⟩, fun _ _ a => a, fun a => .inl a⟩
    · subst h1; simp only [if_neg h2, if_true]; exact ⟨id, id, id, fun _ _ => ⟨by simp, by simp⟩, fun _ _ a => a, fun a => .inl a⟩
    · subst h2; simp only [if_neg h1, if_true]; exact ⟨id, fun _ => trivial, id, fun a b => ⟨a, b⟩, fun _ _ a => a, fun a => .inl a⟩
    · simp only [if_neg h1, if_neg h2]; exact refl _ _
  | exit i' =>
    simp only [xStep] at hs
    split at hs <;> simp only [Option.some.injEq, reduceCtorEq] at hs
    subst hs
    simp only [XState.setObj]
    split
    · rename_i e; subst e; exact ⟨id, id, id, fun a b => ⟨a, b⟩, fun _ _ _ => rfl, fun _ => .inr rfl⟩
    · exact refl _ _
  | hookStore _ _ _ | store _ _ _ =>
    simp only [xStep] at hs
    split at hs <;> simp only [Option.some.injEq, reduceCtorEq] at hs
    subst hs
    simp only [XState.setObj]
    split
    · rename_i e; subst e; exact refl _ _
    · exact refl _ _
  | initRet _ | cancel _ =>
    simp only [xStep] at hs
    split at hs <;> simp only [Option.some.injEq, reduceCtorEq] at hs
    subst hs
    simp only [XState.setObj]
    split
    · rename_i e; subst e; exact ⟨fun _ => rfl, id, id, fun a b => ⟨a, b⟩, fun _ _ a => a, fun a => .inl a⟩
    · exact refl _ _
  | fail _ | start _ | enable _ | swap _ =>
    simp only [xStep] at hs
    split at hs <;> simp only [Option.some.injEq, reduceCtorEq] at hs
    rename_i hp
    subst hs
    simp only [XState.setObj]
    split
    · rename_i e; subst e; refine hid _ _ _ ?_ ?_ ?_ ?_ ?_ ?_ <;> simp [hp]
    · exact refl _ _

/-- How a step changes a lookup. -/
theorem xStep_look {cap : Nat} {s s' : XState} {a : XAct} (hs : xStep cap s a = some s') (j : Nat) (hj : j < s.looks) :
    j < s'.looks ∧ (s'.look j).obj = (s.look j).obj ∧ (s'.look j).key = (s.look j).key ∧
    (s'.look j = s.look j ∨ (a = .get j ∧ (s.look j).pc = .begun ∧ ((s'.look j).pc = .found ∨ ∃ b, (s'.look j).pc = .returned b)) ∨
      (a = .send j ∧ (s.look j).pc = .found ∧ (s'.look j).pc = .sent ∧
        (s'.obj (s.look j).obj).queue = (s.obj (s.look j).obj).queue ++ [((s.look j).key, j)]) ∨
      (a = .ret j ∧ (s.look j).pc = .sent ∧ (s'.look j).pc = .returned false)) := by
  have hne : j ≠ s.looks := by omega
  cases a with
  | tick _ | lookup _ | update _ => simp only [xStep, Option.some.injEq] at hs; subst hs; simp [XState.setObj, XState.addLook, XState.setLook, hne] <;> omega
  | get j' =>
    simp only [xStep] at hs
    by_cases hp : (s.look j').pc = .begun
    case neg => rw [if_neg hp] at hs; simp at hs
    rw [if_pos hp] at hs
    by_cases e : j = j'
    · subst e
      split at hs
      · simp only [Option.some.injEq] at hs; subst hs; simp [XState.setLook, hp, hj]
      · split at hs
        · simp only [Option.some.injEq] at hs; subst hs; simp [XState.setLook, hp, hj]
        · simp only [Option.some.injEq] at hs; subst hs
          simp only [XState.setLook, XState.setObj, if_true, hp, true_and]
          refine ⟨hj, .inr (.inl ?_)⟩
          split
          · exact .inl rfl
          · exact .inr ⟨_, rfl⟩
    · (repeat' split at hs) <;> simp only [Option.some.injEq] at hs <;> subst hs <;> simp [XState.setLook, XState.setObj, e, hj]
  | send j' =>
    simp only [xStep] at hs
    split at hs <;> simp only [Option.some.injEq, reduceCtorEq] at hs
    rename_i hp
    subst hs
    by_cases e : j = j'
    · subst e; simp [XState.setLook, XState.setObj, hp, hj]
    · simp [XState.setLook, XState.setObj, e, hj]
  | ret j' =>
    simp only [xStep] at hs
    split at hs <;> simp only [Option.some.injEq, reduceCtorEq] at hs
    rename_i hp
    subst hs
    by_cases e : j = j'
    · subst e; simp [XState.setLook, hp.1, hj]
    · simp [XState.setLook, e, hj]
  | take i' =>
    simp only [xStep] at hs
    split at hs
    · split at hs <;> simp only [Option.some.injEq, reduceCtorEq] at hs
      subst hs
      exact ⟨hj, rfl, rfl, .inl rfl⟩
    · simp at hs
  | sweep _ _ =>
    simp only [xStep] at hs
    split at hs <;> simp only [Option.some.injEq, reduceCtorEq] at hs
    subst hs
    simp [XState.addLook, XState.setLook, hne]
    omega
  | hookStore _ _ _ | store _ _ _ | fail _ | start _ | enable _ | swap _ | initRet _ | cancel _ | stop _ | exit _ =>
    simp only [xStep] at hs
    split at hs <;> simp only [Option.some.injEq, reduceCtorEq] at hs
    subst hs
    exact ⟨hj, rfl, rfl, .inl rfl⟩

namespace Spec.XExec

variable {cap : Nat} {now : Int} (x : XExec cap now)

theorem inv (n : Nat) : XInv (x.state n) := by
  induction n with
  | zero => rw [x.init]; exact xInv_init now
  | succ n ih =>
    have := x.next n
    cases ha : x.act n with
    | none => simp only [ha] at this; rw [this]; exact ih
    | some a => simp only [ha] at this; exact ih.step this

theorem cases_next (n : Nat) : (x.act n = none ∧ x.state (n + 1) = x.state n) ∨ ∃ a, x.act n = some a ∧ xStep cap (x.state n) a = some (x.state (n + 1)) := by
  have := x.next n
  cases ha : x.act n with
  | none => simp only [ha] at this; exact .inl ⟨rfl, this⟩
  | some a => simp only [ha] at this; exact .inr ⟨a, rfl, this⟩

/-- What every step keeps is kept. -/
theorem keep {P : XState → Prop} (hP : ∀ s s' a, XInv s → P s → xStep cap s a = some s' → P s') {n : Nat} (h : P (x.state n)) : ∀ m, n ≤ m → P (x.state m) := by
  intro m hm
  induction hm with
  | refl => exact h
  | step _ ih =>
    rcases x.cases_next _ with ⟨_, he⟩ | ⟨a, _, hs⟩
    · rw [he]; exact ih
    · exact hP _ _ _ (x.inv _) ih hs

theorem done_mono {i n m : Nat} (h : ((x.state n).obj i).ctxDone = true) (hm : n ≤ m) : ((x.state m).obj i).ctxDone = true :=
  x.keep (P := fun s => (s.obj i).ctxDone = true) (fun _ _ _ hi hp hs => (xStep_mono hi hs i).1 hp) h m hm

theorem stopped_mono {i n m : Nat} (h : ((x.state n).obj i).stopped = true) (hm : n ≤ m) : ((x.state m).obj i).stopped = true :=
  x.keep (P := fun s => (s.obj i).stopped = true) (fun _ _ _ hi hp hs => (xStep_mono hi hs i).2.1 hp) h m hm

theorem enabled_mono {i n m : Nat} (h : ((x.state n).obj i).enabled = true) (hm : n ≤ m) : ((x.state m).obj i).enabled = true :=
  x.keep (P := fun s => (s.obj i).enabled = true) (fun _ _ _ hi hp hs => (xStep_mono hi hs i).2.2.1 hp) h m hm

theorem ended {i n : Nat} (h1 : ((x.state n).obj i).pc ≠ .none) (h2 : ((x.state n).obj i).pc ≠ .filling) (h : ((x.state n).obj i).running = false) :
    ∀ m, n ≤ m → ((x.state m).obj i).running = false := by
  intro m hm
  exact (x.keep (P := fun s => ((s.obj i).pc ≠ .none ∧ (s.obj i).pc ≠ .filling) ∧ (s.obj i).running = false)
    (fun _ _ _ hi hp hs => ⟨(xStep_mono hi hs i).2.2.2.1 hp.1.1 hp.1.2, (xStep_mono hi hs i).2.2.2.2.1 hp.1.1 hp.1.2 hp.2⟩) ⟨⟨h1, h2⟩, h⟩ m hm).2

theorem look_const {j n m : Nat} (hj : j < (x.state n).looks) (hm : n ≤ m) :
    j < (x.state m).looks ∧ ((x.state m).look j).obj = ((x.state n).look j).obj ∧ ((x.state m).look j).key = ((x.state n).look j).key := by
  refine x.keep (P := fun s => j < s.looks ∧ (s.look j).obj = ((x.state n).look j).obj ∧ (s.look j).key = ((x.state n).look j).key) ?_ ⟨hj, rfl, rfl⟩ m hm
  intro s s' a _ hp hs
  have := xStep_look hs j hp.1
  exact ⟨this.1, this.2.1.trans hp.2.1, this.2.2.1.trans hp.2.2⟩

theorem called {n i j : Nat} {k : Str} (ha : x.act n = some (.take i)) (hq : ((x.state n).obj i).queue[0]? = some (k, j)) : HookCalled x n j i k := by
  refine ⟨ha, by rw [List.head?_eq_getElem?]; exact hq, ?_⟩
  rcases x.cases_next n with ⟨h', _⟩ | ⟨a, ha', hs⟩
  · rw [h'] at ha; simp at ha
  · rw [ha'] at ha
    simp only [Option.some.injEq] at ha
    subst ha
    simp only [xStep] at hs
    split at hs
    · split at hs <;> simp only [Option.some.injEq, reduceCtorEq] at hs
      rename_i kj rest hq'
      rw [hq'] at hq
      simp only [List.getElem?_cons_zero, Option.some.injEq] at hq
      rw [← hs, hq]
    · simp at hs

/-- An item of the queue whose goroutine is there gets its turn. -/
theorem taken (hf : XFair x) {i j : Nat} {k : Str} : ∀ p n : Nat, ((x.state n).obj i).queue[p]? = some (k, j) → (∀ m, n ≤ m → ((x.state m).obj i).running = true) →
    ∃ m, n ≤ m ∧ HookCalled x m j i k := by
  intro p
  induction p with
  | zero =>
    intro n hq hr
    have stay : ∀ d, (∀ m, n ≤ m → m < n + d → x.act m ≠ some (.take i)) → ((x.state (n + d)).obj i).queue[0]? = some (k, j) := by
      intro d
      induction d with
      | zero => intro _; exact hq
      | succ d ih =>
        intro hno
        have h0 := ih fun m h1 h2 => hno m h1 (by omega)
        rw [← Nat.add_assoc]
        rcases x.cases_next (n + d) with ⟨_, he⟩ | ⟨a, ha, hs⟩
        · rw [he]; exact h0
        · rcases xStep_queue (x.inv _) hs i with h | ⟨t, h, _⟩ | ⟨h, _⟩
          · rw [h]; exact h0
          · rw [h, List.getElem?_append_left (by
              cases hq' : ((x.state (n + d)).obj i).queue with
              | nil => rw [hq'] at h0; simp at h0
              | cons _ _ => simp)]
            exact h0
          · exact absurd (by rw [ha, h]) (hno (n + d) (by omega) (by omega))
    by_cases hex : ∃ m, n ≤ m ∧ x.act m = some (.take i)
    · obtain ⟨m, hm, ha⟩ := hex
      obtain ⟨d, rfl⟩ := Nat.exists_eq_add_of_le hm
      suffices H : ∀ d n, ((x.state n).obj i).queue[0]? = some (k, j) → x.act (n + d) = some (.take i) → ∃ m, n ≤ m ∧ HookCalled x m j i k from H d n hq ha
      intro d
      induction d with
      | zero =>
        intro n hq ha
        exact ⟨n, Nat.le_refl _, x.called ha hq⟩
      | succ d ih =>
        intro n hq ha
        rcases x.cases_next n with ⟨_, he⟩ | ⟨a, ha', hs⟩
        · obtain ⟨m, h1, h2⟩ := ih (n + 1) (by rw [he]; exact hq) (by rw [← ha]; congr 1; omega)
          exact ⟨m, by omega, h2⟩
        · rcases xStep_queue (x.inv _) hs i with h | ⟨t, h, _⟩ | ⟨h, _⟩
          · obtain ⟨m, h1, h2⟩ := ih (n + 1) (by rw [h]; exact hq) (by rw [← ha]; congr 1; omega)
            exact ⟨m, by omega, h2⟩
          · obtain ⟨m, h1, h2⟩ := ih (n + 1) (by
              rw [h, List.getElem?_append_left (by
                cases hq' : ((x.state n).obj i).queue with
                | nil => rw [hq'] at hq; simp at hq
                | cons _ _ => simp)]
              exact hq) (by rw [← ha]; congr 1; omega)
            exact ⟨m, by omega, h2⟩
          · exact ⟨n, Nat.le_refl _, x.called (by rw [ha', h]) hq⟩
    · exfalso
      have hno : ∀ m, n ≤ m → x.act m ≠ some (.take i) := fun m hm ha => hex ⟨m, hm, ha⟩
      obtain ⟨m, a, hm, ha, ho⟩ := hf.expirers i n (by
        intro m hm
        refine ⟨.take i, .inl rfl, ?_⟩
        obtain ⟨d, rfl⟩ := Nat.exists_eq_add_of_le hm
        have := stay d fun m h1 _ => hno m h1
        simp only [xStep, hr _ hm, if_true]
        cases hq' : ((x.state (n + d)).obj i).queue with
        | nil => rw [hq'] at this; simp at this
        | cons _ _ => simp)
      rcases ho with rfl | rfl
      · exact hno m hm ha
      · have h1 := hr (m + 1) (by omega)
        rcases x.cases_next m with ⟨h, _⟩ | ⟨a', ha', hs⟩
        · rw [h] at ha; simp at ha
        · rw [ha'] at ha
          simp only [Option.some.injEq] at ha
          subst ha
          simp only [xStep] at hs
          split at hs <;> simp only [Option.some.injEq, reduceCtorEq] at hs
          rw [← hs] at h1
          simp [XState.setObj] at h1
  | succ p ih =>
    intro n hq hr
    -- the first item gets its turn
    have hlen : p + 1 < ((x.state n).obj i).queue.length := by
      refine Classical.byContradiction fun hn => ?_
      rw [List.getElem?_eq_none (by omega)] at hq
      simp at hq
    have hex : ∃ m, n ≤ m ∧ x.act m = some (.take i) := by
      refine Classical.byContradiction fun hex => ?_
      have hno : ∀ m, n ≤ m → x.act m ≠ some (.take i) := fun m hm ha => hex ⟨m, hm, ha⟩
      have stay : ∀ d, ((x.state (n + d)).obj i).queue ≠ [] := by
        intro d
        induction d with
        | zero => intro h; rw [Nat.add_zero] at h; rw [h] at hlen; simp at hlen
        | succ d ih =>
          rw [← Nat.add_assoc]
          rcases x.cases_next (n + d) with ⟨_, he⟩ | ⟨a, ha, hs⟩
          · rw [he]; exact ih
          · rcases xStep_queue (x.inv _) hs i with h | ⟨t, h, _⟩ | ⟨h, _⟩
            · rw [h]; exact ih
            · rw [h]; simp
            · exact absurd (by rw [ha, h]) (hno (n + d) (by omega))
      obtain ⟨m, a, hm, ha, ho⟩ := hf.expirers i n (by
        intro m hm
        refine ⟨.take i, .inl rfl, ?_⟩
        obtain ⟨d, rfl⟩ := Nat.exists_eq_add_of_le hm
        simp only [xStep, hr _ hm, if_true]
        cases hq' : ((x.state (n + d)).obj i).queue with
        | nil => exact absurd hq' (stay d)
        | cons _ _ => simp)
      rcases ho with rfl | rfl
      · exact hno m hm ha
      · have h1 := hr (m + 1) (by omega)
        rcases x.cases_next m with ⟨h, _⟩ | ⟨a', ha', hs⟩
        · rw [h] at ha; simp at ha
        · rw [ha'] at ha
          simp only [Option.some.injEq] at ha
          subst ha
          simp only [xStep] at hs
          split at hs <;> simp only [Option.some.injEq, reduceCtorEq] at hs
          rw [← hs] at h1
          simp [XState.setObj] at h1
    obtain ⟨m, hm, ha⟩ := hex
    obtain ⟨d, rfl⟩ := Nat.exists_eq_add_of_le hm
    suffices H : ∀ d n, ((x.state n).obj i).queue[p + 1]? = some (k, j) → (∀ m, n ≤ m → ((x.state m).obj i).running = true) → x.act (n + d) = some (.take i) →
        ∃ m, n ≤ m ∧ HookCalled x m j i k from H d n hq hr ha
    clear hq hr ha hm hlen
    intro d
    have front : ∀ n, x.act n = some (.take i) → ((x.state n).obj i).queue[p + 1]? = some (k, j) → (∀ m, n ≤ m → ((x.state m).obj i).running = true) →
        ∃ m, n ≤ m ∧ HookCalled x m j i k := by
      intro n ha hq hr
      rcases x.cases_next n with ⟨h, _⟩ | ⟨a, ha', hs⟩
      · rw [h] at ha; simp at ha
      · rw [ha'] at ha
        simp only [Option.some.injEq] at ha
        subst ha
        obtain ⟨m, h1, h2⟩ := ih (n + 1) (by
          simp only [xStep, hr n (Nat.le_refl _), if_true] at hs
          cases hq' : ((x.state n).obj i).queue with
          | nil => rw [hq'] at hq; simp at hq
          | cons t rest =>
            rw [hq'] at hs hq
            simp only [Option.some.injEq] at hs
            rw [← hs]
            simpa [XState.setObj] using hq) (fun m hm => hr m (by omega))
        exact ⟨m, by omega, h2⟩
    induction d with
    | zero => intro n hq hr ha; exact front n ha hq hr
    | succ d ihd =>
      intro n hq hr ha
      rcases x.cases_next n with ⟨_, he⟩ | ⟨a, ha', hs⟩
      · obtain ⟨m, h1, h2⟩ := ihd (n + 1) (by rw [he]; exact hq) (fun m hm => hr m (by omega)) (by rw [← ha]; congr 1; omega)
        exact ⟨m, by omega, h2⟩
      · rcases xStep_queue (x.inv _) hs i with h | ⟨t, h, _⟩ | ⟨h, _⟩
        · obtain ⟨m, h1, h2⟩ := ihd (n + 1) (by rw [h]; exact hq) (fun m hm => hr m (by omega)) (by rw [← ha]; congr 1; omega)
          exact ⟨m, by omega, h2⟩
        · obtain ⟨m, h1, h2⟩ := ihd (n + 1) (by
            rw [h, List.getElem?_append_left (by
              refine Classical.byContradiction fun hn => ?_
              rw [List.getElem?_eq_none (by omega)] at hq
              simp at hq)]
            exact hq) (fun m hm => hr m (by omega)) (by rw [← ha]; congr 1; omega)
          exact ⟨m, by omega, h2⟩
        · exact front n (by rw [ha', h]) hq hr

/-- A lookup that can go on from some time on leaves the place where it is. -/
theorem moves (hf : XFair x) {j n : Nat} {p : LkPc} (hj : j < (x.state n).looks) (hp : ((x.state n).look j).pc = p)
    (hen : ∀ m, n ≤ m → ((x.state m).look j).pc = p → ∃ a, OfLookup j a ∧ (xStep cap (x.state m) a).isSome) :
    ∃ m, n ≤ m ∧ ((x.state m).look j).pc = p ∧ ∃ a, x.act m = some a ∧ OfLookup j a := by
  refine Classical.byContradiction fun hno => ?_
  have stay : ∀ d, ((x.state (n + d)).look j).pc = p := by
    intro d
    induction d with
    | zero => exact hp
    | succ d ih =>
      rw [← Nat.add_assoc]
      rcases x.cases_next (n + d) with ⟨_, he⟩ | ⟨a, ha, hs⟩
      · rw [he]; exact ih
      · have hl := (x.look_const hj (Nat.le_add_right n d)).1
        rcases (xStep_look hs j hl).2.2.2 with h | h | h | h
        · rw [h]; exact ih
        · exact absurd ⟨n + d, by omega, ih, a, ha, .inl h.1⟩ hno
        · exact absurd ⟨n + d, by omega, ih, a, ha, .inr (.inl h.1)⟩ hno
        · exact absurd ⟨n + d, by omega, ih, a, ha, .inr (.inr h.1)⟩ hno
  obtain ⟨m, a, hm, ha, ho⟩ := hf.lookups j n fun m hm => by
    obtain ⟨d, rfl⟩ := Nat.exists_eq_add_of_le hm
    exact hen _ hm (stay d)
  obtain ⟨d, rfl⟩ := Nat.exists_eq_add_of_le hm
  exact hno ⟨_, hm, stay d, a, ha, ho⟩

/-- The number is in the list, behind the first `cap`. -/
theorem mem_drop_iff {q : List (Str × Nat)} {cap j : Nat} : j ∈ (q.drop cap).map (·.2) ↔ ∃ (p : Nat) (k : Str), cap ≤ p ∧ q[p]? = some (k, j) := by
  rw [List.mem_map]
  constructor
  · rintro ⟨⟨k, j'⟩, hm, rfl⟩
    obtain ⟨p, hp⟩ := List.mem_iff_getElem?.mp hm
    rw [List.getElem?_drop] at hp
    exact ⟨cap + p, k, by omega, hp⟩
  · rintro ⟨p, k, hc, hp⟩
    refine ⟨(k, j), List.mem_iff_getElem?.mpr ⟨p - cap, ?_⟩, rfl⟩
    rw [List.getElem?_drop, show cap + (p - cap) = p by omega]
    exact hp

/-- A lookup that has sent its key and does not wait any more never waits again. -/
theorem passed {n j i : Nat} (hj : j < (x.state n).looks) (hn : ∀ m, n ≤ m → ¬ HasReturned (x.state m) j) (hp : ((x.state n).look j).pc = .sent) :
    ∀ m, n ≤ m → ((x.state m).look j).pc = .sent ∧
      (j ∉ (((x.state n).obj i).queue.drop cap).map (·.2) → j ∉ (((x.state m).obj i).queue.drop cap).map (·.2)) := by
  intro m hm
  induction hm with
  | refl => exact ⟨hp, id⟩
  | @step m hm ih =>
    rcases x.cases_next m with ⟨_, he⟩ | ⟨a, ha, hs⟩
    · rw [he]; exact ih
    · have hl := xStep_look hs j (x.look_const hj hm).1
      refine ⟨?_, fun h0 => ?_⟩
      · rcases hl.2.2.2 with h | h | h | h
        · rw [h]; exact ih.1
        · rw [ih.1] at h; simp at h
        · rw [ih.1] at h; simp at h
        · exact absurd ⟨false, h.2.2⟩ (hn (m + 1) (Nat.le_succ_of_le hm))
      · have h1 := ih.2 h0
        rw [mem_drop_iff] at h1 ⊢
        rintro ⟨p, k, hc, hk⟩
        refine h1 ?_
        rcases xStep_queue (x.inv m) hs i with h | ⟨t, h, ht⟩ | ⟨_, t, h⟩
        · rw [h] at hk; exact ⟨p, k, hc, hk⟩
        · rw [h] at hk
          by_cases hlt : p < ((x.state m).obj i).queue.length
          · rw [List.getElem?_append_left hlt] at hk
            exact ⟨p, k, hc, hk⟩
          · rw [List.getElem?_append_right (by omega)] at hk
            have := List.mem_of_getElem? hk
            simp only [List.mem_singleton] at this
            rw [← this, ih.1] at ht
            simp at ht
        · exact ⟨p + 1, k, by omega, by rw [h]; simpa using hk⟩

/-- A lookup that has found an expired entry sends its key. -/
theorem sends (hf : XFair x) {n j i : Nat} {k : Str} (h : FoundExpired (x.state n) j i k) :
    ∃ m, n ≤ m ∧ (((x.state m).look j).pc = .sent) ∧ ∃ p : Nat, ((x.state m).obj i).queue[p]? = some (k, j) := by
  obtain ⟨m, hm, hp, a, ha, ho⟩ := x.moves hf (p := .found) h.1 (by rw [h.2]) (by
    intro m hm hp
    exact ⟨.send j, .inr (.inl rfl), by simp [xStep, hp]⟩)
  have hc := x.look_const h.1 hm
  rw [h.2] at hc
  rcases x.cases_next m with ⟨h', _⟩ | ⟨a', ha', hs⟩
  · rw [h'] at ha; simp at ha
  · rw [ha'] at ha
    simp only [Option.some.injEq] at ha
    subst ha
    rcases ho with rfl | rfl | rfl
    · simp [xStep, hp] at hs
    · have := (xStep_look hs j hc.1).2.2.2
      rcases this with h1 | h1 | h1 | h1
      · exfalso
        simp only [xStep, hp, if_true, Option.some.injEq] at hs
        rw [← hs] at h1
        have h2 := congrArg Lookup.pc h1
        simp [XState.setLook, hp] at h2
      · simp at h1
      · refine ⟨m + 1, by omega, h1.2.2.1, ((x.state m).obj i).queue.length, ?_⟩
        have := h1.2.2.2
        rw [hc.2.1, hc.2.2] at this
        rw [this]
        simp
      · simp at h1
    · simp [xStep, hp] at hs

/-- A goroutine that is told to end does. -/
theorem told_ends (hf : XFair x) {n i : Nat} (h1 : ((x.state n).obj i).pc ≠ .none) (h2 : ((x.state n).obj i).pc ≠ .filling)
    (hd : ((x.state n).obj i).ctxDone = true ∨ ((x.state n).obj i).stopped = true) : ∃ m, ∀ m', m ≤ m' → ((x.state m').obj i).running = false := by
  by_cases hr : ∃ m, n ≤ m ∧ ((x.state m).obj i).running = false
  · obtain ⟨m, hm, hr⟩ := hr
    have hpc := x.keep (P := fun s => (s.obj i).pc ≠ .none ∧ (s.obj i).pc ≠ .filling) (n := n)
      (fun _ _ _ hi hp hs => (xStep_mono hi hs i).2.2.2.1 hp.1 hp.2) ⟨h1, h2⟩ m hm
    exact ⟨m, x.ended hpc.1 hpc.2 hr⟩
  · have hr' : ∀ m, n ≤ m → ((x.state m).obj i).running = true := by
      intro m hm
      cases hb : ((x.state m).obj i).running with
      | true => rfl
      | false => exact absurd ⟨m, hm, hb⟩ hr
    obtain ⟨m, hm, ha⟩ := hf.ends i n (by
      intro m hm
      have : ((x.state m).obj i).ctxDone = true ∨ ((x.state m).obj i).stopped = true := hd.imp (fun h => x.done_mono h hm) (fun h => x.stopped_mono h hm)
      simp [xStep, hr' m hm, this])
    rcases x.cases_next m with ⟨h', _⟩ | ⟨a, ha', hs'⟩
    · rw [h'] at ha; simp at ha
    · rw [ha'] at ha
      simp only [Option.some.injEq] at ha
      subst ha
      have h1 := hr' (m + 1) (by omega)
      simp only [xStep] at hs'
      split at hs' <;> simp only [Option.some.injEq, reduceCtorEq] at hs'
      rw [← hs'] at h1
      simp [XState.setObj] at h1

end Spec.XExec

end Athenz
