import Verif.Proofs.CheckPolicy

/-! Progress and termination of `CheckPolicyRoles`. -/

namespace Athenz

/-- Everything the call started is over: all workers, the closer and the collector. -/
def CheckState.finished (s : CheckState) : Prop :=
  (∀ w ∈ s.workers, w.isDone = true) ∧ s.closed = true ∧ ∃ r, s.coll = .ret r

/-- A step of one of the goroutines of the call, as opposed to the environment. -/
def CheckAct.internal : CheckAct → Bool
  | .worker _ => true
  | .close => true
  | .recv => true
  | .cancel => false
  | .mutate _ => false

/-- Not a change of the cache. -/
def CheckAct.notMutate : CheckAct → Bool
  | .mutate _ => false
  | _ => true

section
variable {U : CaseFns} {q : CheckReq} {V : PolicyView → Prop}

theorem CheckInv.worker_step {s : CheckState} (h : CheckInv U q V s) {i : Nat} {w : Worker}
    (hw : s.workers[i]? = some w) (hd : w.isDone = false) : ∃ s', checkStep U q s (.worker i) = some s' := by
  cases w with
  | start r =>
    simp only [checkStep, hw]
    split
    · exact h.send_some hw rfl _ _
    · split <;> exact ⟨_, rfl⟩
  | scan r l =>
    cases l with
    | nil => simp only [checkStep, hw]; exact ⟨_, rfl⟩
    | cons a l =>
      simp only [checkStep, hw]
      split
      · exact h.send_some hw rfl _ _
      · split
        · exact h.send_some hw rfl _ _
        · exact ⟨_, rfl⟩
  | done => simp [Worker.isDone] at hd

theorem CheckInv.progress {s : CheckState} (h : CheckInv U q V s) (hf : ¬ s.finished) :
    ∃ a s', a.internal = true ∧ checkStep U q s a = some s' := by
  by_cases hall : ∀ w ∈ s.workers, w.isDone = true
  · cases hc : s.closed with
    | false =>
      refine ⟨.close, { s with closed := true }, rfl, ?_⟩
      simp only [checkStep, hc, Bool.false_eq_true, if_false]
      rw [if_pos]
      rw [List.all_eq_true]
      intro w hw
      have := hall w hw
      cases w <;> simp_all [Worker.isDone]
    | true =>
      cases hcol : s.coll with
      | ret r => exact absurd ⟨hall, hc, r, hcol⟩ hf
      | loop al =>
        cases hch : s.chan with
        | nil => refine ⟨.recv, ?_, rfl, ?_⟩; rotate_left; simp only [checkStep, hcol, hch, hc, if_true]; rfl
        | cons re ch =>
          cases he : re.effect with
          | none => refine ⟨.recv, ?_, rfl, ?_⟩; rotate_left; simp only [checkStep, hcol, hch, he]; rfl
          | some e => refine ⟨.recv, ?_, rfl, ?_⟩; rotate_left; simp only [checkStep, hcol, hch, he]; rfl
  · simp only [Classical.not_forall, Bool.not_eq_true] at hall
    obtain ⟨w, hw, hd⟩ := hall
    obtain ⟨i, hi⟩ := List.mem_iff_getElem?.mp hw
    obtain ⟨s', hs'⟩ := h.worker_step hi hd
    exact ⟨.worker i, s', rfl, hs'⟩

/-- Steps a worker has left if no list is longer than `L`. -/
def Worker.cost (L : Nat) : Worker → Nat
  | .start _ => L + 3
  | .scan _ l => l.length + 2
  | .done _ _ => 0

/-- Steps left. -/
def CheckState.cost (L : Nat) (s : CheckState) : Nat :=
  (s.workers.map (Worker.cost L)).sum + s.chan.length + (if s.closed then 0 else 1) +
  (match s.coll with | .loop _ => 1 | .ret _ => 0) + (if s.parent then 0 else 1)

/-- The lists of the caller's roles have at most `L` elements. -/
def ShortLists (q : CheckReq) (L : Nat) (v : PolicyView) : Prop :=
  ∀ r ∈ q.roles, ∀ l, v (roleKey q.domain r) = some l → l.length ≤ L

theorem cost_set {s : CheckState} {L i : Nat} {w : Worker} (hw : s.workers[i]? = some w) (w' : Worker) :
    ((s.workers.set i w').map (Worker.cost L)).sum + w.cost L = (s.workers.map (Worker.cost L)).sum + w'.cost L := by
  obtain ⟨pre, post, h1, h2⟩ := set_split hw
  simp only [h2]
  rw [h1]
  simp only [List.map_append, List.map_cons, List.sum_append, List.sum_cons]
  omega

theorem cost_send {s s' : CheckState} {L i : Nat} {w : Worker} {r : Str} {e : Option Err} (hw : s.workers[i]? = some w)
    (hc : 2 ≤ w.cost L) (hs : s.send q i r e = some s') : s'.cost L < s.cost L := by
  have := cost_set (L := L) hw (.done r (some e))
  have h0 : (Worker.done r (some e)).cost L = 0 := rfl
  unfold CheckState.send at hs
  split at hs
  · simp only [Option.some.injEq] at hs; subst hs
    simp only [CheckState.cost] at *
    omega
  · split at hs
    · simp only [Option.some.injEq] at hs; subst hs
      simp only [CheckState.cost, List.length_append, List.length_singleton] at *
      omega
    · simp at hs

theorem CheckInv.cost_step {s s' : CheckState} {L : Nat} (h : CheckInv U q (ShortLists q L) s) {a : CheckAct}
    (hs : checkStep U q s a = some s') :
    s'.cost L + (if a.notMutate then 1 else 0) ≤ s.cost L := by
  cases a with
  | worker i =>
    simp only [checkStep] at hs
    show s'.cost L + 1 ≤ s.cost L
    split at hs
    · rename_i role hw
      split at hs
      · exact cost_send hw (by simp [Worker.cost]) hs
      · split at hs
        · simp only [Option.some.injEq] at hs; subst hs
          have := cost_set (L := L) hw (.done role none)
          simp only [CheckState.cost, Worker.cost] at *
          omega
        · rename_i asss hv
          simp only [Option.some.injEq] at hs; subst hs
          have := cost_set (L := L) hw (.scan role asss)
          have hrole : role ∈ q.roles := by
            rw [← h.roles]
            exact List.mem_map.mpr ⟨_, List.mem_of_getElem? hw, rfl⟩
          have hl := h.view role hrole asss hv
          simp only [CheckState.cost, Worker.cost] at *
          omega
    · rename_i role hw
      simp only [Option.some.injEq] at hs; subst hs
      have := cost_set (L := L) hw (.done role none)
      simp only [CheckState.cost, Worker.cost] at *
      omega
    · rename_i role a rest hw
      split at hs
      · exact cost_send hw (by simp [Worker.cost]) hs
      · split at hs
        · exact cost_send hw (by simp [Worker.cost]) hs
        · simp only [Option.some.injEq] at hs; subst hs
          have := cost_set (L := L) hw (.scan role rest)
          simp only [CheckState.cost, Worker.cost, List.length_cons] at *
          omega
    · simp at hs
  | close =>
    simp only [checkStep] at hs
    show s'.cost L + 1 ≤ s.cost L
    split at hs
    · simp at hs
    · rename_i hc
      split at hs
      · simp only [Option.some.injEq] at hs; subst hs
        simp only [CheckState.cost] at *
        simp [hc]
        omega
      · simp at hs
  | recv =>
    simp only [checkStep] at hs
    show s'.cost L + 1 ≤ s.cost L
    split at hs
    · simp at hs
    · rename_i al hal
      split at hs
      · rename_i re ch hch
        split at hs <;>
        · simp only [Option.some.injEq] at hs; subst hs
          simp only [CheckState.cost, hal, hch, List.length_cons]
          omega
      · rename_i hch
        split at hs
        · simp only [Option.some.injEq] at hs; subst hs
          simp only [CheckState.cost, hal, hch]
          omega
        · simp at hs
  | cancel =>
    simp only [checkStep] at hs
    show s'.cost L + 1 ≤ s.cost L
    split at hs
    · simp at hs
    · rename_i hp
      simp only [Option.some.injEq] at hs; subst hs
      simp only [CheckState.cost]
      simp [hp]
  | mutate v =>
    simp only [checkStep, Option.some.injEq] at hs
    subst hs
    show _ + 0 ≤ _
    simp only [CheckState.cost]
    omega

theorem CheckInv.cost_run {s s' : CheckState} {L : Nat} (h : CheckInv U q (ShortLists q L) s) {as : List CheckAct}
    (ha : ∀ a ∈ as, ActOk (ShortLists q L) a) (hs : checkRun U q s as = some s') :
    s'.cost L + (as.filter CheckAct.notMutate).length ≤ s.cost L := by
  induction as generalizing s with
  | nil => simp only [checkRun, Option.some.injEq] at hs; subst hs; simp
  | cons a as ih =>
    simp only [checkRun] at hs
    split at hs
    · simp at hs
    · rename_i s1 hs1
      have h1 := ih (h.step (ha a (by simp)) hs1) (fun b hb => ha b (by simp [hb])) hs
      have h2 := h.cost_step hs1
      rw [List.filter_cons]
      cases hm : a.notMutate <;> simp [hm] at h2 ⊢ <;> omega

theorem cost_init (v : PolicyView) (L : Nat) : (q.init v).cost L = q.roles.length * (L + 3) + 3 := by
  have h : ∀ l : List Str, ((l.map Worker.start).map (Worker.cost L)).sum = l.length * (L + 3) := by
    intro l
    induction l with
    | nil => simp
    | cons x xs ih =>
      have hx : (Worker.start x).cost L = L + 3 := rfl
      simp only [List.map_cons, List.sum_cons, List.length_cons, ih, hx, Nat.add_mul]
      omega
  have := h q.roles
  simp only [CheckState.cost, CheckReq.init, this]
  simp

theorem checkRun_append (s : CheckState) (as bs : List CheckAct) :
    checkRun U q s (as ++ bs) = (checkRun U q s as).bind fun s' => checkRun U q s' bs := by
  induction as generalizing s with
  | nil => rfl
  | cons a as ih =>
    simp only [List.cons_append, checkRun]
    split
    · rfl
    · rename_i s1 hs1; exact ih s1

/-- From every state satisfying the invariant the goroutines of the call can finish on their own. -/
theorem CheckInv.finishes {s : CheckState} {L : Nat} (h : CheckInv U q (ShortLists q L) s) :
    ∃ as s', (∀ a ∈ as, a.internal = true) ∧ checkRun U q s as = some s' ∧ s'.finished := by
  generalize hn : s.cost L = n
  induction n using Nat.strongRecOn generalizing s with
  | _ n ih =>
    by_cases hf : s.finished
    · exact ⟨[], s, by simp, rfl, hf⟩
    · obtain ⟨a, s1, ha, hs1⟩ := h.progress hf
      have hlt := h.cost_step hs1
      have hm : a.notMutate = true := by cases a <;> simp_all [CheckAct.internal, CheckAct.notMutate]
      simp [hm] at hlt
      have hok : ActOk (ShortLists q L) a := by cases a <;> simp_all [CheckAct.internal, ActOk]
      obtain ⟨as, s2, h1, h2, h3⟩ := ih (s1.cost L) (by omega) (h.step hok hs1) rfl
      refine ⟨a :: as, s2, ?_, ?_, h3⟩
      · intro b hb
        rcases List.mem_cons.mp hb with rfl | hb
        · exact ha
        · exact h1 b hb
      · simp [checkRun, hs1, h2]

end

end Athenz
