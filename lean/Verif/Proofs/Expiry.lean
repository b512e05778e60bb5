import Verif.Spec.Expiry

/-! # Proofs about expired policies -/

namespace Athenz

open Spec

/-- The call has not published its object. -/
def XPc.Early (p : XPc) : Prop := p = .filling ∨ p = .started ∨ p = .hooked

structure XInv (s : XState) : Prop where
  fresh : ∀ i, s.objs ≤ i → s.obj i = .new .none false
  freshLook : ∀ j, s.looks ≤ j → s.look j = ⟨0, [], .returned false⟩
  live : s.live < s.objs ∧ ¬ (s.obj s.live).pc.Early
  old : ∀ i old, (s.obj i).pc = .swapped old → old < s.objs ∧ old ≠ s.live ∧ ¬ (s.obj old).pc.Early
  stopped : ∀ i, (s.obj i).stopped = true → i < s.objs ∧ i ≠ s.live ∧ ¬ (s.obj i).pc.Early
  alive : ∀ i, (s.obj i).pc = .started ∨ (s.obj i).enabled = true → (s.obj i).running = true ∨ (s.obj i).ctxDone = true ∨ (s.obj i).stopped = true
  running : ∀ i, (s.obj i).running = true → i < s.objs ∧ (s.obj i).pc ≠ .none ∧ (s.obj i).pc ≠ .filling
  one : ∀ i, (s.obj i).running = true → (s.obj i).stopped = false → i = s.live ∨ (s.obj i).pc = .started ∨ (s.obj i).pc = .hooked ∨
    ∃ c, (s.obj c).pc = .swapped i
  found : ∀ j, (s.look j).pc = .found ∨ (s.look j).pc = .sent → (s.obj (s.look j).obj).enabled = true
  queue : ∀ i k j, (k, j) ∈ (s.obj i).queue → (s.look j).obj = i ∧ (s.look j).key = k ∧ ((s.look j).pc = .sent ∨ ∃ h, (s.look j).pc = .returned h)
  nodup : ∀ i, ((s.obj i).queue.map (·.2)).Nodup
  lookObj : ∀ j, (s.look j).obj < s.objs
  hooks : ∀ t ∈ s.hooks, t.2 < s.objs
  queueLook : ∀ i k j, (k, j) ∈ (s.obj i).queue → j < s.looks
  early : ∀ i, (s.obj i).pc = .none ∨ (s.obj i).pc = .filling ∨ (s.obj i).pc = .started → (s.obj i).enabled = false

theorem xInv_init (now : Int) : XInv (xInit now) := by
  constructor <;> simp [xInit, XObj.new, XPc.Early]

/-- Only what the invariant does not read of the object changes. -/
theorem XInv.setObj {s : XState} (h : XInv s) {i : Nat} (hi : i < s.objs) {o : XObj} (h1 : o.pc = (s.obj i).pc) (h2 : (s.obj i).ctxDone = true → o.ctxDone = true)
    (h3 : o.running = (s.obj i).running) (h4 : o.stopped = (s.obj i).stopped) (h5 : o.enabled = (s.obj i).enabled) (h6 : o.queue = (s.obj i).queue) :
    XInv (s.setObj i o) := by
  have pc : ∀ i', ((s.setObj i o).obj i').pc = (s.obj i').pc := by intro i'; simp only [XState.setObj]; split <;> simp_all
  have st : ∀ i', ((s.setObj i o).obj i').stopped = (s.obj i').stopped := by intro i'; simp only [XState.setObj]; split <;> simp_all
  have ru : ∀ i', ((s.setObj i o).obj i').running = (s.obj i').running := by intro i'; simp only [XState.setObj]; split <;> simp_all
  have en : ∀ i', ((s.setObj i o).obj i').enabled = (s.obj i').enabled := by intro i'; simp only [XState.setObj]; split <;> simp_all
  have qu : ∀ i', ((s.setObj i o).obj i').queue = (s.obj i').queue := by intro i'; simp only [XState.setObj]; split <;> simp_all
  have cd : ∀ i', (s.obj i').ctxDone = true → ((s.setObj i o).obj i').ctxDone = true := by intro i'; simp only [XState.setObj]; split <;> simp_all
  constructor
  · intro i' h'
    have : i' ≠ i := by simp only [XState.setObj] at h'; omega
    simp only [XState.setObj, this, if_false]
    exact h.fresh i' h'
  · exact h.freshLook
  · simp only [pc]; exact h.live
  · simp only [pc]; exact h.old
  · simp only [pc, st]; exact h.stopped
  · intro i'
    simp only [pc, st, ru, en]
    intro h'
    rcases h.alive i' h' with h' | h' | h'
    · exact .inl h'
    · exact .inr (.inl (cd _ h'))
    · exact .inr (.inr h')
  · simp only [pc, ru]; exact h.running
  · simp only [pc, ru, st]; exact h.one
  · simp only [en]; exact h.found
  · simp only [qu]; exact h.queue
  · simp only [qu]; exact h.nodup
  · exact h.lookObj
  · exact h.hooks
  · simp only [qu]; exact h.queueLook
  · simp only [pc, en]; exact h.early

theorem XInv.lt_objs {s : XState} (h : XInv s) {i : Nat} (hp : (s.obj i).pc ≠ .none) : i < s.objs := by
  refine Classical.byContradiction fun hn => hp ?_
  rw [h.fresh i (by omega)]
  rfl

theorem XInv.lt_looks {s : XState} (h : XInv s) {j : Nat} (hp : ∀ b, (s.look j).pc ≠ .returned b) : j < s.looks := by
  refine Classical.byContradiction fun hn => hp false ?_
  rw [h.freshLook j (by omega)]

/-- The lookup goes on; the queues stay. -/
theorem XInv.setLook {s : XState} (h : XInv s) {j : Nat} (hj : j < s.looks) {l : Lookup} (h1 : l.obj = (s.look j).obj) (h2 : l.key = (s.look j).key)
    (h3 : (l.pc = .found ∨ l.pc = .sent) → (s.obj l.obj).enabled = true) (h4 : ((s.look j).pc = .sent ∨ ∃ b, (s.look j).pc = .returned b) → l.pc = .sent ∨ ∃ b, l.pc = .returned b) :
    XInv (s.setLook j l) := by
  constructor
  · exact h.fresh
  · intro j' h'
    have : j' ≠ j := by simp only [XState.setLook] at h'; omega
    simp only [XState.setLook, this, if_false]
    exact h.freshLook j' h'
  · exact h.live
  · exact h.old
  · exact h.stopped
  · exact h.alive
  · exact h.running
  · exact h.one
  · intro j'
    simp only [XState.setLook]
    split
    · exact h3
    · exact h.found j'
  · intro i k j' hm
    have hq := h.queue i k j' hm
    simp only [XState.setLook]
    split
    · rename_i he
      subst he
      exact ⟨h1.trans hq.1, h2.trans hq.2.1, h4 hq.2.2⟩
    · exact hq
  · exact h.nodup
  · intro j'
    simp only [XState.setLook]
    split
    · rw [h1]; exact h.lookObj j
    · exact h.lookObj j'
  · exact h.hooks
  · exact h.queueLook
  · exact h.early

theorem XInv.addLook {s : XState} (h : XInv s) {i : Nat} (hi : i < s.objs) (k : Str) : XInv (s.addLook i k) := by
  constructor
  · exact h.fresh
  · intro j' h'
    simp only [XState.addLook] at h'
    have : j' ≠ s.looks := by omega
    simp only [XState.addLook, XState.setLook, this, if_false]
    exact h.freshLook j' (by omega)
  · exact h.live
  · exact h.old
  · exact h.stopped
  · exact h.alive
  · exact h.running
  · exact h.one
  · intro j'
    simp only [XState.addLook, XState.setLook]
    split
    · simp
    · exact h.found j'
  · intro i' k' j' hm
    have hq := h.queue i' k' j' hm
    have hl := h.queueLook i' k' j' hm
    have : j' ≠ s.looks := by omega
    simp only [XState.addLook, XState.setLook, this, if_false]
    exact hq
  · exact h.nodup
  · intro j'
    simp only [XState.addLook, XState.setLook]
    split
    · exact hi
    · exact h.lookObj j'
  · exact h.hooks
  · intro i' k' j' hm
    have := h.queueLook i' k' j' hm
    simp only [XState.addLook]
    omega
  · exact h.early

/-- A call goes on before it publishes its object. -/
theorem XInv.setPc {s : XState} (h : XInv s) {i : Nat} {o : XObj} (hp : (s.obj i).pc.Early) (hp' : o.pc = .started ∨ o.pc = .hooked ∨ o.pc = .returned)
    (h3 : o.pc ≠ .returned → o.running = true ∨ o.ctxDone = true) (h3' : o.pc = .returned → o.running = false)
    (h4 : o.stopped = (s.obj i).stopped) (h5 : o.enabled = true ↔ o.pc = .hooked) (h5' : (s.obj i).enabled = false) (h6 : o.queue = (s.obj i).queue) : XInv (s.setObj i o) := by
  have hi : i < s.objs := h.lt_objs (by rcases hp with h | h | h <;> simp [h])
  have hl : s.live ≠ i := fun e => h.live.2 (by rw [e]; exact hp)
  have hs : (s.obj i).stopped = false := by
    cases hb : (s.obj i).stopped with
    | false => rfl
    | true => exact absurd hp (h.stopped i hb).2.2
  have st : ∀ i', ((s.setObj i o).obj i').stopped = (s.obj i').stopped := by intro i'; simp only [XState.setObj]; split <;> simp_all
  have qu : ∀ i', ((s.setObj i o).obj i').queue = (s.obj i').queue := by intro i'; simp only [XState.setObj]; split <;> simp_all
  have other : ∀ i', i' ≠ i → (s.setObj i o).obj i' = s.obj i' := by intro i' hn; simp [XState.setObj, hn]
  have this' : (s.setObj i o).obj i = o := by simp [XState.setObj]
  constructor
  · intro i' h'
    rw [other i' (by simp only [XState.setObj] at h'; omega)]
    exact h.fresh i' h'
  · exact h.freshLook
  · rw [show (s.setObj i o).live = s.live from rfl, other _ hl]; exact h.live
  · intro i' old he
    by_cases hi' : i' = i
    · subst hi'; rw [this'] at he; rcases hp' with h | h | h <;> simp [h] at he
    · rw [other _ hi'] at he
      have := h.old i' old he
      have hn : old ≠ i := fun e => this.2.2 (by rw [e]; exact hp)
      rw [other _ hn]
      exact this
  · intro i' he
    rw [st] at he
    have := h.stopped i' he
    have hn : i' ≠ i := fun e => this.2.2 (by rw [e]; exact hp)
    rw [other _ hn]
    exact this
  · intro i' he
    by_cases hi' : i' = i
    · subst hi'
      rw [this'] at he ⊢
      have : o.pc ≠ .returned := by
        rcases he with he | he
        · simp [he]
        · rw [h5.mp he]; simp
      rcases h3 this with h | h
      · exact .inl h
      · exact .inr (.inl h)
    · rw [other _ hi'] at he ⊢
      exact h.alive i' he
  · intro i' he
    by_cases hi' : i' = i
    · subst hi'
      rw [this']
      refine ⟨hi, ?_, ?_⟩ <;> rcases hp' with h | h | h <;> simp [h]
    · rw [other _ hi'] at he ⊢
      exact h.running i' he
  · intro i' he hst
    by_cases hi' : i' = i
    · subst hi'
      rw [this']
      rcases hp' with h | h | h
      · exact .inr (.inl h)
      · exact .inr (.inr (.inl h))
      · rw [this', h3' h] at he
        simp at he
    · rw [other _ hi'] at he hst ⊢
      rcases h.one i' he hst with h | h | h | ⟨c, h⟩
      · exact .inl h
      · exact .inr (.inl h)
      · exact .inr (.inr (.inl h))
      · have : c ≠ i := by
          rintro rfl
          rcases hp with h' | h' | h' <;> simp [h'] at h
        exact .inr (.inr (.inr ⟨c, by rw [other _ this]; exact h⟩))
  · intro j hj
    have := h.found j hj
    have hn : (s.look j).obj ≠ i := fun e => by rw [e, h5'] at this; simp at this
    rw [show (s.setObj i o).look = s.look from rfl, other _ hn]
    exact this
  · simp only [qu]; exact h.queue
  · simp only [qu]; exact h.nodup
  · exact h.lookObj
  · exact h.hooks
  · simp only [qu]; exact h.queueLook
  · intro i' he
    by_cases hi' : i' = i
    · subst hi'
      rw [this'] at he ⊢
      cases hb : o.enabled with
      | false => rfl
      | true =>
        rw [h5] at hb
        simp [hb] at he
    · rw [other _ hi'] at he ⊢
      exact h.early i' he

theorem XInv.step {cap : Nat} {s s' : XState} {a : XAct} (h : XInv s) (hs : xStep cap s a = some s') : XInv s' := by
  cases a with
  | tick d =>
    simp only [xStep, Option.some.injEq] at hs
    subst hs
    exact ⟨h.fresh, h.freshLook, h.live, h.old, h.stopped, h.alive, h.running, h.one, h.found, h.queue, h.nodup, h.lookObj, h.hooks, h.queueLook, h.early⟩
  | update b =>
    simp only [xStep, Option.some.injEq] at hs
    subst hs
    have other : ∀ i, i ≠ s.objs → (s.setObj s.objs (.new .filling b)).obj i = s.obj i := by intro i hn; simp [XState.setObj, hn]
    have this' : (s.setObj s.objs (.new .filling b)).obj s.objs = .new .filling b := by simp [XState.setObj]
    have hf := h.fresh s.objs (Nat.le_refl _)
    constructor
    · intro i' h'
      rw [show ({ s.setObj s.objs (.new .filling b) with objs := s.objs + 1 } : XState).obj i' = (s.setObj s.objs (.new .filling b)).obj i' from rfl]
      simp only at h'
      rw [other i' (by omega)]
      exact h.fresh i' (by omega)
    · exact h.freshLook
    · have := h.live
      refine ⟨by show s.live < s.objs + 1; omega, ?_⟩
      show ¬ ((s.setObj s.objs (.new .filling b)).obj s.live).pc.Early
      rw [other _ (by omega)]
      exact this.2
    · intro i old he
      change ((s.setObj s.objs (.new .filling b)).obj i).pc = _ at he
      show old < s.objs + 1 ∧ old ≠ s.live ∧ ¬ ((s.setObj s.objs (.new .filling b)).obj old).pc.Early
      by_cases hi : i = s.objs
      · subst hi; rw [this'] at he; simp [XObj.new] at he
      · rw [other _ hi] at he
        have := h.old i old he
        rw [other _ (by omega)]
        exact ⟨by omega, this.2⟩
    · intro i he
      change ((s.setObj s.objs (.new .filling b)).obj i).stopped = _ at he
      show i < s.objs + 1 ∧ i ≠ s.live ∧ ¬ ((s.setObj s.objs (.new .filling b)).obj i).pc.Early
      by_cases hi : i = s.objs
      · subst hi; rw [this'] at he; simp [XObj.new] at he
      · rw [other _ hi] at he ⊢
        have := h.stopped i he
        exact ⟨by omega, this.2⟩
    · intro i he
      change ((s.setObj s.objs (.new .filling b)).obj i).pc = _ ∨ ((s.setObj s.objs (.new .filling b)).obj i).enabled = _ at he
      change ((s.setObj s.objs (.new .filling b)).obj i).running = _ ∨ ((s.setObj s.objs (.new .filling b)).obj i).ctxDone = _ ∨
        ((s.setObj s.objs (.new .filling b)).obj i).stopped = _
      by_cases hi : i = s.objs
      · subst hi; rw [this'] at he; simp [XObj.new] at he
      · rw [other _ hi] at he ⊢
        exact h.alive i he
    · intro i he
      change ((s.setObj s.objs (.new .filling b)).obj i).running = _ at he
      show i < s.objs + 1 ∧ ((s.setObj s.objs (.new .filling b)).obj i).pc ≠ _ ∧ ((s.setObj s.objs (.new .filling b)).obj i).pc ≠ _
      by_cases hi : i = s.objs
      · subst hi; rw [this'] at he; simp [XObj.new] at he
      · rw [other _ hi] at he ⊢
        have := h.running i he
        exact ⟨by omega, this.2⟩
    · intro i he hst
      change ((s.setObj s.objs (.new .filling b)).obj i).running = _ at he
      change ((s.setObj s.objs (.new .filling b)).obj i).stopped = _ at hst
      show i = s.live ∨ ((s.setObj s.objs (.new .filling b)).obj i).pc = _ ∨ ((s.setObj s.objs (.new .filling b)).obj i).pc = _ ∨
        ∃ c, ((s.setObj s.objs (.new .filling b)).obj c).pc = _
      by_cases hi : i = s.objs
      · subst hi; rw [this'] at he; simp [XObj.new] at he
      · rw [other _ hi] at he hst ⊢
        rcases h.one i he hst with h' | h' | h' | ⟨c, h'⟩
        · exact .inl h'
        · exact .inr (.inl h')
        · exact .inr (.inr (.inl h'))
        · have : c ≠ s.objs := by rintro rfl; rw [hf] at h'; simp [XObj.new] at h'
          exact .inr (.inr (.inr ⟨c, by rw [other _ this]; exact h'⟩))
    · intro j hj
      show ((s.setObj s.objs (.new .filling b)).obj (s.look j).obj).enabled = true
      have := h.lookObj j
      rw [other _ (by omega)]
      exact h.found j hj
    · intro i k j hm
      change (k, j) ∈ ((s.setObj s.objs (.new .filling b)).obj i).queue at hm
      by_cases hi : i = s.objs
      · subst hi; rw [this'] at hm; simp [XObj.new] at hm
      · rw [other _ hi] at hm
        exact h.queue i k j hm
    · intro i
      show (((s.setObj s.objs (.new .filling b)).obj i).queue.map (·.2)).Nodup
      by_cases hi : i = s.objs
      · subst hi; rw [this']; simp [XObj.new]
      · rw [other _ hi]
        exact h.nodup i
    · intro j
      have := h.lookObj j
      show (s.look j).obj < s.objs + 1
      omega
    · intro t ht
      have := h.hooks t ht
      show t.2 < s.objs + 1
      omega
    · intro i k j hm
      change (k, j) ∈ ((s.setObj s.objs (.new .filling b)).obj i).queue at hm
      by_cases hi : i = s.objs
      · subst hi; rw [this'] at hm; simp [XObj.new] at hm
      · rw [other _ hi] at hm
        exact h.queueLook i k j hm
    · intro i he
      change ((s.setObj s.objs (.new .filling b)).obj i).pc = _ ∨ ((s.setObj s.objs (.new .filling b)).obj i).pc = _ ∨ ((s.setObj s.objs (.new .filling b)).obj i).pc = _ at he
      show ((s.setObj s.objs (.new .filling b)).obj i).enabled = _
      by_cases hi : i = s.objs
      · subst hi; rw [this']; rfl
      · rw [other _ hi] at he ⊢
        exact h.early i he
  | store i k ttl =>
    simp only [xStep] at hs
    split at hs <;> simp only [Option.some.injEq, reduceCtorEq] at hs
    rename_i hp
    subst hs
    exact h.setObj (h.lt_objs (by simp [hp])) rfl id rfl rfl rfl rfl
  | fail i =>
    simp only [xStep] at hs
    split at hs <;> simp only [Option.some.injEq, reduceCtorEq] at hs
    rename_i hp
    subst hs
    have he := h.early i (.inr (.inl hp))
    have hr : (s.obj i).running = false := by
      cases hb : (s.obj i).running with
      | false => rfl
      | true => exact absurd hp (h.running i hb).2.2
    exact h.setPc (.inl hp) (.inr (.inr rfl)) (by simp) (fun _ => hr) rfl (by simp [he]) he rfl
  | start i =>
    simp only [xStep] at hs
    split at hs <;> simp only [Option.some.injEq, reduceCtorEq] at hs
    rename_i hp
    subst hs
    have he := h.early i (.inr (.inl hp))
    exact h.setPc (.inl hp) (.inl rfl) (by simp) (by simp) rfl (by simp [he]) he rfl
  | enable i =>
    simp only [xStep] at hs
    split at hs <;> simp only [Option.some.injEq, reduceCtorEq] at hs
    rename_i hp
    subst hs
    have he := h.early i (.inr (.inr hp))
    have hst : (s.obj i).stopped = false := by
      cases hb : (s.obj i).stopped with
      | false => rfl
      | true => exact absurd (.inr (.inl hp)) (h.stopped i hb).2.2
    refine h.setPc (.inr (.inl hp)) (.inr (.inl rfl)) (fun _ => ?_) (by simp) rfl (by simp) he rfl
    rcases h.alive i (.inl hp) with h' | h' | h'
    · exact .inl h'
    · exact .inr h'
    · simp [hst] at h'
  | swap i =>
    simp only [xStep] at hs
    split at hs <;> simp only [Option.some.injEq, reduceCtorEq] at hs
    rename_i hp
    have hi : i < s.objs := h.lt_objs (by simp [hp])
    have hE : (s.obj i).pc.Early := .inr (.inr hp)
    have hl : s.live ≠ i := fun e => h.live.2 (by rw [e]; exact hE)
    have hsti : (s.obj i).stopped = false := by
      cases hb : (s.obj i).stopped with
      | false => rfl
      | true => exact absurd hE (h.stopped i hb).2.2
    have hobj : ∀ i', s'.obj i' = if i' = i then { s.obj i with pc := .swapped s.live } else s.obj i' := by intro i'; subst hs; rfl
    have hlive : s'.live = i := by subst hs; rfl
    have hobjs : s'.objs = s.objs := by subst hs; rfl
    have hlook : s'.look = s.look := by subst hs; rfl
    have hlooks : s'.looks = s.looks := by subst hs; rfl
    have hhooks : s'.hooks = s.hooks := by subst hs; rfl
    clear hs
    have st : ∀ i', (s'.obj i').stopped = (s.obj i').stopped := by intro i'; rw [hobj]; split <;> simp_all
    have ru : ∀ i', (s'.obj i').running = (s.obj i').running := by intro i'; rw [hobj]; split <;> simp_all
    have en : ∀ i', (s'.obj i').enabled = (s.obj i').enabled := by intro i'; rw [hobj]; split <;> simp_all
    have qu : ∀ i', (s'.obj i').queue = (s.obj i').queue := by intro i'; rw [hobj]; split <;> simp_all
    have cd : ∀ i', (s'.obj i').ctxDone = (s.obj i').ctxDone := by intro i'; rw [hobj]; split <;> simp_all
    have other : ∀ i', i' ≠ i → s'.obj i' = s.obj i' := by intro i' hn; rw [hobj]; simp [hn]
    have pci : (s'.obj i).pc = .swapped s.live := by rw [hobj]; simp
    constructor
    · intro i' h'
      rw [hobjs] at h'
      rw [other _ (by omega)]
      exact h.fresh i' h'
    · rw [hlook, hlooks]; exact h.freshLook
    · rw [hlive, hobjs, pci]
      exact ⟨hi, by simp [XPc.Early]⟩
    · intro i' old he
      rw [hobjs, hlive]
      by_cases hi' : i' = i
      · subst hi'
        rw [pci] at he
        simp only [XPc.swapped.injEq] at he
        subst he
        rw [other _ hl]
        exact ⟨h.live.1, hl, h.live.2⟩
      · rw [other _ hi'] at he
        have := h.old i' old he
        have hn : old ≠ i := fun e => this.2.2 (by rw [e]; exact hE)
        rw [other _ hn]
        exact ⟨this.1, hn, this.2.2⟩
    · intro i' he
      rw [hobjs, hlive]
      rw [st] at he
      have := h.stopped i' he
      have hn : i' ≠ i := fun e => this.2.2 (by rw [e]; exact hE)
      rw [other _ hn]
      exact ⟨this.1, hn, this.2.2⟩
    · intro i' he
      rw [ru, cd, st]
      by_cases hi' : i' = i
      · subst hi'
        rw [pci, en] at he
        exact h.alive i' (.inr (by simpa using he))
      · rw [other _ hi'] at he
        exact h.alive i' he
    · intro i' he
      rw [ru] at he
      have := h.running i' he
      rw [hobjs]
      by_cases hi' : i' = i
      · subst hi'
        rw [pci]
        exact ⟨hi, by simp, by simp⟩
      · rw [other _ hi']
        exact this
    · intro i' he hst
      rw [ru] at he
      rw [st] at hst
      rw [hlive]
      by_cases hi' : i' = i
      · exact .inl hi'
      · rw [other _ hi']
        rcases h.one i' he hst with h' | h' | h' | ⟨c, h'⟩
        · exact .inr (.inr (.inr ⟨i, by rw [pci, h']⟩))
        · exact .inr (.inl h')
        · exact .inr (.inr (.inl h'))
        · have : c ≠ i := by rintro rfl; simp [hp] at h'
          exact .inr (.inr (.inr ⟨c, by rw [other _ this]; exact h'⟩))
    · intro j hj
      rw [hlook] at hj ⊢
      rw [en]
      exact h.found j hj
    · simp only [qu, hlook]; exact h.queue
    · simp only [qu]; exact h.nodup
    · rw [hlook, hobjs]; exact h.lookObj
    · rw [hhooks, hobjs]; exact h.hooks
    · simp only [qu, hlooks]; exact h.queueLook
    · intro i' he
      rw [en]
      by_cases hi' : i' = i
      · subst hi'; rw [pci] at he; simp at he
      · rw [other _ hi'] at he; exact h.early i' he
  | stop i =>
    simp only [xStep] at hs
    split at hs <;> simp only [Option.some.injEq, reduceCtorEq] at hs
    rename_i old hp
    have hold := h.old i old hp
    have hi : i < s.objs := h.lt_objs (by simp [hp])
    have hlive : s'.live = s.live := by subst hs; rfl
    have hobjs : s'.objs = s.objs := by subst hs; rfl
    have hlook : s'.look = s.look := by subst hs; rfl
    have hlooks : s'.looks = s.looks := by subst hs; rfl
    have hhooks : s'.hooks = s.hooks := by subst hs; rfl
    have hne : ∀ i', i' ≠ i → i' ≠ old → s'.obj i' = s.obj i' := by intro i' h1 h2; subst hs; simp [XState.setObj, h1, h2]
    have pc : ∀ i', (s'.obj i').pc = if i' = i then .returned else (s.obj i').pc := by
      intro i'; subst hs; simp only [XState.setObj]; split <;> split <;> simp_all
    have st : ∀ i', (s'.obj i').stopped = if i' = old then true else (s.obj i').stopped := by
      intro i'; subst hs; simp only [XState.setObj]; split <;> (try split) <;> simp_all
    have ru : ∀ i', (s'.obj i').running = (s.obj i').running := by intro i'; subst hs; simp only [XState.setObj]; split <;> split <;> simp_all
    have en : ∀ i', (s'.obj i').enabled = (s.obj i').enabled := by intro i'; subst hs; simp only [XState.setObj]; split <;> split <;> simp_all
    have qu : ∀ i', (s'.obj i').queue = (s.obj i').queue := by intro i'; subst hs; simp only [XState.setObj]; split <;> split <;> simp_all
    have cd : ∀ i', (s'.obj i').ctxDone = (s.obj i').ctxDone := by intro i'; subst hs; simp only [XState.setObj]; split <;> split <;> simp_all
    clear hs
    have early : ∀ i', (s'.obj i').pc.Early → (s.obj i').pc.Early := by
      intro i' he; rw [pc] at he; split at he
      · simp [XPc.Early] at he
      · exact he
    constructor
    · intro i' h'
      rw [hobjs] at h'
      rw [hne i' (by omega) (by omega)]
      exact h.fresh i' h'
    · rw [hlook, hlooks]; exact h.freshLook
    · rw [hlive, hobjs]
      exact ⟨h.live.1, fun he => h.live.2 (early _ he)⟩
    · intro i' o he
      rw [hobjs, hlive]
      rw [pc] at he
      split at he
      · simp at he
      · have := h.old i' o he
        exact ⟨this.1, this.2.1, fun he => this.2.2 (early _ he)⟩
    · intro i' he
      rw [hobjs, hlive]
      rw [st] at he
      split at he
      · rename_i e
        subst e
        exact ⟨hold.1, hold.2.1, fun he => hold.2.2 (early _ he)⟩
      · have := h.stopped i' he
        exact ⟨this.1, this.2.1, fun he => this.2.2 (early _ he)⟩
    · intro i' he
      rw [ru, cd, st]
      have : (s.obj i').pc = .started ∨ (s.obj i').enabled = true := by
        rw [pc, en] at he
        split at he
        · exact .inr (by simpa using he)
        · exact he
      rcases h.alive i' this with h' | h' | h'
      · exact .inl h'
      · exact .inr (.inl h')
      · exact .inr (.inr (by simp [h']))
    · intro i' he
      rw [ru] at he
      have := h.running i' he
      rw [hobjs, pc]
      refine ⟨this.1, ?_, ?_⟩ <;> split <;> simp [this.2]
    · intro i' he hst
      rw [ru] at he
      rw [st] at hst
      split at hst
      · simp at hst
      rename_i hno
      rw [hlive]
      rcases h.one i' he hst with h' | h' | h' | ⟨c, h'⟩
      · exact .inl h'
      · refine .inr (.inl ?_)
        rw [pc, if_neg (by rintro rfl; simp [hp] at h')]
        exact h'
      · refine .inr (.inr (.inl ?_))
        rw [pc, if_neg (by rintro rfl; simp [hp] at h')]
        exact h'
      · refine .inr (.inr (.inr ⟨c, ?_⟩))
        rw [pc, if_neg (by rintro rfl; rw [hp] at h'; simp at h'; exact hno h'.symm)]
        exact h'
    · intro j hj
      rw [hlook] at hj ⊢
      rw [en]
      exact h.found j hj
    · simp only [qu, hlook]; exact h.queue
    · simp only [qu]; exact h.nodup
    · rw [hlook, hobjs]; exact h.lookObj
    · rw [hhooks, hobjs]; exact h.hooks
    · simp only [qu, hlooks]; exact h.queueLook
    · intro i' he
      rw [en]
      rw [pc] at he
      split at he
      · simp at he
      · exact h.early i' he
  | initRet i =>
    simp only [xStep] at hs
    split at hs <;> simp only [Option.some.injEq, reduceCtorEq] at hs
    rename_i hp
    subst hs
    exact h.setObj (h.lt_objs (by simp [hp.2])) rfl (fun _ => rfl) rfl rfl rfl rfl
  | cancel i =>
    simp only [xStep] at hs
    split at hs <;> simp only [Option.some.injEq, reduceCtorEq] at hs
    rename_i hp
    subst hs
    exact h.setObj hp rfl (fun _ => rfl) rfl rfl rfl rfl
  | lookup k =>
    simp only [xStep, Option.some.injEq] at hs
    subst hs
    exact h.addLook h.live.1 k
  | sweep i k =>
    simp only [xStep] at hs
    split at hs <;> simp only [Option.some.injEq, reduceCtorEq] at hs
    rename_i hp
    subst hs
    exact h.addLook (h.lt_objs fun e => hp (.inl e)) k
  | get j =>
    simp only [xStep] at hs
    split at hs
    · rename_i hp
      have hj := h.lt_looks (j := j) (by simp [hp])
      split at hs
      · simp only [Option.some.injEq] at hs
        subst hs
        exact h.setLook hj rfl rfl (by simp) (by simp)
      · split at hs
        · simp only [Option.some.injEq] at hs
          subst hs
          exact h.setLook hj rfl rfl (by simp) (by simp)
        · simp only [Option.some.injEq] at hs
          subst hs
          have h1 := h.setObj (h.lookObj j) (o := { s.obj (s.look j).obj with cache := (s.obj (s.look j).obj).cache.delete (s.look j).key }) rfl id rfl rfl rfl rfl
          refine h1.setLook hj rfl rfl ?_ ?_
          · intro he
            simp only [XState.setObj, if_true]
            cases hb : (s.obj (s.look j).obj).enabled with
            | true => rfl
            | false => simp [hb] at he
          · simp [XState.setObj, hp]
    · simp at hs
  | send j =>
    simp only [xStep] at hs
    split at hs
    · rename_i hp
      have hj := h.lt_looks (j := j) (by simp [hp])
      simp only [Option.some.injEq] at hs
      have hen := h.found j (.inl hp)
      have hobj : ∀ i', s'.obj i' = if i' = (s.look j).obj then { s.obj (s.look j).obj with queue := (s.obj (s.look j).obj).queue ++ [((s.look j).key, j)] } else s.obj i' := by
        intro i'; subst hs; rfl
      have hlook : ∀ j', s'.look j' = if j' = j then { s.look j with pc := .sent } else s.look j' := by intro j'; subst hs; rfl
      have hlive : s'.live = s.live := by subst hs; rfl
      have hobjs : s'.objs = s.objs := by subst hs; rfl
      have hlooks : s'.looks = s.looks := by subst hs; rfl
      have hhooks : s'.hooks = s.hooks := by subst hs; rfl
      clear hs
      have pc : ∀ i', (s'.obj i').pc = (s.obj i').pc := by intro i'; rw [hobj]; split <;> simp_all
      have st : ∀ i', (s'.obj i').stopped = (s.obj i').stopped := by intro i'; rw [hobj]; split <;> simp_all
      have ru : ∀ i', (s'.obj i').running = (s.obj i').running := by intro i'; rw [hobj]; split <;> simp_all
      have en : ∀ i', (s'.obj i').enabled = (s.obj i').enabled := by intro i'; rw [hobj]; split <;> simp_all
      have cd : ∀ i', (s'.obj i').ctxDone = (s.obj i').ctxDone := by intro i'; rw [hobj]; split <;> simp_all
      have lo : ∀ j', (s'.look j').obj = (s.look j').obj := by intro j'; rw [hlook]; split <;> simp_all
      have lk : ∀ j', (s'.look j').key = (s.look j').key := by intro j'; rw [hlook]; split <;> simp_all
      have hin : ∀ i k, (k, j) ∉ (s.obj i).queue := by
        intro i k hm
        rcases (h.queue i k j hm).2.2 with h' | ⟨b, h'⟩ <;> simp [hp] at h'
      have mem : ∀ i k j', (k, j') ∈ (s'.obj i).queue → (k, j') ∈ (s.obj i).queue ∨ (i = (s.look j).obj ∧ k = (s.look j).key ∧ j' = j) := by
        intro i k j' hm
        rw [hobj] at hm
        split at hm
        · rename_i e
          subst e
          simp only [List.mem_append, List.mem_singleton, Prod.mk.injEq] at hm
          rcases hm with hm | hm
          · exact .inl hm
          · exact .inr ⟨rfl, hm⟩
        · exact .inl hm
      constructor
      · intro i' h'
        rw [hobjs] at h'
        have := h.lookObj j
        rw [hobj, if_neg (by omega)]
        exact h.fresh i' h'
      · intro j' h'
        rw [hlooks] at h'
        rw [hlook, if_neg (by omega)]
        exact h.freshLook j' h'
      · rw [hlive, hobjs, pc]; exact h.live
      · simp only [pc, hlive, hobjs]; exact h.old
      · simp only [pc, hlive, hobjs, st]; exact h.stopped
      · simp only [pc, ru, cd, st, en]; exact h.alive
      · simp only [pc, ru, hobjs]; exact h.running
      · simp only [pc, ru, st, hlive]; exact h.one
      · intro j' hj'
        rw [lo, en]
        rw [hlook] at hj'
        split at hj'
        · rename_i e; subst e; exact hen
        · exact h.found j' hj'
      · intro i k j' hm
        rw [lo, lk]
        rcases mem i k j' hm with hm | ⟨rfl, rfl, rfl⟩
        · have := h.queue i k j' hm
          rw [hlook, if_neg (by rintro rfl; exact hin i k hm)]
          exact this
        · rw [hlook]
          simp
      · intro i
        rw [hobj]
        split
        · simp only [List.map_append, List.map_cons, List.map_nil, List.nodup_append]
          refine ⟨h.nodup _, by simp, ?_⟩
          intro a ha b hb
          simp only [List.mem_singleton] at hb
          subst hb
          simp only [List.mem_map] at ha
          obtain ⟨⟨k, j'⟩, hm, rfl⟩ := ha
          rintro rfl
          exact hin _ k hm
        · exact h.nodup i
      · intro j'; rw [lo, hobjs]; exact h.lookObj j'
      · rw [hhooks, hobjs]; exact h.hooks
      · intro i k j' hm
        rw [hlooks]
        rcases mem i k j' hm with hm | ⟨rfl, rfl, rfl⟩
        · exact h.queueLook i k j' hm
        · exact hj
      · simp only [pc, en]; exact h.early
    · simp at hs
  | ret j =>
    simp only [xStep] at hs
    split at hs <;> simp only [Option.some.injEq, reduceCtorEq] at hs
    rename_i hp
    have hj := h.lt_looks (j := j) (by simp [hp.1])
    subst hs
    exact h.setLook hj rfl rfl (by simp) (by simp)
  | take i =>
    simp only [xStep] at hs
    split at hs
    · rename_i hr
      split at hs
      · simp at hs
      · rename_i kj rest hq
        simp only [Option.some.injEq] at hs
        have hi := (h.running i hr).1
        have hobj : ∀ i', s'.obj i' = if i' = i then { s.obj i with queue := rest } else s.obj i' := by intro i'; subst hs; rfl
        have hlook : s'.look = s.look := by subst hs; rfl
        have hlive : s'.live = s.live := by subst hs; rfl
        have hobjs : s'.objs = s.objs := by subst hs; rfl
        have hlooks : s'.looks = s.looks := by subst hs; rfl
        have hhooks : s'.hooks = s.hooks ++ [(kj.1, s.live)] := by subst hs; rfl
        clear hs
        have pc : ∀ i', (s'.obj i').pc = (s.obj i').pc := by intro i'; rw [hobj]; split <;> simp_all
        have st : ∀ i', (s'.obj i').stopped = (s.obj i').stopped := by intro i'; rw [hobj]; split <;> simp_all
        have ru : ∀ i', (s'.obj i').running = (s.obj i').running := by intro i'; rw [hobj]; split <;> simp_all
        have en : ∀ i', (s'.obj i').enabled = (s.obj i').enabled := by intro i'; rw [hobj]; split <;> simp_all
        have cd : ∀ i', (s'.obj i').ctxDone = (s.obj i').ctxDone := by intro i'; rw [hobj]; split <;> simp_all
        have mem : ∀ i' t, t ∈ (s'.obj i').queue → t ∈ (s.obj i').queue := by
          intro i' t hm
          rw [hobj] at hm
          split at hm
          · rename_i e; subst e; rw [hq]; exact List.mem_cons_of_mem _ hm
          · exact hm
        constructor
        · intro i' h'
          rw [hobjs] at h'
          rw [hobj, if_neg (by omega)]
          exact h.fresh i' h'
        · rw [hlook, hlooks]; exact h.freshLook
        · rw [hlive, hobjs, pc]; exact h.live
        · simp only [pc, hlive, hobjs]; exact h.old
        · simp only [pc, hlive, hobjs, st]; exact h.stopped
        · simp only [pc, ru, cd, st, en]; exact h.alive
        · simp only [pc, ru, hobjs]; exact h.running
        · simp only [pc, ru, st, hlive]; exact h.one
        · simp only [hlook, en]; exact h.found
        · intro i' k j hm
          rw [hlook]
          exact h.queue i' k j (mem _ _ hm)
        · intro i'
          rw [hobj]
          split
          · have := h.nodup i
            rw [hq, List.map_cons, List.nodup_cons] at this
            exact this.2
          · exact h.nodup i'
        · rw [hlook, hobjs]; exact h.lookObj
        · intro t ht
          rw [hobjs]
          rw [hhooks, List.mem_append, List.mem_singleton] at ht
          rcases ht with ht | rfl
          · exact h.hooks t ht
          · exact h.live.1
        · intro i' k j hm
          rw [hlooks]
          exact h.queueLook i' k j (mem _ _ hm)
        · simp only [pc, en]; exact h.early
    · simp at hs
  | exit i =>
    simp only [xStep] at hs
    split at hs <;> simp only [Option.some.injEq, reduceCtorEq] at hs
    rename_i hp
    have hi := (h.running i hp.1).1
    have hobj : ∀ i', s'.obj i' = if i' = i then { s.obj i with running := false } else s.obj i' := by intro i'; subst hs; rfl
    have hlook : s'.look = s.look := by subst hs; rfl
    have hlive : s'.live = s.live := by subst hs; rfl
    have hobjs : s'.objs = s.objs := by subst hs; rfl
    have hlooks : s'.looks = s.looks := by subst hs; rfl
    have hhooks : s'.hooks = s.hooks := by subst hs; rfl
    clear hs
    have pc : ∀ i', (s'.obj i').pc = (s.obj i').pc := by intro i'; rw [hobj]; split <;> simp_all
    have st : ∀ i', (s'.obj i').stopped = (s.obj i').stopped := by intro i'; rw [hobj]; split <;> simp_all
    have en : ∀ i', (s'.obj i').enabled = (s.obj i').enabled := by intro i'; rw [hobj]; split <;> simp_all
    have qu : ∀ i', (s'.obj i').queue = (s.obj i').queue := by intro i'; rw [hobj]; split <;> simp_all
    have cd : ∀ i', (s'.obj i').ctxDone = (s.obj i').ctxDone := by intro i'; rw [hobj]; split <;> simp_all
    have ru : ∀ i', (s'.obj i').running = true → (s.obj i').running = true := by
      intro i' hr; rw [hobj] at hr; split at hr
      · simp at hr
      · exact hr
    constructor
    · intro i' h'
      rw [hobjs] at h'
      rw [hobj, if_neg (by omega)]
      exact h.fresh i' h'
    · rw [hlook, hlooks]; exact h.freshLook
    · rw [hlive, hobjs, pc]; exact h.live
    · simp only [pc, hlive, hobjs]; exact h.old
    · simp only [pc, hlive, hobjs, st]; exact h.stopped
    · intro i' he
      rw [pc, en] at he
      rw [cd, st]
      by_cases hi' : i' = i
      · subst hi'; exact .inr hp.2
      · rw [hobj, if_neg hi']; exact h.alive i' he
    · intro i' he
      rw [hobjs, pc]
      exact h.running i' (ru i' he)
    · intro i' he hst
      rw [st] at hst
      simp only [pc, hlive]
      exact h.one i' (ru i' he) hst
    · simp only [hlook, en]; exact h.found
    · simp only [qu, hlook]; exact h.queue
    · simp only [qu]; exact h.nodup
    · rw [hlook, hobjs]; exact h.lookObj
    · rw [hhooks, hobjs]; exact h.hooks
    · simp only [qu, hlooks]; exact h.queueLook
    · simp only [pc, en]; exact h.early
  | hookStore t k ttl =>
    simp only [xStep] at hs
    split at hs <;> simp only [Option.some.injEq, reduceCtorEq] at hs
    rename_i u hu
    subst hs
    exact h.setObj (h.hooks u (List.mem_of_getElem? hu)) rfl id rfl rfl rfl rfl

theorem XInv.run {cap : Nat} {s s' : XState} {as : List XAct} (h : XInv s) (hr : xRun cap s as = some s') : XInv s' := by
  induction as generalizing s with
  | nil => simp only [xRun, Option.some.injEq] at hr; subst hr; exact h
  | cons a as ih =>
    simp only [xRun, Option.bind_eq_some_iff] at hr
    obtain ⟨s1, h1, h2⟩ := hr
    exact ih (h.step h1) h2

end Athenz
