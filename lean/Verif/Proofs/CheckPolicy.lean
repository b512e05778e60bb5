import Verif.Model.CheckPolicy

/-! Invariant of the `CheckPolicyRoles` transition system. -/

namespace Athenz

def Worker.role : Worker → Str
  | .start r => r
  | .scan r _ => r
  | .done r _ => r

def Worker.sentEffect : Worker → Option RoleEffect
  | .done r (some e) => some ⟨r, e⟩
  | _ => none

def Worker.isDone : Worker → Bool
  | .done _ _ => true
  | _ => false

theorem set_split {α : Type} {l : List α} {i : Nat} {w : α} (h : l[i]? = some w) :
    ∃ pre post, l = pre ++ w :: post ∧ ∀ w', l.set i w' = pre ++ w' :: post := by
  induction l generalizing i with
  | nil => simp at h
  | cons x xs ih =>
    cases i with
    | zero => simp at h; exact ⟨[], xs, by simp [h], by simp⟩
    | succ n =>
      simp at h
      obtain ⟨pre, post, h1, h2⟩ := ih h
      exact ⟨x :: pre, post, by simp [h1], by intro w'; simp [h2]⟩

theorem filterMap_congr' {α β : Type} {f g : α → Option β} {l : List α} (h : ∀ x ∈ l, f x = g x) :
    l.filterMap f = l.filterMap g := by
  induction l with
  | nil => rfl
  | cons a l ih =>
    simp only [List.filterMap_cons]
    rw [h a (by simp), ih (fun x hx => h x (by simp [hx]))]

section
variable (U : CaseFns) (q : CheckReq) (V : PolicyView → Prop)

/-- What is known about one worker; `c` = the check's context is done. -/
def WOk (c : Bool) : Worker → Prop
  | .start _ => True
  | .scan r rest => ∃ v, V v ∧ ∃ l, v (roleKey q.domain r) = some l ∧ firstMatch U q l = firstMatch U q rest
  | .done r none => ∃ v, V v ∧ roleVerdict U q v r = none
  | .done r (some e) => (∃ v, V v ∧ roleVerdict U q v r = some e) ∨ (e = some .ctx ∧ c = true)

theorem WOk.mono {c : Bool} {w : Worker} (h : WOk U q V false w) : WOk U q V c w := by
  cases w with
  | start r => trivial
  | scan r l => exact h
  | done r o =>
    cases o with
    | none => exact h
    | some e =>
      rcases h with h | ⟨_, h⟩
      · exact .inl h
      · simp at h

theorem WOk.mono' {c c' : Bool} {w : Worker} (hc : c = true → c' = true) (h : WOk U q V c w) : WOk U q V c' w := by
  cases c with
  | false => exact WOk.mono U q V h
  | true => rw [hc rfl]; exact h

/-- What a return value tells about the roles, each judged by some view from `V`. -/
def RetOk (parent : Bool) : Res (List Str) → Prop
  | .ok rs => rs ≠ [] ∧ ∃ os : List (Str × Option (Option Err)),
      os.map (·.1) = q.roles ∧
      (∀ o ∈ os, (∃ v, V v ∧ roleVerdict U q v o.1 = o.2) ∧ ∀ e, o.2 ≠ some (some e)) ∧
      rs.Perm (os.filterMap fun o => if o.2 = some none then some o.1 else none)
  | .err e =>
      (∃ r ∈ q.roles, ∃ v, V v ∧ roleVerdict U q v r = some (some e)) ∨ (e = .ctx ∧ parent = true) ∨
      (e = .noMatch ∧ ∀ r ∈ q.roles, ∃ v, V v ∧ roleVerdict U q v r = none)
  | .panic => False

structure CheckInv (s : CheckState) : Prop where
  roles : s.workers.map Worker.role = q.roles
  view : V s.view
  perm : ∀ al, s.coll = .loop al →
    (al.map (fun r => (⟨r, none⟩ : RoleEffect)) ++ s.chan).Perm (s.workers.filterMap Worker.sentEffect)
  wok : ∀ w ∈ s.workers, WOk U q V s.cancelled w
  cap : s.chan.length + (s.workers.filter (fun w => !w.isDone)).length ≤ q.roles.length
  closed : s.closed = true → ∀ w ∈ s.workers, w.isDone = true
  nopanic : s.panicked = false
  own : s.own = true → ∃ r, s.coll = .ret r
  ret : ∀ r, s.coll = .ret r → RetOk U q V s.parent r

end

theorem CheckReq.init_inv (U : CaseFns) (q : CheckReq) (V : PolicyView → Prop) (v : PolicyView) (hv : V v) :
    CheckInv U q V (q.init v) := by
  refine ⟨?_, hv, ?_, ?_, ?_, ?_, rfl, ?_, ?_⟩
  · simp [CheckReq.init, Function.comp_def, Worker.role]
  · intro al h
    simp only [CheckReq.init, Collector.loop.injEq] at h
    subst h
    have : (q.roles.map Worker.start).filterMap Worker.sentEffect = [] := by
      simp [List.filterMap_eq_nil_iff, Worker.sentEffect]
    simp [CheckReq.init, this]
  · intro w hw
    simp only [CheckReq.init, List.mem_map] at hw
    obtain ⟨r, _, rfl⟩ := hw
    trivial
  · have := List.length_filter_le (fun w : Worker => !w.isDone) (q.roles.map Worker.start)
    simpa [CheckReq.init] using this
  · simp [CheckReq.init]
  · simp [CheckReq.init]
  · intro r h; simp [CheckReq.init] at h

section
variable {U : CaseFns} {q : CheckReq} {V : PolicyView → Prop}

/-- A worker that does not send moves to a state that is fine. -/
theorem CheckInv.workerMove {s : CheckState} (h : CheckInv U q V s) {i : Nat} {w w' : Worker}
    (hw : s.workers[i]? = some w) (hr : w'.role = w.role) (hd : w.isDone = false)
    (hs' : w'.sentEffect = none) (hok : WOk U q V s.cancelled w') :
    CheckInv U q V { s with workers := s.workers.set i w' } := by
  obtain ⟨pre, post, h1, h2⟩ := set_split hw
  have hs : w.sentEffect = none := by cases w <;> simp_all [Worker.isDone, Worker.sentEffect]
  refine ⟨?_, h.view, ?_, ?_, ?_, ?_, h.nopanic, h.own, h.ret⟩
  · have := h.roles
    simp only [h1, List.map_append, List.map_cons] at this
    simp only [h2, List.map_append, List.map_cons, hr]
    exact this
  · intro al hal
    have := h.perm al hal
    simp only [h2]
    rw [h1] at this
    simpa [hs, hs', List.filterMap_append, List.filterMap_cons] using this
  · intro x hx
    simp only [h2] at hx
    have hx : x ∈ pre ∨ x = w' ∨ x ∈ post := by simpa using hx
    rcases hx with hx | rfl | hx
    · exact h.wok x (by rw [h1]; simp [hx])
    · exact hok
    · exact h.wok x (by rw [h1]; simp [hx])
  · have := h.cap
    rw [h1] at this
    simp only [h2]
    simp only [List.filter_append, List.filter_cons, hd, List.length_append] at this ⊢
    cases hd' : w'.isDone <;> simp at this ⊢ <;> omega
  · intro hc
    exfalso
    have := h.closed hc w (by rw [h1]; simp)
    simp [hd] at this

/-- A worker sends. -/
theorem CheckInv.workerSend {s s' : CheckState} (h : CheckInv U q V s) {i : Nat} {w : Worker} {e : Option Err}
    (hw : s.workers[i]? = some w) (hd : w.isDone = false)
    (hok : (∃ v, V v ∧ roleVerdict U q v w.role = some e) ∨ (e = some .ctx ∧ s.cancelled = true))
    (hs' : s.send q i w.role e = some s') : CheckInv U q V s' := by
  obtain ⟨pre, post, h1, h2⟩ := set_split hw
  have hs : w.sentEffect = none := by cases w <;> simp_all [Worker.isDone, Worker.sentEffect]
  have hnc : s.closed = false := by
    cases hc : s.closed with
    | false => rfl
    | true =>
      have := h.closed hc w (by rw [h1]; simp)
      simp [hd] at this
  unfold CheckState.send at hs'
  rw [hnc] at hs'
  simp only [Bool.false_eq_true, if_false] at hs'
  split at hs'
  case isFalse => simp at hs'
  case isTrue hlen =>
  simp only [Option.some.injEq] at hs'
  subst hs'
  refine ⟨?_, h.view, ?_, ?_, ?_, ?_, h.nopanic, h.own, h.ret⟩
  · have := h.roles
    simp only [h1, List.map_append, List.map_cons] at this
    simp only [h2, List.map_append, List.map_cons]
    exact this
  · intro al hal
    have := h.perm al hal
    simp only [h2]
    rw [h1] at this
    have hs2 : (Worker.done w.role (some e)).sentEffect = some ⟨w.role, e⟩ := rfl
    simp only [List.filterMap_append, List.filterMap_cons, hs, hs2] at this ⊢
    rw [← List.append_assoc]
    refine (List.Perm.append_right _ this).trans ?_
    rw [List.append_assoc]
    refine List.Perm.append_left _ ?_
    exact List.perm_append_singleton _ _
  · intro x hx
    simp only [h2] at hx
    have hx : x ∈ pre ∨ x = .done w.role (some e) ∨ x ∈ post := by simpa using hx
    rcases hx with hx | rfl | hx
    · exact h.wok x (by rw [h1]; simp [hx])
    · exact hok
    · exact h.wok x (by rw [h1]; simp [hx])
  · have := h.cap
    rw [h1] at this
    simp only [h2]
    simp only [List.filter_append, List.filter_cons, hd, List.length_append] at this ⊢
    simp [Worker.isDone] at this ⊢
    omega
  · intro hc
    simp at hc

theorem firstMatch_cons_ne {a : Assertion} {l : List Assertion}
    (h : a.matches U q.domain q.action q.resource = false) : firstMatch U q (a :: l) = firstMatch U q l := by
  simp [firstMatch, h]

theorem firstMatch_cons_eq {a : Assertion} {l : List Assertion}
    (h : a.matches U q.domain q.action q.resource = true) : firstMatch U q (a :: l) = some a.effect := by
  simp [firstMatch, h]

/-- A send that is possible at all never blocks. -/
theorem CheckInv.send_some {s : CheckState} (h : CheckInv U q V s) {i : Nat} {w : Worker}
    (hw : s.workers[i]? = some w) (hd : w.isDone = false) (r : Str) (e : Option Err) :
    ∃ s', s.send q i r e = some s' := by
  obtain ⟨pre, post, h1, h2⟩ := set_split hw
  unfold CheckState.send
  split
  · exact ⟨_, rfl⟩
  · have := h.cap
    rw [h1] at this
    simp only [List.filter_append, List.filter_cons, hd, List.length_append] at this
    simp at this
    rw [if_pos (by omega)]
    exact ⟨_, rfl⟩

/-- Only views in `V` are written by the environment. -/
def ActOk (V : PolicyView → Prop) : CheckAct → Prop
  | .mutate v => V v
  | _ => True

theorem CheckInv.step {s s' : CheckState} (h : CheckInv U q V s) {a : CheckAct} (ha : ActOk V a)
    (hs : checkStep U q s a = some s') : CheckInv U q V s' := by
  cases a with
  | worker i =>
    simp only [checkStep] at hs
    split at hs
    · rename_i role hw
      split at hs
      · rename_i hc
        exact h.workerSend (w := .start role) hw rfl (.inr ⟨rfl, hc⟩) hs
      · split at hs
        · rename_i hv
          simp only [Option.some.injEq] at hs; subst hs
          exact h.workerMove hw rfl rfl rfl ⟨s.view, h.view, by simp [roleVerdict, hv]⟩
        · rename_i asss hv
          simp only [Option.some.injEq] at hs; subst hs
          exact h.workerMove hw rfl rfl rfl ⟨s.view, h.view, asss, hv, rfl⟩
    · rename_i role hw
      simp only [Option.some.injEq] at hs; subst hs
      have hwok := h.wok _ (List.mem_of_getElem? hw)
      obtain ⟨v, hv, l, hl, hf⟩ := hwok
      refine h.workerMove hw rfl rfl rfl ⟨v, hv, ?_⟩
      simp [roleVerdict, hl, hf]
      simp [firstMatch]
    · rename_i role a rest hw
      have hwok := h.wok _ (List.mem_of_getElem? hw)
      obtain ⟨v, hv, l, hl, hf⟩ := hwok
      split at hs
      · rename_i hc
        exact h.workerSend (w := .scan role (a :: rest)) hw rfl (.inr ⟨rfl, hc⟩) hs
      · split at hs
        · rename_i hm
          refine h.workerSend (w := .scan role (a :: rest)) hw rfl (.inl ⟨v, hv, ?_⟩) hs
          simp [roleVerdict, Worker.role, hl, hf, firstMatch_cons_eq hm]
        · rename_i hm
          simp only [Option.some.injEq] at hs; subst hs
          refine h.workerMove hw rfl rfl rfl ⟨v, hv, l, hl, ?_⟩
          rw [hf, firstMatch_cons_ne (by simpa using hm)]
    · simp at hs
  | close =>
    simp only [checkStep] at hs
    split at hs
    · simp at hs
    · split at hs
      · rename_i hall
        simp only [Option.some.injEq] at hs; subst hs
        refine ⟨h.roles, h.view, h.perm, h.wok, h.cap, ?_, h.nopanic, h.own, h.ret⟩
        intro _ w hw
        have := List.all_eq_true.mp hall w hw
        cases w <;> simp_all [Worker.isDone]
      · simp at hs
  | recv =>
    simp only [checkStep] at hs
    split at hs
    · simp at hs
    · rename_i al hal
      have hown : s.own = false := by
        cases ho : s.own with
        | false => rfl
        | true => obtain ⟨r, hr⟩ := h.own ho; rw [hal] at hr; simp at hr
      have hperm := h.perm al hal
      split at hs
      · rename_i re ch hch
        have hmem : re ∈ s.workers.filterMap Worker.sentEffect := hperm.mem_iff.mp (by rw [hch]; simp)
        obtain ⟨w, hw, hwe⟩ := List.mem_filterMap.mp hmem
        have hwok := h.wok w hw
        have hwrole : w.role ∈ q.roles := by rw [← h.roles]; exact List.mem_map_of_mem hw
        have hcap := h.cap
        rw [hch] at hcap
        split at hs
        · rename_i e he
          simp only [Option.some.injEq] at hs; subst hs
          refine ⟨h.roles, h.view, by simp, ?_, by simp only [List.length_cons] at hcap ⊢; omega, h.closed, h.nopanic, by simp, ?_⟩
          · intro x hx
            exact WOk.mono' U q V (by simp [CheckState.cancelled]) (h.wok x hx)
          · intro r hr
            simp only [Collector.ret.injEq] at hr
            subst hr
            cases w with
            | start => simp [Worker.sentEffect] at hwe
            | scan => simp [Worker.sentEffect] at hwe
            | done r o =>
              cases o with
              | none => simp [Worker.sentEffect] at hwe
              | some e' =>
                simp only [Worker.sentEffect, Option.some.injEq] at hwe
                subst hwe
                simp only at he
                subst he
                rcases hwok with ⟨v, hv, hrv⟩ | ⟨h1, h2⟩
                · exact .inl ⟨r, hwrole, v, hv, hrv⟩
                · refine .inr (.inl ⟨by simpa using h1, ?_⟩)
                  simpa [CheckState.cancelled, hown] using h2
        · rename_i he
          simp only [Option.some.injEq] at hs; subst hs
          refine ⟨h.roles, h.view, ?_, h.wok, by simp only [List.length_cons] at hcap ⊢; omega, h.closed, h.nopanic, ?_, by simp⟩
          · intro al' hal'
            simp only [Collector.loop.injEq] at hal'
            subst hal'
            rw [hch] at hperm
            have : (⟨re.role, none⟩ : RoleEffect) = re := by cases re; simp_all
            simpa [this] using hperm
          · intro ho
            have ho : s.own = true := ho
            rw [hown] at ho; simp at ho
      · rename_i hch
        split at hs
        case isFalse => simp at hs
        rename_i hcl
        simp only [Option.some.injEq] at hs; subst hs
        refine ⟨h.roles, h.view, by simp, ?_, h.cap, h.closed, h.nopanic, by simp, ?_⟩
        · intro x hx
          exact WOk.mono' U q V (by simp [CheckState.cancelled]) (h.wok x hx)
        · intro r hr
          simp only [Collector.ret.injEq] at hr
          subst hr
          rw [hch, List.append_nil] at hperm
          have hdone := h.closed hcl
          -- every worker sent nothing or an allow
          have hsent : ∀ w ∈ s.workers, ∃ r o, w = .done r o ∧ (o = none ∨ o = some none) := by
            intro w hw
            have hd := hdone w hw
            cases w with
            | start => simp [Worker.isDone] at hd
            | scan => simp [Worker.isDone] at hd
            | done r o =>
              refine ⟨r, o, rfl, ?_⟩
              cases o with
              | none => exact .inl rfl
              | some e =>
                have : (⟨r, e⟩ : RoleEffect) ∈ s.workers.filterMap Worker.sentEffect :=
                  List.mem_filterMap.mpr ⟨_, hw, rfl⟩
                have := hperm.mem_iff.mpr this
                obtain ⟨_, _, h3⟩ := List.mem_map.mp this
                simp only [RoleEffect.mk.injEq] at h3
                right; rw [h3.2]
          have hver : ∀ r o, Worker.done r o ∈ s.workers → ∃ v, V v ∧ roleVerdict U q v r = o := by
            intro r o hw
            have := h.wok _ hw
            cases o with
            | none => exact this
            | some e =>
              rcases this with h' | ⟨rfl, _⟩
              · exact h'
              · obtain ⟨r', o', h1, h2⟩ := hsent _ hw
                simp at h1; rcases h2 with h2 | h2 <;> simp [h2] at h1
          let os := s.workers.map fun w => (w.role, match w with | .done _ o => o | _ => none)
          have hos1 : os.map (·.1) = q.roles := by
            rw [← h.roles]; simp [os, Function.comp_def]
          have hfm : s.workers.filterMap Worker.sentEffect =
              (os.filterMap fun o => if o.2 = some none then some o.1 else none).map fun r => ⟨r, none⟩ := by
            simp only [os, List.filterMap_map, List.map_filterMap]
            apply filterMap_congr'
            intro w hw
            obtain ⟨r, o, rfl, ho⟩ := hsent w hw
            rcases ho with rfl | rfl <;> simp [Worker.sentEffect, Worker.role]
          rw [hfm] at hperm
          have hperm' : al.Perm (os.filterMap fun o => if o.2 = some none then some o.1 else none) := by
            have := hperm.map RoleEffect.role
            simpa [Function.comp_def] using this
          by_cases hal0 : al.length > 0
          · rw [if_pos hal0]
            refine ⟨by intro h0; simp [h0] at hal0, os, hos1, ?_, hperm'⟩
            intro o ho
            obtain ⟨w, hw, rfl⟩ := List.mem_map.mp ho
            obtain ⟨r, o, rfl, hoo⟩ := hsent w hw
            refine ⟨hver r o hw, ?_⟩
            rcases hoo with rfl | rfl <;> simp
          · rw [if_neg hal0]
            have : al = [] := by cases al with
              | nil => rfl
              | cons => simp at hal0
            subst this
            refine .inr (.inr ⟨rfl, ?_⟩)
            intro r hr
            rw [← hos1] at hr
            obtain ⟨o, ho, rfl⟩ := List.mem_map.mp hr
            obtain ⟨w, hw, rfl⟩ := List.mem_map.mp ho
            obtain ⟨r, o, rfl, hoo⟩ := hsent w hw
            have : o = none := by
              rcases hoo with h' | h'
              · exact h'
              · exfalso
                have := hperm'.symm.mem_iff.mp (List.mem_filterMap.mpr ⟨_, ho, by simp [h']; rfl⟩)
                simp at this
            subst this
            exact hver r none hw
  | cancel =>
    simp only [checkStep] at hs
    split at hs
    · simp at hs
    · simp only [Option.some.injEq] at hs; subst hs
      refine ⟨h.roles, h.view, h.perm, ?_, h.cap, h.closed, h.nopanic, h.own, ?_⟩
      · intro x hx
        exact WOk.mono' U q V (by simp [CheckState.cancelled]) (h.wok x hx)
      · intro r hr
        have := h.ret r hr
        cases r with
        | ok rs => exact this
        | err e =>
          rcases this with h1 | h1 | h1
          · exact .inl h1
          · exact .inr (.inl ⟨h1.1, rfl⟩)
          · exact .inr (.inr h1)
        | panic => exact this
  | mutate v =>
    simp only [checkStep, Option.some.injEq] at hs
    subst hs
    exact ⟨h.roles, ha, h.perm, h.wok, h.cap, h.closed, h.nopanic, h.own, h.ret⟩

theorem CheckInv.run {s s' : CheckState} (h : CheckInv U q V s) {as : List CheckAct} (ha : ∀ a ∈ as, ActOk V a)
    (hs : checkRun U q s as = some s') : CheckInv U q V s' := by
  induction as generalizing s with
  | nil => simp only [checkRun, Option.some.injEq] at hs; subst hs; exact h
  | cons a as ih =>
    simp only [checkRun] at hs
    split at hs
    · simp at hs
    · rename_i s1 hs1
      exact ih (h.step (ha a (by simp)) hs1) (fun b hb => ha b (by simp [hb])) hs

theorem parent_run {s s' : CheckState} {as : List CheckAct} (hs : checkRun U q s as = some s')
    (hp : s'.parent = true) : s.parent = true ∨ ∃ a ∈ as, a = .cancel := by
  induction as generalizing s with
  | nil => simp only [checkRun, Option.some.injEq] at hs; subst hs; exact .inl hp
  | cons a as ih =>
    simp only [checkRun] at hs
    split at hs
    · simp at hs
    · rename_i s1 hs1
      rcases ih hs with h | ⟨b, hb, rfl⟩
      · cases a with
        | cancel => right; exact ⟨_, by simp, rfl⟩
        | _ =>
          left
          simp only [checkStep, CheckState.send] at hs1
          repeat' split at hs1
          all_goals first
            | (simp only [Option.some.injEq] at hs1; subst hs1; exact h)
            | simp at hs1
      · right; exact ⟨_, by simp [hb], rfl⟩

end

end Athenz
