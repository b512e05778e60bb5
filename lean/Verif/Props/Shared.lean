import Verif.Proofs.Shared
import Verif.Props.Mask

/-! # C86 callers and the principals of other callers -/

namespace Athenz

open Spec

/-- **C86**, the full statement.  What a call returned shows, whatever callers do with what they got, what the call found. -/
def C86_statement : Prop :=
  ∀ (cfg : AuthCfg) (now : Int) (keys : Option KeyProvider) (jwkp : Option JwkProvider) (acts : List MAct) (s : MState) (i : Nat) (q : AReq) (p : Principal),
    mRun cfg (mInit now keys jwkp) acts = some s → s.a.calls i = some ⟨q, .done (.ok p)⟩ → seen s i = some p

/-- **C86**, appending.  If callers only append, each has the list that it made. -/
def C86_append_statement : Prop :=
  ∀ (cfg : AuthCfg) (now : Int) (keys : Option KeyProvider) (jwkp : Option JwkProvider) (acts : List MAct) (s : MState),
    mRun cfg (mInit now keys jwkp) acts = some s → NoWrite acts → ∀ m ∈ s.mine, m.1.read s.heap = m.2

/-- **C86**, what is true whatever callers do: all but the elements of the lists.  (Missing: the roles and the authorized roles.) -/
theorem C86_fields_partial (cfg : AuthCfg) (now : Int) (keys : Option KeyProvider) (jwkp : Option JwkProvider) (acts : List MAct) (s : MState) (i : Nat)
    (q : AReq) (p : Principal) (hr : mRun cfg (mInit now keys jwkp) acts = some s) (hd : s.a.calls i = some ⟨q, .done (.ok p)⟩) :
    ∃ p', seen s i = some p' ∧ p'.name = p.name ∧ p'.domain = p.domain ∧ p'.issueTime = p.issueTime ∧ p'.expiryTime = p.expiryTime ∧
      p'.clientID = p.clientID := by
  obtain ⟨j, o, h1, _, h3, ⟨g1, g2, g3, g4, g5, _⟩, _⟩ := (mInv_run (mInv_init False now keys jwkp) hr (fun h => h.elim)).done i _ p hd rfl
  exact ⟨o.read s.heap, by simp [seen, h1, h3], g1, g2, g3, g4, g5⟩

/-- **C86**, if no caller sets an element.  Appending does no harm to principals.  (Missing: callers that set elements.) -/
theorem C86_noWrite_partial (cfg : AuthCfg) (now : Int) (keys : Option KeyProvider) (jwkp : Option JwkProvider) (acts : List MAct) (s : MState) (i : Nat)
    (q : AReq) (p : Principal) (hr : mRun cfg (mInit now keys jwkp) acts = some s) (hw : NoWrite acts)
    (hd : s.a.calls i = some ⟨q, .done (.ok p)⟩) : seen s i = some p := by
  obtain ⟨j, o, h1, _, h3, _, h5⟩ := (mInv_run (mInv_init True now keys jwkp) hr (fun _ => hw)).done i _ p hd rfl
  simp [seen, h1, h3, h5 trivial]

theorem libActs_run {cfg : AuthCfg} {acts : List MAct} : ∀ {s s' : MState}, MInv False s → mRun cfg s acts = some s' →
    aRun cfg s.a (libActs acts) = some s'.a := by
  induction acts with
  | nil => intro s s' _ h; simp only [mRun, Option.some.injEq] at h; subst h; rfl
  | cons act acts ih =>
    intro s s' hi h
    simp only [mRun] at h
    split at h
    · rename_i s1 h1
      have hi1 := mInv_step hi h1 (fun h => h.elim)
      have hrest := ih hi1 h
      cases act with
      | lib act spare =>
        simp only [mStep, synced_calls hi] at h1
        split at h1
        · rename_i a' ha
          simp only [Option.some.injEq] at h1
          have he : s1.a = a' := by
            subst h1
            unfold MState.after
            repeat' split
            all_goals rfl
          simp only [libActs, aRun, ha]
          rw [← he]
          exact hrest
        · simp at h1
      | roles i =>
        simp only [mStep] at h1
        split at h1 <;> simp only [Option.some.injEq, reduceCtorEq] at h1
        subst h1; exact hrest
      | authorizedRoles i =>
        simp only [mStep] at h1
        split at h1 <;> simp only [Option.some.injEq, reduceCtorEq] at h1
        subst h1; exact hrest
      | write m idx v =>
        simp only [mStep] at h1
        split at h1
        · split at h1 <;> simp only [Option.some.injEq, reduceCtorEq] at h1
          subst h1; exact hrest
        · simp at h1
      | append m v spare =>
        simp only [mStep] at h1
        split at h1
        · split at h1 <;> simp only [Option.some.injEq] at h1 <;> (subst h1; exact hrest)
        · simp at h1
    · simp at h

/-- **C86**, decisions.  Whatever callers do with what they got, every call of every caller goes as it does without that. -/
theorem C86_decisions (cfg : AuthCfg) (now : Int) (keys : Option KeyProvider) (jwkp : Option JwkProvider) (acts : List MAct) (s : MState)
    (hr : mRun cfg (mInit now keys jwkp) acts = some s) : aRun cfg (aInit now keys jwkp) (libActs acts) = some s.a :=
  libActs_run (mInv_init False now keys jwkp) hr

theorem after_heap (cfg : AuthCfg) (s : MState) (a' : AState) (act : AAct) (spare : Nat) :
    (∃ more, (s.after cfg a' act spare).heap = s.heap ++ more) ∧ (s.after cfg a' act spare).mine = s.mine := by
  unfold MState.after
  repeat' split
  all_goals first
    | exact ⟨⟨_, rfl⟩, rfl⟩
    | exact ⟨⟨[], by simp⟩, rfl⟩

/-- Each caller has what it made. -/
def MineOk (s : MState) : Prop := ∀ m ∈ s.mine, m.1.read s.heap = m.2

theorem mineOk_grow {s : MState} (hi : MInv False s) (hm : MineOk s) (more : List (List Str)) : ∀ m ∈ s.mine, m.1.read (s.heap ++ more) = m.2 :=
  fun m h => by rw [read_grow (hi.mineBound m h)]; exact hm m h

theorem mineOk_run {cfg : AuthCfg} {acts : List MAct} : ∀ {s s' : MState}, MInv False s → MineOk s → NoWrite acts → Clipped cfg s acts →
    mRun cfg s acts = some s' → MineOk s' := by
  induction acts with
  | nil => intro s s' _ hm _ _ h; simp only [mRun, Option.some.injEq] at h; exact h ▸ hm
  | cons act acts ih =>
    intro s s' hi hm hw hcl h
    simp only [mRun] at h
    split at h
    · rename_i s1 h1
      refine ih (mInv_step hi h1 (fun h => h.elim)) ?_ (fun m idx v hx => hw m idx v (List.mem_cons_of_mem _ hx)) ?_ h
      · cases act with
        | lib act spare =>
          simp only [mStep] at h1
          split at h1
          · simp only [Option.some.injEq] at h1
            subst h1
            rename_i a' _
            obtain ⟨⟨more, g1⟩, g2⟩ := after_heap cfg s a' act spare
            intro m hmem
            rw [g2] at hmem
            rw [g1]
            exact mineOk_grow hi hm more m hmem
          · simp at h1
        | roles i =>
          simp only [mStep] at h1
          split at h1 <;> simp only [Option.some.injEq, reduceCtorEq] at h1
          subst h1
          intro m hmem
          rcases List.mem_append.mp hmem with hmem | hmem
          · exact hm m hmem
          · simp only [List.mem_singleton] at hmem; subst hmem; rfl
        | authorizedRoles i =>
          simp only [mStep] at h1
          split at h1 <;> simp only [Option.some.injEq, reduceCtorEq] at h1
          subst h1
          intro m hmem
          rcases List.mem_append.mp hmem with hmem | hmem
          · exact hm m hmem
          · simp only [List.mem_singleton] at hmem; subst hmem; rfl
        | write m idx v => exact absurd List.mem_cons_self (hw m idx v)
        | append m v spare =>
          simp only [mStep] at h1
          split at h1
          · rename_i sl l hsl
            have hfull := hcl [] m v spare acts s sl l rfl rfl hsl
            rw [if_neg (by omega)] at h1
            simp only [Option.some.injEq] at h1
            subst h1
            intro x hx
            rcases List.mem_append.mp hx with hx | hx
            · exact mineOk_grow hi hm _ x hx
            · simp only [List.mem_singleton] at hx
              subst hx
              show StrSlice.read (s.heap ++ [sl.read s.heap ++ v :: List.replicate spare []]) ⟨s.heap.length, (sl.read s.heap).length + 1⟩ = sl.read s.heap ++ [v]
              generalize sl.read s.heap = l'
              simp [StrSlice.read, List.take_append, List.take_of_length_le]
          · simp at h1
      · intro pre m v spare post s2 sl l he hr hs
        exact hcl (act :: pre) m v spare post s2 sl l (by rw [he]; rfl) (by simp only [mRun, h1]; exact hr) hs
    · simp at h

/-- **C86**, appending, if no append finds room, as after `slices.Clip`.  (Missing: appends that find room.) -/
theorem C86_append_partial (cfg : AuthCfg) (now : Int) (keys : Option KeyProvider) (jwkp : Option JwkProvider) (acts : List MAct) (s : MState)
    (hr : mRun cfg (mInit now keys jwkp) acts = some s) (hw : NoWrite acts) (hcl : Clipped cfg (mInit now keys jwkp) acts) :
    ∀ m ∈ s.mine, m.1.read s.heap = m.2 :=
  mineOk_run (mInv_init False now keys jwkp) (by simp [MineOk, mInit]) hw hcl hr

/-- **C86**, what callers see of what they do themselves: after setting an element they read the slice with that element set, and `append` gives them the
elements of the slice and the new one. -/
theorem C86_sees (cfg : AuthCfg) (s s' : MState) (m : Nat) (sl : StrSlice) (l : List Str) (hm : s.mine[m]? = some (sl, l)) :
    (∀ idx v, mStep cfg s (.write m idx v) = some s' → idx < sl.len ∧ sl.read s'.heap = (sl.read s.heap).set idx v ∧ s'.mine = s.mine) ∧
    (∀ v spare, mStep cfg s (.append m v spare) = some s' →
      ∃ sl', s'.mine = s.mine ++ [(sl', sl.read s.heap ++ [v])] ∧ sl'.read s'.heap = sl.read s.heap ++ [v]) := by
  constructor
  · intro idx v h
    simp only [mStep, hm] at h
    split at h
    · rename_i hi
      cases h
      refine ⟨hi, ?_, rfl⟩
      simp only [StrSlice.read]
      cases ha : s.heap[sl.arr]? with
      | none =>
        have : (s.heap.modify sl.arr (·.set idx v))[sl.arr]? = none := by rw [List.getElem?_modify_eq, ha]; rfl
        simp [this]
      | some A =>
        have : (s.heap.modify sl.arr (·.set idx v))[sl.arr]? = some (A.set idx v) := by rw [List.getElem?_modify_eq, ha]; rfl
        simp only [this, Option.getD_some]
        exact List.take_set
    · cases h
  · intro v spare h
    simp only [mStep, hm] at h
    split at h
    · rename_i hi
      cases h
      refine ⟨_, rfl, ?_⟩
      simp only [StrSlice.read]
      cases ha : s.heap[sl.arr]? with
      | none => rw [ha] at hi; simp at hi
      | some A =>
        rw [ha] at hi
        simp only [Option.getD_some] at hi
        have : (s.heap.modify sl.arr (·.set sl.len v))[sl.arr]? = some (A.set sl.len v) := by rw [List.getElem?_modify_eq, ha]; rfl
        simp only [this, Option.getD_some]
        rw [List.take_add_one, List.take_set_of_le (Nat.le_refl _), List.getElem?_set_self hi]
        rfl
    · cases h
      refine ⟨_, rfl, ?_⟩
      simp only [StrSlice.read]
      rw [List.getElem?_concat_length]
      simp only [Option.getD_some]
      generalize ((s.heap[sl.arr]?).getD []).take sl.len = r
      rw [List.take_length_add_append]
      rfl

/-- A slice of one element and room for one more. -/
example : ∃ s', mStep Ex.auCfg { mInit 0 none none with heap := [["a".toList, []]], mine := [(⟨0, 1⟩, ["a".toList])] } (.append 0 "b".toList 0) = some s' ∧
    s'.heap = [["a".toList, "b".toList]] := ⟨_, rfl, by decide +kernel⟩

namespace Ex

/-- A role token with two roles, of which "admin" may read "/x". -/
def shTok : Str := "d=dom;r=admin,guest;p=me;e=2000;k=0;s=S.T".toList

def shReq : AReq := ⟨.roleToken, shTok, "read".toList, "/x".toList, [], none⟩

def shPrincipal : Principal := ⟨"me".toList, ["admin".toList, "guest".toList], "dom".toList, -62135596800, 2000, ["admin".toList], none⟩

/-- A full check and a hit. -/
def shCalls : List MAct :=
  ([.call 0 shReq, .get 0, .validate 0, .translate 0 0, .check 0 auView [.worker 0, .worker 0, .worker 1, .close, .recv, .recv], .store 0,
    .call 1 shReq, .get 1] : List AAct).map (.lib · 0)

/-- One caller sets the authorized role that it got. -/
def shWrite : List MAct := shCalls ++ [.authorizedRoles 0, .write 0 0 "root".toList]

/-- Two callers append to the authorized roles that they got. -/
def shAppend : List MAct := shCalls ++ [.authorizedRoles 0, .authorizedRoles 1, .append 0 "a".toList 0, .append 1 "b".toList 0]

/-- They append to the roles, in whose array is no room. -/
def shClipped : List MAct := shCalls ++ [.roles 0, .roles 1, .append 0 "a".toList 0, .append 1 "b".toList 0]

def shInit : MState := mInit (auT 1500) (some dotKeys) (some atKeys)

/-- Evaluates `Clipped`. -/
def clippedB (cfg : AuthCfg) : MState → List MAct → Bool
  | _, [] => true
  | s, a :: as =>
    (match a with
      | .append m _ _ => (match s.mine[m]? with | some (sl, _) => decide (sl.len = ((s.heap[sl.arr]?).getD []).length) | none => true)
      | _ => true) &&
    (match mStep cfg s a with | some s' => clippedB cfg s' as | none => true)

theorem clipped_of {cfg : AuthCfg} {acts : List MAct} : ∀ {s : MState}, clippedB cfg s acts = true → Clipped cfg s acts := by
  induction acts with
  | nil => intro s _ pre m v spare post s1 sl l he; simp at he
  | cons a acts ih =>
    intro s h pre m v spare post s1 sl l he hr hs
    simp only [clippedB, Bool.and_eq_true] at h
    cases pre with
    | nil =>
      simp only [List.nil_append, List.cons.injEq] at he
      simp only [mRun, Option.some.injEq] at hr
      subst hr
      have h1 := h.1
      rw [he.1] at h1
      simpa [hs] using h1
    | cons b pre =>
      simp only [List.cons_append, List.cons.injEq] at he
      obtain ⟨rfl, he⟩ := he
      simp only [mRun] at hr
      split at hr
      · rename_i s2 h2
        have h3 := h.2
        rw [h2] at h3
        exact ih h3 pre m v spare post s1 sl l he hr hs
      · simp at hr

end Ex

/-- One caller sets an authorized role, and another sees that. -/
theorem C86_refuted : ¬ C86_statement := by
  intro h
  obtain ⟨s, hs, hp⟩ := Ex.exists_of_map (o := mRun Ex.auCfg Ex.shInit Ex.shWrite)
    (p := fun s => decide (Ex.doneOk s.a 1 Ex.shReq = some Ex.shPrincipal) &&
      decide ((seen s 1).map (·.authorizedRoles) = some ["root".toList])) (by decide +kernel)
  simp only [Bool.and_eq_true, decide_eq_true_eq] at hp
  have h1 := h _ _ _ _ _ s 1 _ _ hs (Ex.doneOk_iff hp.1)
  rw [h1] at hp
  exact absurd hp.2 (by decide)

/-- Two callers append to the authorized roles of the same principal, and one has what the other appended. -/
theorem C86_append_refuted : ¬ C86_append_statement := by
  intro h
  obtain ⟨s, hs, hp⟩ := Ex.exists_of_map (o := mRun Ex.auCfg Ex.shInit Ex.shAppend)
    (p := fun s => match s.mine[2]? with
      | some m => decide (m.2 = ["admin".toList, "a".toList]) && decide (m.1.read s.heap = ["admin".toList, "b".toList])
      | none => false) (by decide +kernel)
  split at hp
  · rename_i m hm
    simp only [Bool.and_eq_true, decide_eq_true_eq] at hp
    have h1 := h _ _ _ _ _ s hs (by intro m idx v; simp [Ex.shAppend, Ex.shCalls]) m (List.mem_of_getElem? hm)
    rw [hp.1, hp.2] at h1
    exact absurd h1 (by decide)
  · simp at hp

/-- Appending alone: a call done, and seen as it was found; and callers that write: the decisions, and the name. -/
example : (∃ s, mRun Ex.auCfg Ex.shInit Ex.shAppend = some s ∧ NoWrite Ex.shAppend ∧ s.a.calls 1 = some ⟨Ex.shReq, .done (.ok Ex.shPrincipal)⟩) ∧
    ∃ s, mRun Ex.auCfg Ex.shInit Ex.shWrite = some s ∧ s.a.calls 1 = some ⟨Ex.shReq, .done (.ok Ex.shPrincipal)⟩ := by
  constructor
  · obtain ⟨s, hs, hp⟩ := Ex.exists_of_map (o := mRun Ex.auCfg Ex.shInit Ex.shAppend)
      (p := fun s => decide (Ex.doneOk s.a 1 Ex.shReq = some Ex.shPrincipal)) (by decide +kernel)
    exact ⟨s, hs, by intro m idx v; simp [Ex.shAppend, Ex.shCalls], Ex.doneOk_iff (of_decide_eq_true hp)⟩
  · obtain ⟨s, hs, hp⟩ := Ex.exists_of_map (o := mRun Ex.auCfg Ex.shInit Ex.shWrite)
      (p := fun s => decide (Ex.doneOk s.a 1 Ex.shReq = some Ex.shPrincipal)) (by decide +kernel)
    exact ⟨s, hs, Ex.doneOk_iff (of_decide_eq_true hp)⟩

/-- Appending to full slices: each caller has its own list. -/
example : ∃ s, mRun Ex.auCfg Ex.shInit Ex.shClipped = some s ∧ NoWrite Ex.shClipped ∧ Clipped Ex.auCfg Ex.shInit Ex.shClipped ∧
    s.mine.map (·.2) = [["admin".toList, "guest".toList], ["admin".toList, "guest".toList], ["admin".toList, "guest".toList, "a".toList],
      ["admin".toList, "guest".toList, "b".toList]] := by
  obtain ⟨s, hs, hp⟩ := Ex.exists_of_map (o := mRun Ex.auCfg Ex.shInit Ex.shClipped)
    (p := fun s => decide (s.mine.map (·.2) = [["admin".toList, "guest".toList], ["admin".toList, "guest".toList],
      ["admin".toList, "guest".toList, "a".toList], ["admin".toList, "guest".toList, "b".toList]])) (by decide +kernel)
  exact ⟨s, hs, by intro m idx v; simp [Ex.shClipped, Ex.shCalls], Ex.clipped_of (by decide +kernel), of_decide_eq_true hp⟩

end Athenz
