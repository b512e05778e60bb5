import Verif.Proofs.ExpiryRuns

/-! # What lookups of the caches of policies answer -/

namespace Athenz.ExpiryHitP

/-- The entry that lookup `l` looks for is there and not expired. -/
def Valid (s : XState) (l : Lookup) : Prop := ∃ e, (s.obj l.obj).cache l.key = some e ∧ (e.expire ≤ 0 ∨ s.now ≤ e.expire)

theorem valid_iff {s : XState} {l : Lookup} {e : GEntry Unit} (h : (s.obj l.obj).cache l.key = some e) : Gache.valid s.now e = true ↔ Valid s l := by
  simp only [Gache.valid, Bool.or_eq_true, decide_eq_true_eq]
  constructor
  · exact fun hv => ⟨e, h, hv⟩
  · rintro ⟨e', h', hv⟩
    rw [h] at h'
    cases h'
    exact hv

theorem setObj_look (s : XState) (i : Nat) (o : XObj) : (s.setObj i o).look = s.look ∧ (s.setObj i o).looks = s.looks := ⟨rfl, rfl⟩

theorem setLook_look (s : XState) (j j' : Nat) (l : Lookup) :
    (s.setLook j l).look j' = if j' = j then l else s.look j' := rfl

theorem setLook_looks (s : XState) (j : Nat) (l : Lookup) : (s.setLook j l).looks = s.looks := rfl

theorem addLook_look (s : XState) (i : Nat) (k : Str) (j : Nat) :
    (s.addLook i k).look j = if j = s.looks then ⟨i, k, .begun⟩ else s.look j := rfl

theorem addLook_looks (s : XState) (i : Nat) (k : Str) : (s.addLook i k).looks = s.looks + 1 := rfl

/-- How a lookup changes in a step. -/
theorem step_look {cap : Nat} {s s' : XState} {a : XAct} (h : xStep cap s a = some s') (j : Nat) (hj : j < s'.looks) :
    (s'.look j = s.look j ∧ j < s.looks) ∨ (s'.look j).pc = .begun ∨
    ((s'.look j).obj = (s.look j).obj ∧ (s'.look j).key = (s.look j).key ∧ j < s.looks ∧
      ((a = .get j ∧ (s.look j).pc = .begun ∧
          ((Valid s (s.look j) ∧ (s'.look j).pc = .returned true) ∨
            (¬ Valid s (s.look j) ∧ ((s'.look j).pc = .found ∨ (s'.look j).pc = .returned false)))) ∨
        (a = .send j ∧ (s.look j).pc = .found ∧ (s'.look j).pc = .sent) ∨
        (a = .ret j ∧ (s.look j).pc = .sent ∧ (s'.look j).pc = .returned false))) := by
  cases a with
  | lookup k =>
    cases h
    rw [addLook_looks] at hj
    rw [addLook_look]
    by_cases e : j = s.looks
    · rw [if_pos e]; exact Or.inr (Or.inl rfl)
    · rw [if_neg e]; exact Or.inl ⟨rfl, by omega⟩
  | sweep i k =>
    simp only [xStep] at h
    split at h
    · cases h
    · cases h
      rw [addLook_looks] at hj
      rw [addLook_look]
      by_cases e : j = s.looks
      · rw [if_pos e]; exact Or.inr (Or.inl rfl)
      · rw [if_neg e]; exact Or.inl ⟨rfl, by omega⟩
  | get j' =>
    simp only [xStep] at h
    split at h
    · rename_i hb
      split at h
      · rename_i hc
        cases h
        rw [setLook_looks] at hj
        rw [setLook_look]
        by_cases e : j = j'
        · subst e
          rw [if_pos rfl]
          refine Or.inr (Or.inr ⟨rfl, rfl, hj, Or.inl ⟨rfl, hb, Or.inr ⟨?_, Or.inr rfl⟩⟩⟩)
          rintro ⟨e, he, _⟩
          rw [hc] at he
          cases he
        · rw [if_neg e]; exact Or.inl ⟨rfl, hj⟩
      · rename_i en hc
        split at h
        · rename_i hv
          cases h
          rw [setLook_looks] at hj
          rw [setLook_look]
          by_cases e : j = j'
          · subst e
            rw [if_pos rfl]
            exact Or.inr (Or.inr ⟨rfl, rfl, hj, Or.inl ⟨rfl, hb, Or.inl ⟨(valid_iff hc).mp hv, rfl⟩⟩⟩)
          · rw [if_neg e]; exact Or.inl ⟨rfl, hj⟩
        · rename_i hv
          cases h
          rw [setLook_looks, (setObj_look ..).2] at hj
          rw [setLook_look, (setObj_look ..).1]
          by_cases e : j = j'
          · subst e
            rw [if_pos rfl]
            refine Or.inr (Or.inr ⟨rfl, rfl, hj, Or.inl ⟨rfl, hb, Or.inr ⟨fun hV => hv ((valid_iff hc).mpr hV), ?_⟩⟩⟩)
            cases (s.obj (s.look j).obj).enabled
            · exact Or.inr rfl
            · exact Or.inl rfl
          · rw [if_neg e]; exact Or.inl ⟨rfl, hj⟩
    · cases h
  | send j' =>
    simp only [xStep] at h
    split at h
    · rename_i hb
      cases h
      rw [setLook_looks, (setObj_look ..).2] at hj
      rw [setLook_look, (setObj_look ..).1]
      by_cases e : j = j'
      · subst e
        rw [if_pos rfl]
        exact Or.inr (Or.inr ⟨rfl, rfl, hj, Or.inr (Or.inl ⟨rfl, hb, rfl⟩)⟩)
      · rw [if_neg e]; exact Or.inl ⟨rfl, hj⟩
    · cases h
  | ret j' =>
    simp only [xStep] at h
    split at h
    · rename_i hb
      cases h
      rw [setLook_looks] at hj
      rw [setLook_look]
      by_cases e : j = j'
      · subst e
        rw [if_pos rfl]
        exact Or.inr (Or.inr ⟨rfl, rfl, hj, Or.inr (Or.inr ⟨rfl, hb.1, rfl⟩)⟩)
      · rw [if_neg e]; exact Or.inl ⟨rfl, hj⟩
    · cases h
  | stop i =>
    simp only [xStep] at h
    split at h
    · cases h; exact Or.inl ⟨rfl, hj⟩
    · cases h
  | take i =>
    simp only [xStep] at h
    split at h
    · split at h
      · cases h
      · cases h; exact Or.inl ⟨rfl, hj⟩
    · cases h
  | hookStore i k t =>
    simp only [xStep] at h
    split at h
    · cases h
    · cases h; exact Or.inl ⟨rfl, hj⟩
  | tick d => cases h; exact Or.inl ⟨rfl, hj⟩
  | update b => cases h; exact Or.inl ⟨rfl, hj⟩
  | store i k t => simp only [xStep] at h; split at h <;> cases h; exact Or.inl ⟨rfl, hj⟩
  | fail i => simp only [xStep] at h; split at h <;> cases h; exact Or.inl ⟨rfl, hj⟩
  | start i => simp only [xStep] at h; split at h <;> cases h; exact Or.inl ⟨rfl, hj⟩
  | enable i => simp only [xStep] at h; split at h <;> cases h; exact Or.inl ⟨rfl, hj⟩
  | swap i => simp only [xStep] at h; split at h <;> cases h; exact Or.inl ⟨rfl, hj⟩
  | initRet i => simp only [xStep] at h; split at h <;> cases h; exact Or.inl ⟨rfl, hj⟩
  | cancel i => simp only [xStep] at h; split at h <;> cases h; exact Or.inl ⟨rfl, hj⟩
  | exit i => simp only [xStep] at h; split at h <;> cases h; exact Or.inl ⟨rfl, hj⟩

/-- Lookup `l`, number `j`, has looked, and found an entry that is valid or not. -/
def Looked (cap : Nat) (now : Int) (as : List XAct) (j : Nat) (l : Lookup) (hit : Bool) : Prop :=
  ∃ pre post t, as = pre ++ .get j :: post ∧ xRun cap (xInit now) pre = some t ∧ (t.look j).obj = l.obj ∧ (t.look j).key = l.key ∧
    (hit = true ↔ Valid t l)

theorem Looked.snoc {cap : Nat} {now : Int} {as : List XAct} {j : Nat} {l : Lookup} {hit : Bool} (h : Looked cap now as j l hit) (a : XAct) :
    Looked cap now (as ++ [a]) j l hit := by
  obtain ⟨pre, post, t, rfl, h⟩ := h
  exact ⟨pre, post ++ [a], t, by simp, h⟩

theorem valid_congr {s : XState} {l l' : Lookup} (h1 : l'.obj = l.obj) (h2 : l'.key = l.key) : Valid s l' ↔ Valid s l := by
  unfold Valid; rw [h1, h2]

theorem answers (cap : Nat) (now : Int) (as : List XAct) : ∀ s, xRun cap (xInit now) as = some s → ∀ j, j < s.looks →
    ((s.look j).pc = .found ∨ (s.look j).pc = .sent → Looked cap now as j (s.look j) false) ∧
    ∀ hit, (s.look j).pc = .returned hit → Looked cap now as j (s.look j) hit := by
  rw [← List.reverse_reverse as]
  generalize as.reverse = bs
  induction bs with
  | nil =>
    intro s hs j hj
    cases hs
    exact absurd hj (Nat.not_lt_zero j)
  | cons a bs ih =>
    intro s hs j hj
    rw [List.reverse_cons] at hs ⊢
    rw [xRun_append] at hs
    cases hr : xRun cap (xInit now) bs.reverse with
    | none => rw [hr] at hs; cases hs
    | some t =>
      rw [hr] at hs
      have hst : xStep cap t a = some s := by
        simp only [Option.bind_some, xRun] at hs
        cases hx : xStep cap t a with
        | none => rw [hx] at hs; cases hs
        | some s1 => rw [hx] at hs; simpa using hs
      rcases step_look hst j hj with ⟨h1, h2⟩ | h1 | ⟨ho, hk, hlt, h1⟩
      · rw [h1]
        have := ih t hr j h2
        exact ⟨fun h => (this.1 h).snoc a, fun hit h => (this.2 hit h).snoc a⟩
      · rw [h1]
        exact ⟨fun h => (by rcases h with h | h <;> cases h), fun hit h => (by cases h)⟩
      · have lift : ∀ hit, Looked cap now bs.reverse j (t.look j) hit → Looked cap now (bs.reverse ++ [a]) j (s.look j) hit := by
          rintro hit h
          obtain ⟨pre, post, t', e, h1, h2, h3, h4⟩ := h.snoc a
          exact ⟨pre, post, t', e, h1, by rw [h2, ho], by rw [h3, hk], by rw [h4, valid_congr ho hk]⟩
        rcases h1 with ⟨rfl, hb, hv⟩ | ⟨rfl, hb, hp⟩ | ⟨rfl, hb, hp⟩
        · have mk : ∀ hit, (hit = true ↔ Valid t (t.look j)) → Looked cap now (bs.reverse ++ [.get j]) j (s.look j) hit := fun hit hh =>
            ⟨bs.reverse, [], t, rfl, hr, ho.symm, hk.symm, by rw [hh, valid_congr ho hk]⟩
          rcases hv with ⟨hv, hp⟩ | ⟨hv, hp⟩
          · rw [hp]
            refine ⟨fun h => (by rcases h with h | h <;> cases h), fun hit h => ?_⟩
            cases h
            exact mk true (by simp [hv])
          · refine ⟨fun _ => mk false (by simp [hv]), fun hit h => ?_⟩
            rcases hp with hp | hp
            · rw [hp] at h; cases h
            · rw [hp] at h; cases h; exact mk false (by simp [hv])
        · rw [hp]
          exact ⟨fun _ => lift false ((ih t hr j hlt).1 (Or.inl hb)), fun hit h => by cases h⟩
        · rw [hp]
          refine ⟨fun h => (by rcases h with h | h <;> cases h), fun hit h => ?_⟩
          cases h
          exact lift false ((ih t hr j hlt).1 (Or.inr hb))

end Athenz.ExpiryHitP
