import Verif.Proofs.ExpiryLive

/-! # Runs of the caches of policies in which lookups find expired entries -/

namespace Athenz

open Spec Spec.XExec

/-! ### Finite schedules as executions -/

theorem xRun_append {cap : Nat} : ∀ (as bs : List XAct) (s : XState), xRun cap s (as ++ bs) = (xRun cap s as).bind fun s' => xRun cap s' bs
  | [], _, _ => rfl
  | a :: as, bs, s => by
    simp only [List.cons_append, xRun]
    cases xStep cap s a with
    | none => rfl
    | some s1 => exact xRun_append as bs s1

/-- The execution that follows the schedule, and then nothing happens. -/
def xExecOf {cap : Nat} {now : Int} {as : List XAct} {s : XState} (h : xRun cap (xInit now) as = some s) : XExec cap now where
  state := fun n => (xRun cap (xInit now) (as.take n)).getD (xInit now)
  act := fun n => as[n]?
  init := rfl
  next := by
    intro n
    cases ha : as[n]? with
    | none =>
      have hl : as.length ≤ n := List.getElem?_eq_none_iff.mp ha
      simp only [List.take_of_length_le hl, List.take_of_length_le (Nat.le_succ_of_le hl)]
    | some a =>
      have hn : n < as.length := (List.getElem?_eq_some_iff.mp ha).1
      have ht : as.take (n + 1) = as.take n ++ [a] := by rw [List.take_add_one, ha]; rfl
      have hsplit := List.take_append_drop (n + 1) as
      rw [← hsplit, xRun_append, ht, xRun_append] at h
      simp only [ht, xRun_append]
      cases h1 : xRun cap (xInit now) (as.take n) with
      | none => rw [h1] at h; simp at h
      | some s1 =>
        rw [h1] at h
        simp only [Option.bind_some, xRun] at h ⊢
        cases h2 : xStep cap s1 a with
        | none => rw [h2] at h; simp at h
        | some s2 => simp [h2]

theorem xExecOf_end {cap : Nat} {now : Int} {as : List XAct} {s : XState} (h : xRun cap (xInit now) as = some s) {n : Nat} (hn : as.length ≤ n) :
    (xExecOf h).state n = s := by
  simp only [xExecOf, List.take_of_length_le hn, h, Option.getD_some]

/-- It is fair if in the end no lookup and no goroutine can go on. -/
theorem xExecOf_fair {cap : Nat} {now : Int} {as : List XAct} {s : XState} (h : xRun cap (xInit now) as = some s)
    (hl : ∀ j, j < s.looks → ∀ a, OfLookup j a → xStep cap s a = none) (he : ∀ i, i < s.objs → ∀ a, OfExpirer i a → xStep cap s a = none) : XFair (xExecOf h) := by
  have hi := (xInv_init now).run h
  have hl' : ∀ j a, OfLookup j a → xStep cap s a = none := by
    intro j a ha
    by_cases hj : j < s.looks
    · exact hl j hj a ha
    · have := hi.freshLook j (by omega)
      rcases ha with rfl | rfl | rfl <;> simp [xStep, this]
  have he' : ∀ i a, OfExpirer i a → xStep cap s a = none := by
    intro i a ha
    by_cases hj : i < s.objs
    · exact he i hj a ha
    · have := hi.fresh i (by omega)
      rcases ha with rfl | rfl <;> simp [xStep, this, XObj.new]
  have he2 : ∀ i, xStep cap s (.exit i) = none := fun i => he' i _ (.inr rfl)
  constructor
  · intro j n hen
    obtain ⟨a, ha, hs⟩ := hen (max n as.length) (Nat.le_max_left _ _)
    rw [xExecOf_end h (Nat.le_max_right _ _), hl' j a ha] at hs
    simp at hs
  · intro i n hen
    obtain ⟨a, ha, hs⟩ := hen (max n as.length) (Nat.le_max_left _ _)
    rw [xExecOf_end h (Nat.le_max_right _ _), he' i a ha] at hs
    simp at hs
  · intro i n hen
    have hs := hen (max n as.length) (Nat.le_max_left _ _)
    rw [xExecOf_end h (Nat.le_max_right _ _), he2 i] at hs
    simp at hs

/-! ### A lookup that waits for ever -/

namespace Ex

/-- Different keys. -/
def epKey (r : Nat) : Str := List.replicate r 'a'

theorem epKey_inj {r r' : Nat} : epKey r = epKey r' ↔ r = r' := by
  constructor
  · intro h
    have := congrArg List.length h
    simpa [epKey] using this
  · rintro rfl; rfl

/-- Entries for the keys from `a` up to `b`. -/
def epCache (a b : Nat) : Gache Unit := fun k => if k.length < b ∧ a ≤ k.length ∧ k = epKey k.length then some ⟨(), 1⟩ else none

theorem epCache_set (b : Nat) : (epCache 0 b).set 0 (epKey b) () 1 = epCache 0 (b + 1) := by
  funext k
  simp only [Gache.set, epCache]
  by_cases h : k = epKey b
  · subst h
    have : (epKey b).length = b := by simp [epKey]
    simp [this, wrap64]
  · have : ¬ (k.length = b ∧ k = epKey k.length) := by rintro ⟨h1, h2⟩; rw [h1] at h2; exact h h2
    simp only [h, if_false]
    by_cases h1 : k = epKey k.length
    · have h2 : k.length ≠ b := fun e => this ⟨e, h1⟩
      have e : (k.length < b + 1) = (k.length < b) := by rw [eq_iff_iff]; omega
      simp only [e]
    · simp [h1]

theorem epCache_delete (a b : Nat) : (epCache a b).delete (epKey a) = epCache (a + 1) b := by
  funext k
  simp only [Gache.delete, epCache]
  by_cases h : k = epKey a
  · subst h
    have : (epKey a).length = a := by simp [epKey]
    simp [this]
  · simp only [h, if_false]
    by_cases h1 : k = epKey k.length
    · have h2 : k.length ≠ a := by intro e; rw [e] at h1; exact h h1
      have e : (a + 1 ≤ k.length) = (a ≤ k.length) := by rw [eq_iff_iff]; omega
      simp only [e]
    · simp [h1]

/-- Update of Init stores `n` policies. -/
def epStores (n : Nat) : List XAct := .update true :: (List.range n).map fun r => .store 1 (epKey r) 1

/-- The state after that. -/
def epStored (n : Nat) : XState :=
  { now := 0, objs := 2, obj := fun i => if i = 1 then { XObj.new .filling true with cache := epCache 0 n } else .new .none false, live := 0, looks := 0,
    look := fun _ => ⟨0, [], .returned false⟩, hooks := [] }

theorem epStores_run (cap n : Nat) : xRun cap (xInit 0) (epStores n) = some (epStored n) := by
  induction n with
  | zero =>
    simp only [epStores, List.range_zero, List.map_nil, xRun, xStep, Option.bind_some, xInit, XState.setObj, epStored, Option.some.injEq, XState.mk.injEq, true_and, and_true]
    funext i
    · split
      · simp only [XObj.new, XObj.mk.injEq, true_and, and_true]
        funext k
        simp [Gache.empty, epCache]
      · rfl
  | succ n ih =>
    have : epStores (n + 1) = epStores n ++ [.store 1 (epKey n) 1] := by simp [epStores, List.range_succ]
    rw [this, xRun_append, ih]
    simp only [Option.bind_some, xRun, xStep, epStored, if_true, XObj.new, XState.setObj, Option.some.injEq, XState.mk.injEq, true_and, and_true]
    funext i
    by_cases h : i = 1
    · simp [h, epCache_set]
    · simp [h]

/-- Update finishes, Init returns, the goroutine ends, and the policies expire. -/
def epMid : List XAct := [.start 1, .enable 1, .swap 1, .stop 1, .initRet 1, .exit 1, .tick 2]

/-- The state after `r` of the lookups. -/
def epLooked (cap r : Nat) : XState :=
  { now := 2, objs := 2,
    obj := fun i =>
      if i = 1 then
        { pc := .returned, ofInit := true, ctxDone := true, cache := epCache r (cap + 1), running := false, stopped := false, enabled := true,
          queue := (List.range r).map (fun j => (epKey j, j)) }
      else if i = 0 then { XObj.new .none false with stopped := true } else .new .none false,
    live := 1, looks := r, look := fun j => if j < r then ⟨1, epKey j, if j < cap then .returned false else .sent⟩ else ⟨0, [], .returned false⟩, hooks := [] }

theorem epMid_run (cap : Nat) : xRun cap (epStored (cap + 1)) epMid = some (epLooked cap 0) := by
  simp [epMid, xRun, xStep, epStored, epLooked, XState.setObj, XObj.new]
  funext i
  by_cases h : i = 1
  · simp [h]
  · by_cases h0 : i = 0
    · simp [h0]
    · simp [h, h0]

/-- Lookup `r`. -/
def epLook (cap r : Nat) : List XAct := [.lookup (epKey r), .get r, .send r] ++ if r < cap then [.ret r] else []

theorem epLook_run (cap r : Nat) (hr : r ≤ cap) : xRun cap (epLooked cap r) (epLook cap r) = some (epLooked cap (r + 1)) := by
  have hc : epCache r (cap + 1) (epKey r) = some ⟨(), 1⟩ := by
    have : (epKey r).length = r := by simp [epKey]
    simp only [epCache, this, Nat.le_refl, and_self, and_true]
    rw [if_pos (by omega)]
  have hv : Gache.valid 2 (⟨(), 1⟩ : GEntry Unit) = false := by decide
  have hq : (List.map (fun x : Str × Nat => x.2) (List.drop cap (List.map (fun j => (epKey j, j)) (List.range r) ++ [(epKey r, r)]))) = if r < cap then [] else [r] := by
    split
    · simp; omega
    · have : r = cap := by omega
      subst this
      simp
  have h1 : xStep cap (epLooked cap r) (.lookup (epKey r)) = some ((epLooked cap r).addLook 1 (epKey r)) := rfl
  generalize hS1 : (epLooked cap r).addLook 1 (epKey r) = S1 at h1
  have l1 : S1.look = fun j => if j = r then ⟨1, epKey r, .begun⟩ else (epLooked cap r).look j := by rw [← hS1]; rfl
  have o1 : S1.obj = (epLooked cap r).obj := by rw [← hS1]; rfl
  have n1 : S1.now = 2 := by rw [← hS1]; rfl
  have h2 : xStep cap S1 (.get r) = some ((S1.setObj 1 { S1.obj 1 with cache := epCache (r + 1) (cap + 1) }).setLook r ⟨1, epKey r, .found⟩) := by
    simp only [xStep, l1, if_true, o1, n1]
    simp only [epLooked, if_true, hc, hv, epCache_delete]
    simp
  generalize hS2 : (S1.setObj 1 { S1.obj 1 with cache := epCache (r + 1) (cap + 1) }).setLook r ⟨1, epKey r, .found⟩ = S2 at h2
  have l2 : S2.look r = ⟨1, epKey r, .found⟩ := by rw [← hS2]; simp [XState.setLook]
  have o2 : S2.obj 1 = { S1.obj 1 with cache := epCache (r + 1) (cap + 1) } := by rw [← hS2]; simp [XState.setLook, XState.setObj]
  have h3 : xStep cap S2 (.send r) = some ((S2.setObj 1 { S2.obj 1 with queue := (S2.obj 1).queue ++ [(epKey r, r)] }).setLook r ⟨1, epKey r, .sent⟩) := by
    simp only [xStep, l2, if_true]
  generalize hS3 : (S2.setObj 1 { S2.obj 1 with queue := (S2.obj 1).queue ++ [(epKey r, r)] }).setLook r ⟨1, epKey r, .sent⟩ = S3 at h3
  have l3 : S3.look r = ⟨1, epKey r, .sent⟩ := by rw [← hS3]; simp [XState.setLook]
  have q3 : (S3.obj 1).queue = List.map (fun j => (epKey j, j)) (List.range r) ++ [(epKey r, r)] := by
    rw [← hS3]; simp [XState.setLook, XState.setObj, o2, o1, epLooked]
  have h4 : r < cap → xStep cap S3 (.ret r) = some (S3.setLook r ⟨1, epKey r, .returned false⟩) := by
    intro hlt
    simp only [xStep, l3, q3, true_and]
    rw [hq, if_pos hlt]
    simp
  have fin : ∀ p, (if r < cap then LkPc.returned false else .sent) = p → S3.setLook r ⟨1, epKey r, p⟩ = epLooked cap (r + 1) := by
    rintro p rfl
    have lk : S3.look = fun j => if j = r then ⟨1, epKey r, .sent⟩ else (epLooked cap r).look j := by
      rw [← hS3]
      funext j
      simp only [XState.setLook, XState.setObj]
      split
      · rfl
      · rename_i hj
        rw [← hS2]
        simp only [XState.setLook, XState.setObj, hj, if_false, l1]
    have ob : S3.obj = (epLooked cap (r + 1)).obj := by
      rw [← hS3]
      funext i
      simp only [XState.setLook, XState.setObj]
      split
      · rename_i e
        subst e
        rw [o2, o1]
        simp [epLooked, List.range_succ]
      · rename_i e
        rw [← hS2]
        simp only [XState.setLook, XState.setObj, e, if_false, o1]
        simp only [epLooked, e, if_false]
    have rest : S3.now = 2 ∧ S3.objs = 2 ∧ S3.live = 1 ∧ S3.looks = r + 1 ∧ S3.hooks = [] := by
      rw [← hS3, ← hS2, ← hS1]
      exact ⟨rfl, rfl, rfl, rfl, rfl⟩
    have lk' : (fun j' => if j' = r then (⟨1, epKey r, if r < cap then .returned false else .sent⟩ : Lookup) else S3.look j') = (epLooked cap (r + 1)).look := by
      funext j
      simp only [lk, epLooked]
      by_cases hj : j = r
      · subst hj; simp
      · by_cases hj' : j < r
        · simp [hj, hj', Nat.lt_succ_of_lt hj']
        · have : ¬ j < r + 1 := by omega
          simp [hj, hj', this]
    simp only [XState.setLook, lk', ob, rest]
    rfl
  by_cases hlt : r < cap
  · simp only [epLook, hlt, if_true, xRun, Option.bind_some, List.cons_append, List.nil_append, h1, h2, h3, h4 hlt]
    rw [fin _ (by rw [if_pos hlt])]
  · simp only [epLook, hlt, if_false, xRun, Option.bind_some, List.append_nil, h1, h2, h3]
    rw [← fin .sent (by rw [if_neg hlt])]
    simp only [XState.setLook]
    have : (fun j' => if j' = r then (⟨1, epKey r, .sent⟩ : Lookup) else S3.look j') = S3.look := by
      funext j'
      split
      · rename_i e; rw [e, l3]
      · rfl
    rw [this]

/-- The moment when lookup `r` has found its entry. -/
theorem epLook_found (cap r : Nat) (hr : r ≤ cap) : ∃ s, xRun cap (epLooked cap r) [.lookup (epKey r), .get r] = some s ∧ FoundExpired s r 1 (epKey r) := by
  have hc : epCache r (cap + 1) (epKey r) = some ⟨(), 1⟩ := by
    have : (epKey r).length = r := by simp [epKey]
    simp only [epCache, this, Nat.le_refl, and_self, and_true]
    rw [if_pos (by omega)]
  have hv : Gache.valid 2 (⟨(), 1⟩ : GEntry Unit) = false := by decide
  have h1 : xStep cap (epLooked cap r) (.lookup (epKey r)) = some ((epLooked cap r).addLook 1 (epKey r)) := rfl
  generalize hS1 : (epLooked cap r).addLook 1 (epKey r) = S1 at h1
  have l1 : S1.look = fun j => if j = r then ⟨1, epKey r, .begun⟩ else (epLooked cap r).look j := by rw [← hS1]; rfl
  have o1 : S1.obj = (epLooked cap r).obj := by rw [← hS1]; rfl
  have n1 : S1.now = 2 := by rw [← hS1]; rfl
  have k1 : S1.looks = r + 1 := by rw [← hS1]; rfl
  have h2 : xStep cap S1 (.get r) = some ((S1.setObj 1 { S1.obj 1 with cache := epCache (r + 1) (cap + 1) }).setLook r ⟨1, epKey r, .found⟩) := by
    simp only [xStep, l1, if_true, o1, n1]
    simp only [epLooked, if_true, hc, hv, epCache_delete]
    simp
  refine ⟨_, by simp only [xRun, h1, Option.bind_some, h2]; rfl, ?_, ?_⟩
  · simp only [XState.setLook, XState.setObj, k1]; omega
  · simp [XState.setLook]

/-- All the lookups. -/
def epLooks (cap : Nat) : Nat → List XAct
  | 0 => []
  | r + 1 => epLooks cap r ++ epLook cap r

theorem epLooks_run (cap r : Nat) (hr : r ≤ cap + 1) : xRun cap (epLooked cap 0) (epLooks cap r) = some (epLooked cap r) := by
  induction r with
  | zero => rfl
  | succ r ih => rw [epLooks, xRun_append, ih (by omega)]; exact epLook_run cap r (by omega)

/-- As many expired policies are looked up as the channel has room for, and one more. -/
def epStuck (cap : Nat) : List XAct := epStores (cap + 1) ++ epMid ++ epLooks cap (cap + 1)

theorem epStuck_run (cap : Nat) : xRun cap (xInit 0) (epStuck cap) = some (epLooked cap (cap + 1)) := by
  rw [epStuck, xRun_append, xRun_append, epStores_run, Option.bind_some, epMid_run, Option.bind_some, epLooks_run _ _ (Nat.le_refl _)]

theorem epStuck_noCancel (cap i : Nat) : XAct.cancel i ∉ epStuck cap := by
  have : ∀ r, XAct.cancel i ∉ epLooks cap r := by
    intro r
    induction r with
    | zero => simp [epLooks]
    | succ r ih =>
      simp only [epLooks, List.mem_append, not_or]
      refine ⟨ih, ?_⟩
      simp only [epLook]
      split <;> simp
  simp [epStuck, epStores, epMid, this]

theorem epStuck_noTake (cap i : Nat) : XAct.take i ∉ epStuck cap := by
  have : ∀ r, XAct.take i ∉ epLooks cap r := by
    intro r
    induction r with
    | zero => simp [epLooks]
    | succ r ih =>
      simp only [epLooks, List.mem_append, not_or]
      refine ⟨ih, ?_⟩
      simp only [epLook]
      split <;> simp
  simp [epStuck, epStores, epMid, this]

theorem epStuck_fair (cap : Nat) : XFair (xExecOf (epStuck_run cap)) := by
  apply xExecOf_fair
  · intro j hj a ha
    have hj' : j < cap + 1 := hj
    by_cases hc : j < cap
    · rcases ha with rfl | rfl | rfl <;> simp [xStep, epLooked, hj', hc]
    · have : j = cap := by omega
      subst this
      rcases ha with rfl | rfl | rfl <;> simp [xStep, epLooked, List.range_succ]
  · intro i hi a ha
    have hr : ((epLooked cap (cap + 1)).obj i).running = false := by
      simp only [epLooked]
      split
      · rfl
      · split <;> rfl
    rcases ha with rfl | rfl <;> simp [xStep, hr]

end Ex

end Athenz
