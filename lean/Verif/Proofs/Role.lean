import Verif.Spec.Role
import Verif.Proofs.Num

/-! Lemmas about the role token parser. -/

namespace Athenz
open Spec

/-! ### Numerals -/

theorem digitVal_digit {d : Nat} (h : d < 10) : digitVal (digit d) = some d := by
  match d with
  | 0 => decide
  | 1 => decide
  | 2 => decide
  | 3 => decide
  | 4 => decide
  | 5 => decide
  | 6 => decide
  | 7 => decide
  | 8 => decide
  | 9 => decide
  | n + 10 => omega

theorem digitVal_some {c : Char} {d : Nat} (h : digitVal c = some d) : d < 10 ∧ c = digit d := by
  unfold digitVal at h
  split at h
  · rename_i hc
    simp only [Option.some.injEq] at h
    have h1 : 48 ≤ c.toNat := hc.1
    have h2 : c.toNat ≤ 57 := hc.2
    have h3 : ('0' : Char).toNat = 48 := rfl
    rw [h3] at h
    refine ⟨by omega, ?_⟩
    have : 48 + d = c.toNat := by omega
    simp only [digit, this]
    exact (Char.ofNat_toNat c).symm
  · simp at h

theorem parseDigits_map (ds : List Nat) (hd : ∀ d ∈ ds, d < 10) (acc : Nat) :
    parseDigits acc (ds.map digit) = some (acc * 10 ^ ds.length + decVal ds) := by
  induction ds generalizing acc with
  | nil => simp [parseDigits, decVal]
  | cons d ds ih =>
    simp only [List.map_cons, parseDigits, digitVal_digit (hd d (by simp))]
    rw [ih (fun x hx => hd x (by simp [hx]))]
    simp only [List.length_cons, decVal, Nat.pow_succ]
    congr 1
    have : 10 * acc * 10 ^ ds.length = acc * (10 ^ ds.length * 10) := by rw [Nat.mul_comm 10 acc, Nat.mul_assoc, Nat.mul_comm 10]
    rw [Nat.add_mul, this, Nat.add_assoc]

theorem parseDigits_some {s : Str} {acc n : Nat} (h : parseDigits acc s = some n) :
    ∃ ds : List Nat, (∀ d ∈ ds, d < 10) ∧ s = ds.map digit ∧ n = acc * 10 ^ ds.length + decVal ds := by
  have key : ∃ ds : List Nat, (∀ d ∈ ds, d < 10) ∧ s = ds.map digit := by
    induction s generalizing acc with
    | nil => exact ⟨[], by simp, rfl⟩
    | cons c cs ih =>
      simp only [parseDigits] at h
      split at h
      · rename_i d hd
        obtain ⟨ds, h1, h2⟩ := ih h
        obtain ⟨h3, h4⟩ := digitVal_some hd
        refine ⟨d :: ds, ?_, by simp [h2, h4]⟩
        intro x hx
        rcases List.mem_cons.mp hx with rfl | hx
        · exact h3
        · exact h1 x hx
      · simp at h
  obtain ⟨ds, h1, h2⟩ := key
  refine ⟨ds, h1, h2, ?_⟩
  rw [h2, parseDigits_map ds h1] at h
  simpa using h.symm

theorem digit_ne_sign {d : Nat} (h : d < 10) : digit d ≠ '+' ∧ digit d ≠ '-' := by
  have h1 := digitVal_digit h
  constructor <;> intro hc <;> rw [hc] at h1 <;> simp [digitVal] at h1

theorem parseInt64_iff {v : Str} {i : Int} : parseInt64 v = some i ↔ Numeral v i := by
  have hdig : ∀ {s : Str} {n : Nat}, parseDigits 0 s = some n ↔ ∃ ds : List Nat, (∀ d ∈ ds, d < 10) ∧ s = ds.map digit ∧ n = decVal ds := by
    intro s n
    constructor
    · intro h
      obtain ⟨ds, h1, h2, h3⟩ := parseDigits_some h
      exact ⟨ds, h1, h2, by simpa using h3⟩
    · rintro ⟨ds, h1, rfl, rfl⟩
      rw [parseDigits_map ds h1]; simp
  have hgo : ∀ (neg : Bool) (ds : Str) (i : Int), (if ds = [] then none else match parseDigits 0 ds with
      | none => none
      | some n => if neg then (if n ≤ 2 ^ 63 then some (-(n : Int)) else none) else (if n < 2 ^ 63 then some (n : Int) else none)) = some i ↔
      IsInt64 i ∧ ∃ l : List Nat, l ≠ [] ∧ (∀ d ∈ l, d < 10) ∧ ds = l.map digit ∧ i = if neg then -(decVal l : Int) else decVal l := by
    intro neg ds i
    constructor
    · intro h
      split at h
      · simp at h
      · rename_i hne
        split at h
        · simp at h
        · rename_i n hn
          obtain ⟨l, h1, h2, h3⟩ := hdig.mp hn
          have hl : l ≠ [] := by rintro rfl; exact hne (by simpa using h2)
          cases neg with
          | true =>
            simp only [if_true] at h
            split at h
            · rename_i hle
              simp only [Option.some.injEq] at h
              refine ⟨by unfold IsInt64; omega, l, hl, h1, h2, by simp [← h, h3]⟩
            · simp at h
          | false =>
            simp only [Bool.false_eq_true, if_false] at h
            split at h
            · rename_i hle
              simp only [Option.some.injEq] at h
              refine ⟨by unfold IsInt64; omega, l, hl, h1, h2, by simp [← h, h3]⟩
            · simp at h
    · rintro ⟨hr, l, hl, h1, h2, h3⟩
      have hn : parseDigits 0 ds = some (decVal l) := hdig.mpr ⟨l, h1, h2, rfl⟩
      have hne : ds ≠ [] := by rw [h2]; simpa using hl
      rw [if_neg hne, hn]
      unfold IsInt64 at hr
      cases neg with
      | true =>
        simp only [if_true] at h3 ⊢
        rw [if_pos (by omega), h3]
      | false =>
        simp only [Bool.false_eq_true, if_false] at h3 ⊢
        rw [if_pos (by omega), h3]
  unfold parseInt64 Numeral
  cases v with
  | nil =>
    simp only
    constructor
    · simp
    · rintro ⟨_, ds, h1, _, ⟨h | h, _⟩ | ⟨h, _⟩⟩
      · exact absurd (by simpa using h.symm) h1
      · simp at h
      · simp at h
  | cons c cs =>
    simp only
    by_cases hp : c = '+'
    · subst hp
      simp only [if_true]
      refine Iff.trans (hgo false cs i) ?_
      simp only [Bool.false_eq_true, if_false]
      constructor
      · rintro ⟨hr, l, hl, h1, h2, h3⟩
        exact ⟨hr, l, hl, h1, .inl ⟨.inr (by rw [h2]), h3⟩⟩
      · rintro ⟨hr, l, hl, h1, ⟨h2 | h2, h3⟩ | ⟨h2, h3⟩⟩
        · exfalso
          cases l with
          | nil => exact hl rfl
          | cons d l =>
            simp only [List.map_cons, List.cons.injEq] at h2
            exact (digit_ne_sign (h1 d (by simp))).1 h2.1.symm
        · simp only [List.cons.injEq, true_and] at h2
          exact ⟨hr, l, hl, h1, h2, h3⟩
        · simp at h2
    · by_cases hm : c = '-'
      · subst hm
        rw [if_neg (by decide), if_pos rfl]
        refine Iff.trans (hgo true cs i) ?_
        simp only [if_true]
        constructor
        · rintro ⟨hr, l, hl, h1, h2, h3⟩
          exact ⟨hr, l, hl, h1, .inr ⟨by rw [h2], h3⟩⟩
        · rintro ⟨hr, l, hl, h1, ⟨h2 | h2, h3⟩ | ⟨h2, h3⟩⟩
          · exfalso
            cases l with
            | nil => exact hl rfl
            | cons d l =>
              simp only [List.map_cons, List.cons.injEq] at h2
              exact (digit_ne_sign (h1 d (by simp))).2 h2.1.symm
          · simp at h2
          · simp only [List.cons.injEq, true_and] at h2
            exact ⟨hr, l, hl, h1, h2, h3⟩
      · rw [if_neg hp, if_neg hm]
        refine Iff.trans (hgo false (c :: cs) i) ?_
        simp only [Bool.false_eq_true, if_false]
        constructor
        · rintro ⟨hr, l, hl, h1, h2, h3⟩
          exact ⟨hr, l, hl, h1, .inl ⟨.inl h2, h3⟩⟩
        · rintro ⟨hr, l, hl, h1, ⟨h2 | h2, h3⟩ | ⟨h2, h3⟩⟩
          · exact ⟨hr, l, hl, h1, h2, h3⟩
          · simp only [List.cons.injEq] at h2; exact absurd h2.1 hp
          · simp only [List.cons.injEq] at h2; exact absurd h2.1 hm

theorem decVal_append (a b : List Nat) : decVal (a ++ b) = decVal a * 10 ^ b.length + decVal b := by
  induction a with
  | nil => simp [decVal]
  | cons d a ih =>
    simp only [List.cons_append, decVal, ih, List.length_append, Nat.pow_add]
    rw [Nat.add_mul, Nat.mul_assoc, Nat.add_assoc]

theorem decimalNat_digits (n : Nat) : ∃ ds : List Nat, ds ≠ [] ∧ (∀ d ∈ ds, d < 10) ∧ decimalNat n = ds.map digit ∧ decVal ds = n := by
  induction n using Nat.strongRecOn with
  | ind n ih =>
    rw [decimalNat]
    split
    · rename_i h
      exact ⟨[n], by simp, by simpa using h, rfl, by simp [decVal]⟩
    · rename_i h
      obtain ⟨ds, h1, h2, h3, h4⟩ := ih (n / 10) (by omega)
      refine ⟨ds ++ [n % 10], by simp, ?_, by simp [h3], ?_⟩
      · intro d hd
        rcases List.mem_append.mp hd with hd | hd
        · exact h2 d hd
        · simp only [List.mem_singleton] at hd; omega
      · rw [decVal_append, h4]
        simp [decVal]
        omega

theorem numeral_decimal {i : Int} (h : IsInt64 i) : Numeral (decimal i) i := by
  refine ⟨h, ?_⟩
  unfold decimal
  split
  · rename_i hp
    obtain ⟨ds, h1, h2, h3, h4⟩ := decimalNat_digits i.toNat
    exact ⟨ds, h1, h2, .inl ⟨.inl h3, by omega⟩⟩
  · rename_i hp
    obtain ⟨ds, h1, h2, h3, h4⟩ := decimalNat_digits (-i).toNat
    exact ⟨ds, h1, h2, .inr ⟨by rw [h3], by omega⟩⟩

theorem numeral_no_semicolon {v : Str} {i : Int} (h : Numeral v i) : ';' ∉ v := by
  obtain ⟨_, ds, _, h2, h3⟩ := h
  have key : ';' ∉ ds.map digit := by
    intro hm
    obtain ⟨d, hd, he⟩ := List.mem_map.mp hm
    have := digitVal_digit (h2 d hd)
    rw [he] at this; simp [digitVal] at this
  rcases h3 with ⟨h | h, _⟩ | ⟨h, _⟩ <;> rw [h]
  · exact key
  · rw [List.mem_cons, not_or]; exact ⟨by decide, key⟩
  · rw [List.mem_cons, not_or]; exact ⟨by decide, key⟩

/-! ### The last value of a key -/

theorem lastValue_cons (key : String) (p : Str × Str) (kvs : List (Str × Str)) :
    lastValue key (p :: kvs) = (lastValue key kvs).or (if p.1 = key.toList then some p.2 else none) := by
  unfold lastValue
  rw [List.reverse_cons, List.find?_append]
  cases h : kvs.reverse.find? fun p => p.1 == key.toList with
  | some q => simp
  | none =>
    by_cases hk : p.1 = key.toList
    · simp [hk]
    · have : (p.1 == key.toList) = false := by simpa using hk
      simp [hk, this]

theorem lastValue_mem {key : String} {kvs : List (Str × Str)} {v : Str} (h : lastValue key kvs = some v) : (key.toList, v) ∈ kvs := by
  unfold lastValue at h
  obtain ⟨p, hp, rfl⟩ := Option.map_eq_some_iff.mp h
  have h1 := List.find?_some hp
  have h2 := List.mem_of_find?_eq_some hp
  simp only [beq_iff_eq] at h1
  rw [← h1]
  simpa using h2

theorem lastValue_none {key : String} {kvs : List (Str × Str)} : lastValue key kvs = none ↔ ∀ v, (key.toList, v) ∉ kvs := by
  constructor
  · intro h v hm
    unfold lastValue at h
    simp only [Option.map_eq_none_iff, List.find?_eq_none, List.mem_reverse, beq_iff_eq] at h
    exact h _ hm rfl
  · intro h
    cases hv : lastValue key kvs with
    | none => rfl
    | some v => exact absurd (lastValue_mem hv) (h v)

/-! ### The loop over the pairs -/

/-- A time field after the loop. -/
def timeField (old : GoTime) (v : Option Str) : GoTime :=
  match v.bind parseInt64 with
  | some i => GoTime.ofUnix i
  | none => old

/-- The token after the loop. -/
def applyPairs (rt : RoleToken) (kvs : List (Str × Str)) : RoleToken :=
  { domain := (lastValue "d" kvs).getD rt.domain
    roles := ((lastValue "r" kvs).map (Str.split ',')).getD rt.roles
    principal := (lastValue "p" kvs).getD rt.principal
    timeStamp := timeField rt.timeStamp (lastValue "t" kvs)
    expiryTime := timeField rt.expiryTime (lastValue "e" kvs)
    keyId := (lastValue "k" kvs).getD rt.keyId
    signature := (lastValue "s" kvs).getD rt.signature
    unsignedToken := rt.unsignedToken }

def TimesOk (kvs : List (Str × Str)) : Prop := ∀ p ∈ kvs, p.1 = "e".toList ∨ p.1 = "t".toList → (parseInt64 p.2).isSome

theorem lastValue_one (key : String) (k v : Str) : lastValue key [(k, v)] = if k = key.toList then some v else none := by
  rw [lastValue_cons]; rfl

theorem setParams_ok {rt rt' : RoleToken} {k v : Str} :
    rt.setParams k v = .ok rt' ↔ ((k = "e".toList ∨ k = "t".toList → (parseInt64 v).isSome) ∧ rt' = applyPairs rt [(k, v)]) := by
  obtain ⟨d1, d2, d3, d4, d5, d6⟩ : (("d".toList : Str) ≠ "e".toList) ∧ (("d".toList : Str) ≠ "k".toList) ∧ (("d".toList : Str) ≠ "p".toList) ∧
    (("d".toList : Str) ≠ "r".toList) ∧ (("d".toList : Str) ≠ "s".toList) ∧ (("d".toList : Str) ≠ "t".toList) := by decide
  obtain ⟨e2, e3, e4, e5, e6⟩ : (("e".toList : Str) ≠ "k".toList) ∧ (("e".toList : Str) ≠ "p".toList) ∧
    (("e".toList : Str) ≠ "r".toList) ∧ (("e".toList : Str) ≠ "s".toList) ∧ (("e".toList : Str) ≠ "t".toList) := by decide
  obtain ⟨k3, k4, k5, k6⟩ : (("k".toList : Str) ≠ "p".toList) ∧
    (("k".toList : Str) ≠ "r".toList) ∧ (("k".toList : Str) ≠ "s".toList) ∧ (("k".toList : Str) ≠ "t".toList) := by decide
  obtain ⟨p4, p5, p6⟩ : (("p".toList : Str) ≠ "r".toList) ∧ (("p".toList : Str) ≠ "s".toList) ∧ (("p".toList : Str) ≠ "t".toList) := by decide
  obtain ⟨r5, r6, s6⟩ : (("r".toList : Str) ≠ "s".toList) ∧ (("r".toList : Str) ≠ "t".toList) ∧ (("s".toList : Str) ≠ "t".toList) := by decide
  unfold RoleToken.setParams applyPairs
  simp only [lastValue_one]
  by_cases hd : k = "d".toList
  · rw [hd]
    simp only [d1, d2, d3, d4, d5, d6, if_true, if_false, or_self, false_implies, true_and, Option.getD_some, Option.getD_none, Option.map_none,
      timeField, Option.bind_none, Res.ok.injEq]
    exact eq_comm
  by_cases he : k = "e".toList
  · rw [he]
    simp only [d1.symm, e2, e3, e4, e5, e6, if_true, if_false, true_or, true_implies, Option.getD_none, Option.map_none,
      timeField, Option.bind_none, Option.bind_some]
    cases parseInt64 v with
    | none => simp
    | some i => simp [eq_comm]
  by_cases hk : k = "k".toList
  · rw [hk]
    simp only [d2.symm, e2.symm, k3, k4, k5, k6, if_true, if_false, or_self, false_implies, true_and, Option.getD_some, Option.getD_none, Option.map_none,
      timeField, Option.bind_none, Res.ok.injEq]
    exact eq_comm
  by_cases hp : k = "p".toList
  · rw [hp]
    simp only [d3.symm, e3.symm, k3.symm, p4, p5, p6, if_true, if_false, or_self, false_implies, true_and, Option.getD_some, Option.getD_none, Option.map_none,
      timeField, Option.bind_none, Res.ok.injEq]
    exact eq_comm
  by_cases hr : k = "r".toList
  · rw [hr]
    simp only [d4.symm, e4.symm, k4.symm, p4.symm, r5, r6, if_true, if_false, or_self, false_implies, true_and, Option.getD_some, Option.getD_none,
      Option.map_some, timeField, Option.bind_none, Res.ok.injEq]
    exact eq_comm
  by_cases hs : k = "s".toList
  · rw [hs]
    simp only [d5.symm, e5.symm, k5.symm, p5.symm, r5.symm, s6, if_true, if_false, or_self, false_implies, true_and, Option.getD_some, Option.getD_none, Option.map_none,
      timeField, Option.bind_none, Res.ok.injEq]
    exact eq_comm
  by_cases ht : k = "t".toList
  · rw [ht]
    simp only [d6.symm, e6.symm, k6.symm, p6.symm, r6.symm, s6.symm, if_true, if_false, or_true, true_implies, Option.getD_none, Option.map_none,
      timeField, Option.bind_none, Option.bind_some]
    cases parseInt64 v with
    | none => simp
    | some i => simp [eq_comm]
  · simp only [hd, he, hk, hp, hr, hs, ht, if_false, or_self, false_implies, true_and, Option.getD_none, Option.map_none,
      timeField, Option.bind_none, Res.ok.injEq]
    exact eq_comm

theorem applyPairs_cons (rt : RoleToken) (p : Str × Str) (kvs : List (Str × Str)) (ht : TimesOk (p :: kvs)) :
    applyPairs (applyPairs rt [p]) kvs = applyPairs rt (p :: kvs) := by
  have hor : ∀ (key : String) (old : Str), (lastValue key kvs).getD ((lastValue key [p]).getD old) = (lastValue key (p :: kvs)).getD old := by
    intro key old
    rw [lastValue_cons key p kvs, lastValue_cons key p []]
    cases lastValue key kvs <;> simp [lastValue]
  have htime : ∀ (key : String) (old : GoTime), key.toList = "e".toList ∨ key.toList = "t".toList →
      timeField (timeField old (lastValue key [p])) (lastValue key kvs) = timeField old (lastValue key (p :: kvs)) := by
    intro key old hkey
    rw [lastValue_cons key p kvs, lastValue_cons key p []]
    cases hl : lastValue key kvs with
    | none => simp [lastValue, timeField]
    | some v =>
      have hs := ht (key.toList, v) (by simp [lastValue_mem hl]) hkey
      obtain ⟨i, hi⟩ := Option.isSome_iff_exists.mp hs
      simp only [Option.some_or, timeField, Option.bind_some]
      simp only at hi
      rw [hi]
  unfold applyPairs
  simp only [hor, htime "e" _ (.inl rfl), htime "t" _ (.inr rfl)]
  congr 1
  rw [lastValue_cons "r" p kvs, lastValue_cons "r" p []]
  cases lastValue "r" kvs <;> simp [lastValue]

/-- The text of a pair. -/
def pairText (p : Str × Str) : Str := p.1 ++ '=' :: p.2

theorem setPairs_ok {rt rt' : RoleToken} {ps : List Str} :
    setPairs rt ps = .ok rt' ↔ ∃ kvs : List (Str × Str), ps = kvs.map pairText ∧ (∀ p ∈ kvs, '=' ∉ p.1) ∧ TimesOk kvs ∧ rt' = applyPairs rt kvs := by
  induction ps generalizing rt with
  | nil =>
    simp only [setPairs, Res.ok.injEq]
    constructor
    · rintro rfl
      exact ⟨[], rfl, by simp, by intro p hp; simp at hp, by simp [applyPairs, lastValue, timeField]⟩
    · rintro ⟨kvs, h1, _, _, rfl⟩
      have : kvs = [] := by simpa using h1.symm
      subst this
      simp [applyPairs, lastValue, timeField]
  | cons pair ps ih =>
    simp only [setPairs]
    constructor
    · intro h
      split at h
      · simp at h
      · rename_i k v hc
        obtain ⟨h1, h2⟩ := Str.cut_singleton_iff.mp hc
        split at h
        · rename_i rt1 hs
          obtain ⟨h3, rfl⟩ := setParams_ok.mp hs
          obtain ⟨kvs, rfl, h5, h6, h7⟩ := ih.mp h
          have ht : TimesOk ((k, v) :: kvs) := by
            intro p hp
            rcases List.mem_cons.mp hp with rfl | hp
            · exact h3
            · exact h6 p hp
          refine ⟨(k, v) :: kvs, by rw [List.map_cons, ← show pair = pairText (k, v) from h1], ?_, ht, ?_⟩
          · intro p hp
            rcases List.mem_cons.mp hp with rfl | hp
            · exact h2
            · exact h5 p hp
          · rw [h7, applyPairs_cons _ _ _ ht]
        · simp at h
        · simp at h
    · rintro ⟨kvs, h1, h2, h3, rfl⟩
      cases kvs with
      | nil => simp at h1
      | cons p kvs =>
        obtain ⟨k, v⟩ := p
        simp only [List.map_cons, List.cons.injEq] at h1
        obtain ⟨rfl, rfl⟩ := h1
        have hc : Str.cut ['='] (pairText (k, v)) = some (k, v) := Str.cut_singleton_iff.mpr ⟨rfl, h2 (k, v) (by simp)⟩
        rw [hc]
        simp only
        have hs : rt.setParams k v = .ok (applyPairs rt [(k, v)]) := setParams_ok.mpr ⟨h3 (k, v) (by simp), rfl⟩
        rw [hs]
        simp only
        refine ih.mpr ⟨kvs, rfl, fun p hp => h2 p (by simp [hp]), fun p hp => h3 p (by simp [hp]), ?_⟩
        rw [applyPairs_cons _ _ _ h3]

/-- The token before the loop. -/
def blankToken (unsigned sig : Str) : RoleToken :=
  { domain := [], roles := [], principal := [], timeStamp := GoTime.zero, expiryTime := GoTime.zero, keyId := [],
    signature := sig, unsignedToken := unsigned }

theorem parseRoleToken_ok {tok : Str} {rt : RoleToken} :
    parseRoleToken tok = .ok rt ↔ ∃ unsigned sig kvs, RoleText tok unsigned sig kvs ∧ rt = applyPairs (blankToken unsigned sig) kvs := by
  unfold parseRoleToken
  constructor
  · intro h
    split at h
    · simp at h
    · rename_i unsigned sig hc
      obtain ⟨h1, h2⟩ := (Str.cut_eq_some_iff (by decide)).mp hc
      obtain ⟨kvs, h3, h4, h5, h6⟩ := setPairs_ok.mp h
      have hu : unsigned = pairsText kvs := by rw [← Str.join_split ';' unsigned, h3]; rfl
      have hne : kvs ≠ [] := by
        rintro rfl
        exact Str.split_ne_nil ';' unsigned h3
      have hns : ∀ p ∈ kvs, ';' ∉ pairText p := by
        intro p hp
        refine Str.split_no_sep (s := unsigned) ?_
        rw [h3]; exact List.mem_map_of_mem hp
      refine ⟨unsigned, sig, kvs, ⟨h1, h2, hne, hu, fun p hp => ⟨?_, h4 p hp, ?_⟩, fun p hp hk => ?_⟩, h6⟩
      · intro hm; exact hns p hp (by simp [pairText, hm])
      · intro hm; exact hns p hp (by simp [pairText, hm])
      · obtain ⟨i, hi⟩ := Option.isSome_iff_exists.mp (h5 p hp hk)
        exact ⟨i, parseInt64_iff.mp hi⟩
  · rintro ⟨unsigned, sig, kvs, h, rfl⟩
    have hc : Str.cut ";s=".toList tok = some (unsigned, sig) := (Str.cut_eq_some_iff (by decide)).mpr ⟨h.text, h.first⟩
    rw [hc]
    simp only
    refine setPairs_ok.mpr ⟨kvs, ?_, fun p hp => (h.keys p hp).2.1, fun p hp hk => ?_, rfl⟩
    · rw [h.pairs]
      exact Str.split_join (by simpa using h.nonempty) (by
        intro w hw
        obtain ⟨p, hp, rfl⟩ := List.mem_map.mp hw
        obtain ⟨h1, _, h3⟩ := h.keys p hp
        simp only [List.mem_append, List.mem_cons, not_or]
        exact ⟨h1, by decide, h3⟩)
    · obtain ⟨i, hi⟩ := h.times p hp hk
      simp [parseInt64_iff.mpr hi]

/-- Parsing never panics. -/
theorem setPairs_no_panic {rt : RoleToken} {ps : List Str} : setPairs rt ps ≠ .panic := by
  induction ps generalizing rt with
  | nil => simp [setPairs]
  | cons p ps ih =>
    simp only [setPairs]
    split
    · simp
    · split
      · exact ih
      · simp
      · rename_i h
        unfold RoleToken.setParams at h
        repeat' split at h
        all_goals simp at h

theorem parseRoleToken_no_panic {tok : Str} : parseRoleToken tok ≠ .panic := by
  unfold parseRoleToken
  split
  · simp
  · exact setPairs_no_panic

/-! ### The signature marker -/

theorem split_append_gen (c : Char) (a b : Str) : Str.split c (a ++ c :: b) = Str.split c a ++ Str.split c b := by
  have h : a ++ c :: b = Str.join c (Str.split c a ++ Str.split c b) := by
    conv => lhs; rw [← Str.join_split c a, ← Str.join_split c b]
    generalize hw : Str.split c a = ws
    have hne : ws ≠ [] := hw ▸ Str.split_ne_nil c a
    clear hw
    induction ws with
    | nil => exact absurd rfl hne
    | cons w ws ih =>
      cases ws with
      | nil => rw [List.cons_append, List.nil_append, Str.join_cons_ne (Str.split_ne_nil c b)]; rfl
      | cons v ws =>
        rw [List.cons_append, Str.join_cons_ne (w := w) (ws := v :: ws) (by simp), Str.join_cons_ne (w := w) (by simp), ← ih (by simp)]
        simp
  rw [h, Str.split_join]
  · simp [Str.split_ne_nil]
  · intro w hw
    rcases List.mem_append.mp hw with hw | hw
    · exact Str.split_no_sep hw
    · exact Str.split_no_sep hw

/-- A marker inside the pairs starts an `s` pair other than the first. -/
theorem marker_in_pairs {kvs : List (Str × Str)} {a c : Str} (hk : ∀ p ∈ kvs, ';' ∉ p.1 ∧ '=' ∉ p.1 ∧ ';' ∉ p.2)
    (h : pairsText kvs = a ++ ";s=".toList ++ c) : ∃ p ∈ kvs, p.1 = "s".toList := by
  by_cases hne : kvs = []
  · subst hne
    have := congrArg List.length h
    simp [pairsText, Str.join] at this
  have hs : Str.split ';' (pairsText kvs) = kvs.map fun p => p.1 ++ '=' :: p.2 := by
    refine Str.split_join (by simpa using hne) ?_
    intro w hw
    obtain ⟨p, hp, rfl⟩ := List.mem_map.mp hw
    obtain ⟨h1, _, h3⟩ := hk p hp
    simp only [List.mem_append, List.mem_cons, not_or]
    exact ⟨h1, by decide, h3⟩
  have h2 : a ++ ";s=".toList ++ c = a ++ ';' :: ('s' :: '=' :: c) := by simp
  rw [h, h2, split_append_gen] at hs
  obtain ⟨w, ws, hw⟩ : ∃ w ws, Str.split ';' ('s' :: '=' :: c) = ('s' :: '=' :: w) :: ws := by
    simp only [Str.split, show ¬ ('s' = ';') by decide, show ¬ ('=' = ';') by decide, if_false]
    cases hc : Str.split ';' c with
    | nil => exact absurd hc (Str.split_ne_nil _ _)
    | cons w ws => exact ⟨w, ws, rfl⟩
  have hm : ('s' :: '=' :: w) ∈ kvs.map fun p => p.1 ++ '=' :: p.2 := by
    rw [← hs, hw]; simp
  obtain ⟨p, hp, he⟩ := List.mem_map.mp hm
  refine ⟨p, hp, ?_⟩
  have h4 := (hk p hp).2.1
  obtain ⟨k, v⟩ := p
  simp only at he h4
  have h5 : Str.cut ['='] ('s' :: '=' :: w) = some (k, v) := Str.cut_singleton_iff.mpr ⟨he.symm, h4⟩
  have h6 : Str.cut ['='] ('s' :: '=' :: w) = some (['s'], w) := Str.cut_singleton_iff.mpr ⟨rfl, by decide⟩
  rw [h6] at h5
  simp only [Option.some.injEq, Prod.mk.injEq] at h5
  exact h5.1.symm

theorem marker_before {u sig a b : Str} (h : u ++ ";s=".toList ++ sig = a ++ ";s=".toList ++ b) (hlt : a.length < u.length) :
    ∃ c, u = a ++ ";s=".toList ++ c := by
  rw [List.append_assoc, List.append_assoc] at h
  rcases List.append_eq_append_iff.mp h with ⟨x, h1, h2⟩ | ⟨x, h1, h2⟩
  · rw [h1] at hlt; simp at hlt; omega
  · subst h1
    match x, h2 with
    | [], _ => simp at hlt
    | [x1], h2 => simp at h2
    | [x1, x2], h2 => simp at h2
    | x1 :: x2 :: x3 :: x, h2 =>
      simp at h2
      obtain ⟨rfl, rfl, rfl, _⟩ := h2
      exact ⟨x, by simp⟩

/-- Without an `s` pair the marker behind the pairs is the first. -/
theorem marker_first {kvs : List (Str × Str)} {sig : Str} (hk : ∀ p ∈ kvs, ';' ∉ p.1 ∧ '=' ∉ p.1 ∧ ';' ∉ p.2)
    (hs : ∀ p ∈ kvs, p.1 ≠ "s".toList) (a b : Str) (h : pairsText kvs ++ ";s=".toList ++ sig = a ++ ";s=".toList ++ b) :
    (pairsText kvs).length ≤ a.length := by
  rcases Nat.lt_or_ge a.length (pairsText kvs).length with hlt | hge
  · obtain ⟨c, hc⟩ := marker_before h hlt
    obtain ⟨p, hp, he⟩ := marker_in_pairs hk hc
    exact absurd he (hs p hp)
  · exact hge

theorem pairsText_middle {p q : Str × Str} {pre post : List (Str × Str)} :
    ∃ a b, pairsText (p :: pre ++ q :: post) = a ++ ';' :: (q.1 ++ '=' :: q.2) ++ b := by
  induction pre generalizing p with
  | nil =>
    refine ⟨p.1 ++ '=' :: p.2, ?_⟩
    cases post with
    | nil => exact ⟨[], by simp [pairsText, Str.join]⟩
    | cons r post => exact ⟨';' :: pairsText (r :: post), by simp [pairsText, Str.join]⟩
  | cons r pre ih =>
    obtain ⟨a, b, h⟩ := ih (p := r)
    refine ⟨(p.1 ++ '=' :: p.2) ++ ';' :: a, b, ?_⟩
    have : pairsText (p :: (r :: pre) ++ q :: post) = (p.1 ++ '=' :: p.2) ++ ';' :: pairsText (r :: pre ++ q :: post) := by
      simp [pairsText, Str.join]
    rw [this, h]; simp

/-- Only the first pair of a token can be an `s` pair. -/
theorem roleText_signature {tok unsigned sig : Str} {kvs : List (Str × Str)} (h : RoleText tok unsigned sig kvs) :
    (lastValue "s" kvs).getD sig = usedSignature kvs sig := by
  cases kvs with
  | nil => rfl
  | cons p kvs =>
    have htail : lastValue "s" kvs = none := by
      rw [lastValue_none]
      intro v hv
      obtain ⟨pre, post, rfl⟩ := List.append_of_mem hv
      obtain ⟨a, b, hab⟩ := pairsText_middle (p := p) (q := ("s".toList, v)) (pre := pre) (post := post)
      have hu : unsigned = a ++ ';' :: ("s".toList ++ '=' :: v) ++ b := by rw [h.pairs, ← hab]; rfl
      have h1 := h.first a (v ++ b ++ ";s=".toList ++ sig) (by rw [h.text, hu]; simp)
      have := congrArg List.length hu
      simp at this
      omega
    rw [lastValue_cons, htail]
    simp only [usedSignature, Option.none_or, List.head?_cons]
    split <;> simp

/-! ### Expiry -/

theorem after_ofUnix {now : GoTime} {i : Int} (hn : now.IsClock) (hi : IsInt64 i) : now.after (GoTime.ofUnix i) = false ↔ NotExpired now i := by
  have h1 := GoTime.ofUnix_isec hi
  unfold GoTime.IsClock at hn
  unfold NotExpired unixNanos GoTime.after
  have h2 : (GoTime.ofUnix i).nsec = 0 := rfl
  rw [h1, h2]
  unfold IsInt64 at hi
  have hu : unixToInternal = 62135596800 := rfl
  simp only [Bool.or_eq_false_iff, decide_eq_false_iff_not, Bool.and_eq_false_iff, hu] at *
  split <;> rename_i h <;> constructor <;> intro h' <;> omega

theorem after_zero {now : GoTime} (h : ClockOk now) : now.after GoTime.zero = true := by
  unfold GoTime.after GoTime.zero
  simp [h.2]

theorem numeral_fun {v : Str} {i j : Int} (h1 : Numeral v i) (h2 : Numeral v j) : i = j := by
  have a := parseInt64_iff.mpr h1
  rw [parseInt64_iff.mpr h2] at a
  exact (Option.some.inj a).symm

theorem timeField_iff {t : GoTime} {v : Option Str} (hv : ∀ w, v = some w → ∃ i, Numeral w i) :
    t = timeField GoTime.zero v ↔ (∀ w i, v = some w → Numeral w i → t = GoTime.ofUnix i) ∧ (v = none → t = GoTime.zero) := by
  cases v with
  | none => simp [timeField]
  | some w =>
    obtain ⟨i, hi⟩ := hv w rfl
    have hp := parseInt64_iff.mpr hi
    simp only [timeField, Option.bind_some, hp, Option.some.injEq, reduceCtorEq, false_implies, and_true]
    constructor
    · rintro rfl w' j rfl hj
      rw [numeral_fun hi hj]
    · intro h
      exact h w i rfl hi

theorem pieces_iff {v : Str} {roles : List Str} : Pieces v roles ↔ roles = Str.split ',' v := by
  constructor
  · rintro ⟨h1, h2, rfl⟩
    exact (Str.split_join h1 h2).symm
  · rintro rfl
    exact ⟨Str.split_ne_nil _ _, fun w hw => Str.split_no_sep hw, Str.join_split _ _⟩

theorem applyPairs_iff {rt : RoleToken} {tok unsigned sig : Str} {kvs : List (Str × Str)} (h : RoleText tok unsigned sig kvs) :
    rt = applyPairs (blankToken unsigned sig) kvs ↔
      RoleFields rt kvs ∧ rt.unsignedToken = unsigned ∧ rt.signature = usedSignature kvs sig := by
  have he : ∀ w, lastValue "e" kvs = some w → ∃ i, Numeral w i := fun w hw => h.times _ (lastValue_mem hw) (.inl rfl)
  have ht : ∀ w, lastValue "t" kvs = some w → ∃ i, Numeral w i := fun w hw => h.times _ (lastValue_mem hw) (.inr rfl)
  constructor
  · rintro rfl
    refine ⟨⟨rfl, rfl, rfl, ?_, ?_, ?_, ?_, ?_, ?_⟩, rfl, roleText_signature h⟩
    · intro v hv
      rw [pieces_iff]; simp [applyPairs, hv]
    · intro hv; simp [applyPairs, hv, blankToken]
    · exact ((timeField_iff he).mp rfl).1
    · exact ((timeField_iff he).mp rfl).2
    · exact ((timeField_iff ht).mp rfl).1
    · exact ((timeField_iff ht).mp rfl).2
  · rintro ⟨hf, hu, hs⟩
    obtain ⟨domain, roles, principal, ts, exp, kid, s, u⟩ := rt
    simp only at hu hs
    have h1 := hf.domain; have h2 := hf.principal; have h3 := hf.keyId
    have h4 := (timeField_iff he).mpr ⟨hf.expiry, hf.noExpiry⟩
    have h5 := (timeField_iff ht).mpr ⟨hf.time, hf.noTime⟩
    have h6 := hf.roles; have h7 := hf.noRoles
    simp only at h1 h2 h3 h4 h5 h6 h7
    unfold applyPairs blankToken
    rw [RoleToken.mk.injEq]
    refine ⟨h1, ?_, h2, h5, h4, h3, by rw [hs, roleText_signature h], hu⟩
    cases hr : lastValue "r" kvs with
    | none => simpa using h7 hr
    | some v => simpa using pieces_iff.mp (h6 v hr)

/-- What an accepted token is. -/
theorem accept_iff {keys : KeyProvider} {now : GoTime} {tok : Str} {rt : RoleToken} :
    parseAndValidateRoleToken keys now tok = .ok rt ↔ parseRoleToken tok = .ok rt ∧ now.after rt.expiryTime = false ∧
      ∃ ver, keys .zts rt.keyId = some ver ∧ ver rt.unsignedToken rt.signature = true := by
  unfold parseAndValidateRoleToken validateRoleToken RoleToken.expired
  cases hp : parseRoleToken tok with
  | err e => simp
  | panic => simp
  | ok r =>
    simp only [Res.ok.injEq]
    constructor
    · intro h
      cases ha : now.after r.expiryTime with
      | true => simp [ha] at h
      | false =>
        simp only [ha, Bool.false_eq_true, if_false] at h
        cases hk : keys .zts r.keyId with
        | none => simp [hk] at h
        | some ver =>
          cases hv : ver r.unsignedToken r.signature with
          | false => simp [hk, hv] at h
          | true =>
            simp only [hk, hv, if_true, Res.ok.injEq] at h
            subst h
            exact ⟨rfl, ha, ver, hk, hv⟩
    · rintro ⟨rfl, ha, ver, hk, hv⟩
      simp [ha, hk, hv]

theorem parseAndValidate_no_panic {keys : KeyProvider} {now : GoTime} {tok : Str} : parseAndValidateRoleToken keys now tok ≠ .panic := by
  unfold parseAndValidateRoleToken
  split
  · simp
  · rename_i h; exact absurd h parseRoleToken_no_panic
  · split
    · simp
    · simp
    · rename_i h
      unfold validateRoleToken at h
      repeat' split at h
      all_goals simp at h

end Athenz
