import Verif.Spec.Translator
import Verif.Proofs.Str
import Verif.Proofs.Policyd

/-! # Lemmas about translation rules -/

namespace Athenz
open Spec

/-! ## `strings.ReplaceAll` -/

theorem replaceGo_skip (old new : Str) : ∀ (s : Str) (n : Nat), Str.replaceGo old new n s = Str.replaceAll (s.drop n) old new := by
  intro s
  induction s with
  | nil => intro n; simp [Str.replaceAll, Str.replaceGo]
  | cons c cs ih =>
    intro n
    cases n with
    | zero => rfl
    | succ n => simp only [Str.replaceGo, List.drop_succ_cons]; exact ih n

theorem replaceAll_nil (old new : Str) : Str.replaceAll [] old new = [] := rfl

theorem replaceAll_hit {old new c cs} (h : old ≠ []) (hp : old.isPrefixOf (c :: cs) = true) :
    Str.replaceAll (c :: cs) old new = new ++ Str.replaceAll ((c :: cs).drop old.length) old new := by
  unfold Str.replaceAll
  rw [Str.replaceGo, if_pos hp, replaceGo_skip]
  cases old with
  | nil => exact absurd rfl h
  | cons x xs => simp [Str.replaceAll]

theorem replaceAll_miss {old new c cs} (hp : old.isPrefixOf (c :: cs) = false) :
    Str.replaceAll (c :: cs) old new = c :: Str.replaceAll cs old new := by
  unfold Str.replaceAll
  rw [Str.replaceGo, if_neg (by simp [hp])]

theorem replaceAll_cut {old new : Str} (ho : old ≠ []) (s : Str) :
    Str.replaceAll s old new = match Str.cut old s with | none => s | some (a, b) => a ++ new ++ Str.replaceAll b old new := by
  induction s with
  | nil => simp [Str.cut, replaceAll_nil]
  | cons c cs ih =>
    unfold Str.cut
    cases hp : old.isPrefixOf (c :: cs) with
    | true => rw [replaceAll_hit ho hp]; simp
    | false =>
      rw [replaceAll_miss hp, ih]
      simp only [Bool.false_eq_true, if_false]
      cases Str.cut old cs with
      | none => rfl
      | some p => rfl

theorem replaceAll_spec {old new : Str} (ho : old ≠ []) : ∀ (n : Nat) (s : Str), s.length ≤ n → Replaced old new s (Str.replaceAll s old new) := by
  intro n
  induction n with
  | zero =>
    intro s hs
    have : s = [] := List.length_eq_zero_iff.mp (by omega)
    subst this
    exact .none (by intro a b h; cases old with | nil => exact ho rfl | cons x xs => simp at h)
  | succ n ih =>
    intro s hs
    rw [replaceAll_cut ho]
    cases hc : Str.cut old s with
    | none => exact .none ((Str.cut_none_iff ho).mp hc)
    | some p =>
      obtain ⟨a, b⟩ := p
      have h1 := Str.cut_some hc
      have h2 := Str.cut_first hc
      have hl : b.length ≤ n := by
        have : 0 < old.length := List.length_pos_iff.mpr ho
        rw [h1] at hs
        simp only [List.length_append] at hs
        omega
      rw [h1]
      exact .first (by rw [← h1]; exact h2) (ih b hl)

/-- The replacement is determined. -/
theorem Spec.Replaced.eq {old new : Str} (ho : old ≠ []) {s t : Str} (h : Replaced old new s t) : t = Str.replaceAll s old new := by
  induction h with
  | none h => rw [replaceAll_cut ho, (Str.cut_none_iff ho).mpr h]
  | @first a b t h _ ih =>
    rw [replaceAll_cut ho, (Str.cut_eq_some_iff ho).mpr ⟨rfl, h⟩, ih]

theorem replacedAll_iff {l : List (Str × Str)} (hl : ∀ e ∈ l, e.1 ≠ []) : ∀ {s t : Str}, ReplacedAll l s t ↔ t = substitute s l := by
  induction l with
  | nil => intro s t; rfl
  | cons e l ih =>
    intro s t
    obtain ⟨n, v⟩ := e
    have hn : n ≠ [] := hl (n, v) (List.mem_cons_self ..)
    have ih := @ih fun e he => hl e (List.mem_cons_of_mem _ he)
    constructor
    · rintro ⟨u, h1, h2⟩
      rw [h1.eq hn] at h2
      exact ih.mp h2
    · intro h
      exact ⟨_, replaceAll_spec hn _ s (Nat.le_refl _), ih.mpr h⟩

/-! ## Templates -/

theorem replaceAll_lit {n v : Str} {l : Str} (h : '{' ∉ l) (rest : Str) :
    Str.replaceAll (l ++ rest) ('{' :: n) v = l ++ Str.replaceAll rest ('{' :: n) v := by
  induction l with
  | nil => rfl
  | cons c cs ih =>
    have hc : c ≠ '{' := by rintro rfl; simp at h
    have hcs : '{' ∉ cs := fun h' => h (List.mem_cons_of_mem _ h')
    rw [List.cons_append, replaceAll_miss, ih hcs, List.cons_append]
    have : ('{' == c) = false := by simpa using Ne.symm hc
    simp [List.isPrefixOf, this]

/-- Two texts without closing brace that are followed by one. -/
theorem brace_inj {a b x y : Str} (ha : '}' ∉ a) (hb : '}' ∉ b) (h : a ++ '}' :: x = b ++ '}' :: y) : a = b := by
  induction a generalizing b with
  | nil =>
    cases b with
    | nil => rfl
    | cons c cs =>
      simp only [List.nil_append, List.cons_append, List.cons.injEq] at h
      exact absurd (h.1 ▸ List.mem_cons_self ..) hb
  | cons c cs ih =>
    cases b with
    | nil =>
      simp only [List.nil_append, List.cons_append, List.cons.injEq] at h
      exact absurd (h.1 ▸ List.mem_cons_self ..) ha
    | cons d ds =>
      simp only [List.cons_append, List.cons.injEq] at h
      rw [h.1, ih (fun h' => ha (List.mem_cons_of_mem _ h')) (fun h' => hb (List.mem_cons_of_mem _ h')) h.2]

/-- Replacing one placeholder in one piece. -/
def tokSubst (a v : Str) : Tok → Tok
  | .lit s => .lit s
  | .var n => if n = a then .lit v else .var n

theorem tokSubst_ok {a v : Str} (hv : '{' ∉ v) {t : Tok} (h : t.Ok) : (tokSubst a v t).Ok := by
  cases t with
  | lit s => exact h
  | var n =>
    simp only [tokSubst]
    split
    · exact hv
    · exact h

theorem replaceAll_toks {a v : Str} (ha : (Tok.var a).Ok) (ts : List Tok) (h : ∀ t ∈ ts, t.Ok) :
    Str.replaceAll (ts.flatMap Tok.text) (Tok.var a).text v = (ts.map (tokSubst a v)).flatMap Tok.text := by
  induction ts with
  | nil => rfl
  | cons t ts ih =>
    have ih := ih fun t ht => h t (List.mem_cons_of_mem _ ht)
    have ht := h t (List.mem_cons_self ..)
    simp only [List.flatMap_cons, List.map_cons]
    rw [← ih]
    cases t with
    | lit s => exact replaceAll_lit ht _
    | var n =>
      by_cases hn : n = a
      · subst hn
        simp only [tokSubst, if_true, Tok.text, List.cons_append]
        rw [replaceAll_hit (by simp)]
        · congr 2
          simp
        · rw [List.isPrefixOf_iff_prefix]
          exact ⟨_, rfl⟩
      · simp only [tokSubst, if_neg hn, Tok.text, List.cons_append]
        rw [replaceAll_miss]
        · have : '{' ∉ n ++ ['}'] := by simpa using ht.1
          rw [replaceAll_lit this]
        · rw [← Bool.not_eq_true, List.isPrefixOf_iff_prefix]
          rintro ⟨z, hz⟩
          simp only [List.cons_append, List.append_assoc, List.nil_append, List.cons.injEq, true_and] at hz
          exact hn (brace_inj ht.2 ha.2 hz.symm)

/-- What becomes of a piece by one replacement after the other. -/
def tokFold (l : List (Str × Str)) (t : Tok) : Tok := l.foldl (fun t e => tokSubst e.1 e.2 t) t

theorem tokFold_lit (l : List (Str × Str)) (s : Str) : tokFold l (.lit s) = .lit s := by
  induction l with
  | nil => rfl
  | cons e l ih => simp only [tokFold, List.foldl_cons, tokSubst] at ih ⊢; exact ih

theorem tokFold_ok {l : List (Str × Str)} (hv : ∀ e ∈ l, '{' ∉ e.2) {t : Tok} (h : t.Ok) : (tokFold l t).Ok := by
  induction l generalizing t with
  | nil => exact h
  | cons e l ih =>
    simp only [tokFold, List.foldl_cons] at ih ⊢
    exact ih (fun e he => hv e (List.mem_cons_of_mem _ he)) (tokSubst_ok (hv e (List.mem_cons_self ..)) h)

theorem tokFold_hit {l : List (Str × Str)} (hn : (l.map (·.1)).Nodup) {n v : Str} (h : (n, v) ∈ l) : tokFold l (.var n) = .lit v := by
  induction l with
  | nil => simp at h
  | cons e l ih =>
    simp only [List.map_cons, List.nodup_cons] at hn
    simp only [tokFold, List.foldl_cons, tokSubst]
    rcases List.mem_cons.mp h with rfl | h
    · rw [if_pos rfl]; exact tokFold_lit l v
    · rw [if_neg]
      · exact ih hn.2 h
      · rintro rfl
        exact hn.1 (List.mem_map.mpr ⟨_, h, rfl⟩)

theorem tokFold_miss {l : List (Str × Str)} {n : Str} (h : ∀ v, (n, v) ∉ l) : tokFold l (.var n) = .var n := by
  induction l with
  | nil => rfl
  | cons e l ih =>
    simp only [tokFold, List.foldl_cons, tokSubst]
    rw [if_neg]
    · exact ih fun v hv => h v (List.mem_cons_of_mem _ hv)
    · rintro rfl
      exact h e.2 (List.mem_cons_self ..)

theorem substitute_toks {l : List (Str × Str)} (ha : ∀ e ∈ l, (Tok.var e.1).Ok) (hv : ∀ e ∈ l, '{' ∉ e.2) : ∀ (ts : List Tok), (∀ t ∈ ts, t.Ok) →
    substitute (ts.flatMap Tok.text) (l.map fun e => ((Tok.var e.1).text, e.2)) = (ts.map (tokFold l)).flatMap Tok.text := by
  induction l with
  | nil =>
    intro ts _
    have : tokFold [] = id := rfl
    rw [this, List.map_id]
    rfl
  | cons e l ih =>
    intro ts ht
    simp only [substitute, List.map_cons, List.foldl_cons] at ih ⊢
    rw [replaceAll_toks (ha e (List.mem_cons_self ..)) ts ht]
    rw [ih (fun e he => ha e (List.mem_cons_of_mem _ he)) (fun e he => hv e (List.mem_cons_of_mem _ he))]
    · rw [List.map_map]; rfl
    · intro t h
      obtain ⟨t', h', rfl⟩ := List.mem_map.mp h
      exact tokSubst_ok (hv e (List.mem_cons_self ..)) (ht t' h')

/-! ## Splitting -/

theorem splitInto_iff {c : Char} : ∀ {ws : List Str} {s : Str}, SplitInto c s ws ↔ Str.split c s = ws := by
  intro ws
  induction ws with
  | nil => intro s; exact ⟨False.elim, fun h => absurd h (Str.split_ne_nil c s)⟩
  | cons w ws ih =>
    intro s
    cases ws with
    | nil =>
      simp only [SplitInto]
      constructor
      · rintro ⟨h, rfl⟩; exact Str.split_of_not_mem h
      · intro h
        have h1 := Str.join_split c s
        rw [h] at h1
        refine ⟨Str.split_no_sep (s := s) (by rw [h]; simp), h1.symm⟩
    | cons v vs =>
      simp only [SplitInto]
      constructor
      · rintro ⟨h, t, rfl, ht⟩
        rw [Str.split_append h, ih.mp ht]
      · intro h
        have h1 := Str.join_split c s
        rw [h, Str.join_cons_ne (by simp)] at h1
        refine ⟨Str.split_no_sep (s := s) (by rw [h]; simp), _, h1.symm, ?_⟩
        rw [ih]
        refine Str.split_join (by simp) fun x hx => Str.split_no_sep (s := s) ?_
        rw [h]
        exact List.mem_cons_of_mem _ hx

/-! ## Placeholders -/

/-- translator.go:195. -/
def ph (s : Str) : Bool := Str.hasPrefix s "{".toList && Str.hasSuffix s "}".toList

theorem ph_iff {s : Str} (h : s ≠ "{}".toList) : ph s = true ↔ IsPh s := by
  simp only [ph, Bool.and_eq_true, Str.hasPrefix, Str.hasSuffix, List.isPrefixOf_iff_prefix, List.isSuffixOf_iff_suffix]
  constructor
  · rintro ⟨⟨t, rfl⟩, ⟨u, hu⟩⟩
    rcases List.eq_nil_or_concat t with rfl | ⟨t', x, rfl⟩
    · exfalso
      have : u ++ ['}'] = ['{'] := hu
      cases u with
      | nil => simp at this
      | cons a as => simp at this
    · have h1 : u ++ ['}'] = ('{' :: t') ++ [x] := by simpa using hu
      have h2 := List.append_inj' h1 rfl
      simp only [List.cons.injEq, and_true] at h2
      obtain ⟨rfl, rfl⟩ := h2
      refine ⟨t', ?_, by simp⟩
      rintro rfl
      exact h (by decide)
  · rintro ⟨t, _, rfl⟩
    exact ⟨⟨t ++ ['}'], rfl⟩, ⟨'{' :: t, by simp⟩⟩

theorem ph_ne_nil {s : Str} (h : ph s = true) : s ≠ [] := by
  rintro rfl
  simp [ph, Str.hasPrefix] at h

/-- No placeholder of `l` occurs in `s`. -/
def NoPh (l : List Param) (s : Str) : Prop := ∀ p ∈ l, p.isPlaceholder = true → p.name ≠ s

def queryParams (r : Rule) : List Param := r.queryValueMap.map (·.2)

/-- The empty placeholder, which is refused. -/
def emptyPh : Str := "{}".toList

theorem isPlaceholder_iff {r : Rule} {s : Str} {b : Bool} :
    r.isPlaceholder s = .ok b ↔ s ≠ emptyPh ∧ b = ph s ∧ (ph s = true → NoPh r.splitPaths s ∧ NoPh (queryParams r) s) := by
  unfold Rule.isPlaceholder
  by_cases h0 : s = emptyPh
  · rw [if_pos (show s = "{}".toList from h0)]
    exact ⟨fun h => by simp at h, fun h => absurd h0 h.1⟩
  rw [if_neg (show s ≠ "{}".toList from h0)]
  change (if ph s = true then _ else _) = _ ↔ _
  cases hp : ph s with
  | false => simp [h0, eq_comm]
  | true =>
    have e1 : (r.splitPaths.any fun p => p.isPlaceholder && p.name == s) = true ↔ ¬ NoPh r.splitPaths s := by
      simp [NoPh]
    have e2 : (r.queryValueMap.any fun e => e.2.isPlaceholder && e.2.name == s) = true ↔ ¬ NoPh (queryParams r) s := by
      simp only [NoPh, queryParams, List.any_eq_true, Bool.and_eq_true, beq_iff_eq, List.mem_map, Classical.not_forall, ne_eq, Classical.not_not]
      constructor
      · rintro ⟨e, h1, h2, h3⟩; exact ⟨e.2, ⟨e, h1, rfl⟩, h2, h3⟩
      · rintro ⟨_, ⟨e, h1, rfl⟩, h2, h3⟩; exact ⟨e, h1, h2, h3⟩
    simp only [if_true]
    by_cases h1 : NoPh r.splitPaths s
    · rw [if_neg (by rw [e1]; simp [h1])]
      by_cases h2 : NoPh (queryParams r) s
      · rw [if_neg (by rw [e2]; simp [h2])]
        simp [h0, h1, h2, eq_comm]
      · rw [if_pos (by rw [e2]; exact h2)]
        simp [h2]
    · rw [if_pos (by rw [e1]; exact h1)]
      simp [h1]

theorem isPlaceholder_no_panic (r : Rule) (s : Str) : r.isPlaceholder s ≠ .panic := by
  unfold Rule.isPlaceholder
  repeat' split
  all_goals simp

def toParam (s : Str) : Param := ⟨s, ph s⟩

theorem noPh_append {l l' : List Param} {s : Str} : NoPh (l ++ l') s ↔ NoPh l s ∧ NoPh l' s := by
  simp only [NoPh, List.mem_append]
  exact ⟨fun h => ⟨fun p hp => h p (.inl hp), fun p hp => h p (.inr hp)⟩, fun h p hp => hp.elim (h.1 p) (h.2 p)⟩

theorem noPh_cons {x s : Str} {l : List Param} : NoPh (toParam x :: l) s ↔ (ph x = true → x ≠ s) ∧ NoPh l s := by
  simp [NoPh, toParam]

theorem noPh_one {x s : Str} : NoPh [toParam x] s ↔ (ph x = true → x ≠ s) := by
  simp [NoPh, toParam]

theorem addPaths_iff {ss : List Str} : ∀ {r r' : Rule},
    r.addPaths ss = .ok r' ↔ emptyPh ∉ ss ∧ ss.Pairwise (fun a b => ph a = true → a ≠ b) ∧
      (∀ s ∈ ss, ph s = true → NoPh r.splitPaths s ∧ NoPh (queryParams r) s) ∧ r' = { r with splitPaths := r.splitPaths ++ ss.map toParam } := by
  induction ss with
  | nil => intro r r'; simp only [Rule.addPaths, Res.ok.injEq, List.map_nil, List.append_nil]; exact ⟨fun h => ⟨by simp, .nil, by simp, h.symm⟩, fun h => h.2.2.2.symm⟩
  | cons s ss ih =>
    intro r r'
    have key : r.addPaths (s :: ss) = .ok r' ↔
        s ≠ emptyPh ∧ (ph s = true → NoPh r.splitPaths s ∧ NoPh (queryParams r) s) ∧
          Rule.addPaths { r with splitPaths := r.splitPaths ++ [toParam s] } ss = .ok r' := by
      simp only [Rule.addPaths]
      cases hp : r.isPlaceholder s with
      | ok b =>
        obtain ⟨h1, rfl, h3⟩ := isPlaceholder_iff.mp hp
        exact ⟨fun h => ⟨h1, h3, h⟩, fun h => h.2.2⟩
      | err e =>
        refine ⟨fun h => by simp at h, fun h => ?_⟩
        have := isPlaceholder_iff.mpr ⟨h.1, rfl, h.2.1⟩
        rw [hp] at this
        simp at this
      | panic => exact absurd hp (isPlaceholder_no_panic r s)
    rw [key, ih]
    simp only [List.mem_cons, not_or, List.pairwise_cons, forall_eq_or_imp, noPh_append, noPh_one, List.map_cons]
    have hq : queryParams { r with splitPaths := r.splitPaths ++ [toParam s] } = queryParams r := rfl
    rw [hq, List.append_assoc]
    constructor
    · rintro ⟨h1, h2, h3, h4, h5, rfl⟩
      exact ⟨⟨Ne.symm h1, h3⟩, ⟨fun b hb hs => by rintro rfl; exact ((h5 _ hb hs).1.2 hs) rfl, h4⟩, ⟨h2, fun x hx hp => ⟨(h5 x hx hp).1.1, (h5 x hx hp).2⟩⟩, rfl⟩
    · rintro ⟨⟨h1, h3⟩, ⟨h4, h5⟩, ⟨h6, h7⟩, rfl⟩
      exact ⟨Ne.symm h1, h6, h3, h5, fun x hx hp => ⟨⟨(h7 x hx hp).1, fun hs => h4 x hx hs⟩, (h7 x hx hp).2⟩, rfl⟩

theorem addPaths_no_panic (ss : List Str) : ∀ (r : Rule), r.addPaths ss ≠ .panic := by
  induction ss with
  | nil => intro r; simp [Rule.addPaths]
  | cons s ss ih =>
    intro r
    simp only [Rule.addPaths]
    cases hp : r.isPlaceholder s with
    | ok b => exact ih _
    | err e => simp
    | panic => exact absurd hp (isPlaceholder_no_panic r s)

theorem store_new {V : Type} {m : SMap V} {k : Str} {v : V} (h : k ∉ m.keys) : m.store k v = (k, v) :: m := by
  unfold SMap.store SMap.delete
  congr 1
  rw [List.filter_eq_self]
  intro p hp
  have : p.1 ≠ k := by rintro rfl; exact h (List.mem_map.mpr ⟨p, hp, rfl⟩)
  simpa using this

/-- A query parameter of a rule. -/
def qEntry (e : Str × List Str) : Str × Param := (e.1, toParam (e.2.headD []))

theorem addQueries_iff {m : SMap (List Str)} : ∀ {r r' : Rule}, m.keys.Nodup → (∀ k ∈ m.keys, k ∉ r.queryValueMap.keys) →
    (r.addQueries m = .ok r' ↔ (∀ e ∈ m, ∃ v, e.2 = [v]) ∧ emptyPh ∉ m.flatMap (·.2) ∧
      (m.flatMap (·.2)).Pairwise (fun a b => ph a = true → a ≠ b) ∧
      (∀ s ∈ m.flatMap (·.2), ph s = true → NoPh r.splitPaths s ∧ NoPh (queryParams r) s) ∧
      r' = { r with queryValueMap := (m.map qEntry).reverse ++ r.queryValueMap }) := by
  induction m with
  | nil => intro r r' _ _; simp only [Rule.addQueries, Res.ok.injEq, List.map_nil, List.reverse_nil, List.nil_append]; exact ⟨fun h => ⟨by simp, by simp, .nil, by simp, h.symm⟩, fun h => h.2.2.2.2.symm⟩
  | cons e m ih =>
    intro r r' hn hd
    obtain ⟨k, vs⟩ := e
    simp only [SMap.keys, List.map_cons, List.nodup_cons] at hn
    have hk : k ∉ r.queryValueMap.keys := hd k (by simp [SMap.keys])
    by_cases hv : ∃ v, vs = [v]
    · obtain ⟨v, rfl⟩ := hv
      have key : r.addQueries ((k, [v]) :: m) = .ok r' ↔
          v ≠ emptyPh ∧ (ph v = true → NoPh r.splitPaths v ∧ NoPh (queryParams r) v) ∧
            Rule.addQueries { r with queryValueMap := (k, toParam v) :: r.queryValueMap } m = .ok r' := by
        simp only [Rule.addQueries]
        cases hp : r.isPlaceholder v with
        | ok b =>
          obtain ⟨h1, rfl, h3⟩ := isPlaceholder_iff.mp hp
          simp only [store_new hk]
          exact ⟨fun h => ⟨h1, h3, h⟩, fun h => h.2.2⟩
        | err e =>
          refine ⟨fun h => by simp at h, fun h => ?_⟩
          have := isPlaceholder_iff.mpr ⟨h.1, rfl, h.2.1⟩
          rw [hp] at this
          simp at this
        | panic => exact absurd hp (isPlaceholder_no_panic r v)
      rw [key, ih hn.2]
      · have hq : queryParams { r with queryValueMap := (k, toParam v) :: r.queryValueMap } = toParam v :: queryParams r := rfl
        rw [hq]
        simp only [List.mem_cons, not_or, List.flatMap_cons, List.singleton_append, List.pairwise_cons, forall_eq_or_imp, noPh_cons,
          List.map_cons, List.reverse_cons, List.append_assoc, qEntry, List.headD_cons]
        constructor
        · rintro ⟨h1, h2, h3, h4, h5, h6, rfl⟩
          exact ⟨⟨⟨v, rfl⟩, h3⟩, ⟨Ne.symm h1, h4⟩, ⟨fun b hb hs => by rintro rfl; exact ((h6 _ hb hs).2.1 hs) rfl, h5⟩,
            ⟨h2, fun x hx hp => ⟨(h6 x hx hp).1, (h6 x hx hp).2.2⟩⟩, rfl⟩
        · rintro ⟨⟨_, h3⟩, ⟨h1, h4⟩, ⟨h5, h6⟩, ⟨h7, h8⟩, rfl⟩
          exact ⟨Ne.symm h1, h7, h3, h4, h6, fun x hx hp => ⟨(h8 x hx hp).1, fun hs => h5 x hx hs, (h8 x hx hp).2⟩, rfl⟩
      · intro k' hk'
        simp only [SMap.keys, List.map_cons, List.mem_cons, not_or]
        refine ⟨?_, hd k' (by simp only [SMap.keys, List.map_cons, List.mem_cons]; exact .inr hk')⟩
        rintro rfl
        exact hn.1 hk'
    · constructor
      · intro h
        unfold Rule.addQueries at h
        split at h
        · exact absurd ⟨_, rfl⟩ hv
        · simp at h
      · rintro ⟨h, _⟩
        exact absurd (h _ (List.mem_cons_self ..)) hv

theorem addQueries_no_panic (m : SMap (List Str)) : ∀ (r : Rule), r.addQueries m ≠ .panic := by
  induction m with
  | nil => intro r; simp [Rule.addQueries]
  | cons e m ih =>
    intro r
    obtain ⟨k, vs⟩ := e
    unfold Rule.addQueries
    split
    · rename_i v
      cases hp : r.isPlaceholder v with
      | ok b => exact ih _
      | err e => simp
      | panic => exact absurd hp (isPlaceholder_no_panic r v)
    · simp

end Athenz
