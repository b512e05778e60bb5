import Verif.Proofs.Query
import Verif.Props.Translator

/-! # C87 a query means the parameters that it encodes -/

namespace Athenz

open Spec

theorem matches_congr {pq : QueryParser} {U : CaseFns} {r : Rule} {method path : Str} {rq rq' : SMap (List Str)}
    (h : ∀ k vs, (k, vs) ∈ rq ↔ (k, vs) ∈ rq') : Matches pq U r method path rq ↔ Matches pq U r method path rq' := by
  simp only [Matches, h]

theorem binds_congr {pq : QueryParser} {r : Rule} {path : Str} {rq rq' : SMap (List Str)} (h : ∀ k vs, (k, vs) ∈ rq ↔ (k, vs) ∈ rq') (n v : Str) :
    Binds pq r path rq n v ↔ Binds pq r path rq' n v := by
  simp only [Binds, h]

theorem substituted_congr {pq : QueryParser} {r : Rule} {path t : Str} {rq rq' : SMap (List Str)} (h : ∀ k vs, (k, vs) ∈ rq ↔ (k, vs) ∈ rq') :
    Substituted pq r path rq t ↔ Substituted pq r path rq' t := by
  simp only [Substituted, binds_congr h]

theorem valuesOf_mem {k v : Str} {ps : List (Str × Str)} : v ∈ valuesOf k ps ↔ (k, v) ∈ ps := by
  unfold valuesOf
  rw [List.mem_filterMap]
  constructor
  · rintro ⟨⟨a, b⟩, h1, h2⟩
    split at h2
    · rename_i hk
      simp only [Option.some.injEq] at h2
      simp only at hk
      subst hk h2
      exact h1
    · simp at h2
  · intro h
    exact ⟨(k, v), h, by simp⟩

theorem valuesOf_single {k v : Str} {ps : List (Str × Str)} (hn : (ps.map (·.1)).Nodup) (h : (k, v) ∈ ps) : valuesOf k ps = [v] := by
  induction ps with
  | nil => simp at h
  | cons p ps ih =>
    simp only [List.map_cons, List.nodup_cons] at hn
    have hnone : ∀ {ps : List (Str × Str)}, k ∉ ps.map (·.1) → valuesOf k ps = [] := by
      intro ps hk
      refine List.eq_nil_iff_forall_not_mem.mpr fun x hx => hk ?_
      exact List.mem_map.mpr ⟨(k, x), valuesOf_mem.mp hx, rfl⟩
    rcases List.mem_cons.mp h with rfl | h
    · have := hnone hn.1
      simp only [valuesOf] at this ⊢
      simp [this]
    · have hk : ¬ p.1 = k := fun he => hn.1 (List.mem_map.mpr ⟨(k, v), h, he.symm⟩)
      have := ih hn.2 h
      simp only [valuesOf] at this ⊢
      simp [hk, this]

/-- Without repeated keys the map has each parameter as its only value. -/
theorem addParams_single {ps : List (Str × Str)} (hn : (ps.map (·.1)).Nodup) (k : Str) (vs : List Str) : (k, vs) ∈ addParams [] ps ↔ (k, vs) ∈ single ps := by
  rw [addParams_mem]
  unfold single
  constructor
  · rintro ⟨h1, h2⟩
    obtain ⟨v, hv⟩ := List.exists_mem_of_ne_nil vs h2
    rw [h1] at hv
    have hm := valuesOf_mem.mp hv
    rw [h1, valuesOf_single hn hm]
    exact List.mem_map.mpr ⟨(k, v), hm, rfl⟩
  · intro h
    obtain ⟨⟨a, b⟩, h1, h2⟩ := List.mem_map.mp h
    simp only [Prod.mk.injEq] at h2
    obtain ⟨rfl, rfl⟩ := h2
    exact ⟨(valuesOf_single hn h1).symm, by simp⟩

/-- **C87**, `url.ParseQuery`.  It reads exactly the texts that say parameters, and gives every key its values, decoded, in the order of the text. -/
theorem C87_parse (utf8 : List Nat → Str) (q : Str) :
    ((∃ m, goParseQuery utf8 q = some m) ↔ ∃ ps, QueryText utf8 q ps) ∧
    ∀ ps, QueryText utf8 q ps → ∃ m, goParseQuery utf8 q = some m ∧ m.keys.Nodup ∧ ∀ k vs, (k, vs) ∈ m ↔ vs = valuesOf k ps ∧ vs ≠ [] := by
  refine ⟨⟨?_, ?_⟩, ?_⟩
  · rintro ⟨m, h⟩
    obtain ⟨ps, h1, _⟩ := parseQuery_iff.mp h
    exact ⟨ps, h1⟩
  · rintro ⟨ps, h⟩
    exact ⟨_, parseQuery_iff.mpr ⟨ps, h, rfl⟩⟩
  · intro ps h
    exact ⟨_, parseQuery_iff.mpr ⟨ps, h, rfl⟩, addParams_nodup (by simp [SMap.keys]), addParams_mem ps⟩

/-- **C87**.  A query without repeated keys is translated by what it says: the first rule that matches the decoded parameters, with the decoded
values for the placeholders. -/
theorem C87_translated (utf8 : List Nat → Str) (U : CaseFns) (o o' : MapOrder) (m mr : RuleSet) (hm : m.keys.Nodup)
    (h : newMappingRules (goParseQuery utf8) o (some m) = .ok mr) (domain method path query : Str) (ps : List (Str × Str))
    (hq : QueryText utf8 query ps) (hn : (ps.map (·.1)).Nodup) (rs : List Rule) (hd : m.load domain = some (some rs)) :
    (∃ pre r post, rs = pre ++ r :: post ∧ (∀ x ∈ pre, ¬ Matches (goParseQuery utf8) U x method path (single ps)) ∧
        Matches (goParseQuery utf8) U r method path (single ps) ∧
        ∃ t, Substituted (goParseQuery utf8) r path (single ps) t ∧ translateReq (goParseQuery utf8) U o' mr domain method path query = .ok (r.action, t)) ∨
      ((∀ x ∈ rs, ¬ Matches (goParseQuery utf8) U x method path (single ps)) ∧
        translateReq (goParseQuery utf8) U o' mr domain method path query = .ok (method, path)) := by
  have hc := addParams_single hn
  rcases C46_first _ (goParseQuery_ok utf8) U o o' m mr hm h domain method path query _ (parseQuery_iff.mpr ⟨ps, hq, rfl⟩) rs hd with
    ⟨pre, r, post, h1, h2, h3, t, h4, h5⟩ | ⟨h1, h2⟩
  · exact .inl ⟨pre, r, post, h1, fun x hx hmx => h2 x hx ((matches_congr hc).mpr hmx), (matches_congr hc).mp h3, t, (substituted_congr hc).mp h4, h5⟩
  · exact .inr ⟨fun x hx hmx => h1 x hx ((matches_congr hc).mpr hmx), h2⟩

/-- **C87**.  A query in which a key occurs twice matches no rule: method and path are left as they are. -/
theorem C87_repeated (utf8 : List Nat → Str) (U : CaseFns) (o o' : MapOrder) (m mr : RuleSet) (hm : m.keys.Nodup)
    (h : newMappingRules (goParseQuery utf8) o (some m) = .ok mr) (domain method path query : Str) (ps : List (Str × Str))
    (hq : QueryText utf8 query ps) (hn : ¬ (ps.map (·.1)).Nodup) :
    translateReq (goParseQuery utf8) U o' mr domain method path query = .ok (method, path) := by
  have hp := parseQuery_iff.mpr ⟨ps, hq, rfl⟩
  -- a key with two values
  have hrep : ∀ l : List (Str × Str), ¬ (l.map (·.1)).Nodup → ∃ k, 2 ≤ (valuesOf k l).length := by
    intro l
    induction l with
    | nil => intro h; exact absurd (by simp) h
    | cons p l ih =>
      intro h
      simp only [List.map_cons, List.nodup_cons, not_and] at h
      by_cases hmem : p.1 ∈ l.map (·.1)
      · obtain ⟨⟨a, b⟩, h1, h2⟩ := List.mem_map.mp hmem
        simp only at h2
        have h3 : b ∈ valuesOf p.1 l := valuesOf_mem.mpr (h2 ▸ h1)
        have h4 := List.length_pos_of_mem h3
        refine ⟨p.1, ?_⟩
        simp only [valuesOf] at h4 ⊢
        simp only [List.filterMap_cons, if_true, List.length_cons]
        omega
      · obtain ⟨k, hk⟩ := ih (h hmem)
        refine ⟨k, Nat.le_trans hk ?_⟩
        simp only [valuesOf, List.filterMap_cons]
        split <;> simp
  obtain ⟨k, hk⟩ := hrep ps hn
  have hmem : (k, valuesOf k ps) ∈ addParams [] ps := (addParams_mem ps k _).mpr ⟨rfl, by intro he; rw [he] at hk; simp at hk⟩
  have hno : ∀ r, ¬ Matches (goParseQuery utf8) U r method path (addParams [] ps) := by
    rintro r ⟨_, segs, qm, reqSegs, _, _, _, h1, h2⟩
    obtain ⟨vs, hvs⟩ := (h1 k).mpr ⟨_, hmem⟩
    obtain ⟨v, w, _, hw, _⟩ := h2 k vs _ hvs hmem
    rw [hw] at hk
    simp at hk
  cases hd : m.load domain with
  | none => exact C46_noRules _ U o o' m mr hm h domain method path query hd
  | some v =>
    cases v with
    | none =>
      obtain ⟨m', hm', h1⟩ := C48_sound _ (goParseQuery_ok utf8) o _ mr h
      simp only [Option.some.injEq] at hm'
      subst hm'
      obtain ⟨_, rs, h2, _⟩ := h1 domain none ((load_iff_mem hm).mp hd)
      simp at h2
    | some rs =>
      rcases C46_first _ (goParseQuery_ok utf8) U o o' m mr hm h domain method path query _ hp rs hd with ⟨pre, r, post, _, _, h3, _⟩ | ⟨_, h2⟩
      · exact absurd h3 (hno r)
      · exact h2

/-- **C87**.  A query that says nothing, because of a semicolon or a bad escape, is refused if some rule has the method and the number of
segments of the request; otherwise method and path are left as they are. -/
theorem C87_bad (utf8 : List Nat → Str) (U : CaseFns) (o o' : MapOrder) (m mr : RuleSet) (hm : m.keys.Nodup)
    (h : newMappingRules (goParseQuery utf8) o (some m) = .ok mr) (domain method path query : Str) (hq : ∀ ps, ¬ QueryText utf8 query ps)
    (rs : List Rule) (hd : m.load domain = some (some rs)) :
    ((∃ r ∈ rs, SameShape (goParseQuery utf8) U r method path) ∧
        ∃ e, translateReq (goParseQuery utf8) U o' mr domain method path query = .err e) ∨
      ((∀ r ∈ rs, ¬ SameShape (goParseQuery utf8) U r method path) ∧
        translateReq (goParseQuery utf8) U o' mr domain method path query = .ok (method, path)) := by
  have hnone : goParseQuery utf8 query = none := by
    cases hp : goParseQuery utf8 query with
    | none => rfl
    | some m' =>
      obtain ⟨ps, h1, _⟩ := parseQuery_iff.mp hp
      exact absurd h1 (hq ps)
  rcases C46_badQuery _ (goParseQuery_ok utf8) U o o' m mr hm h domain method path query hnone rs hd with ⟨h1, h2⟩ | h1
  · exact .inl ⟨h1, _, h2⟩
  · exact .inr h1

/-- The first match is unique. -/
theorem first_unique {α : Type} {P : α → Prop} {l pre post pre' post' : List α} {a b : α} (h : l = pre ++ a :: post) (h' : l = pre' ++ b :: post')
    (hp : ∀ x ∈ pre, ¬ P x) (ha : P a) (hp' : ∀ x ∈ pre', ¬ P x) (hb : P b) : a = b := by
  subst h
  induction pre generalizing pre' with
  | nil =>
    cases pre' with
    | nil => simp only [List.nil_append, List.cons.injEq] at h'; exact h'.1
    | cons y ys =>
      simp only [List.nil_append, List.cons_append, List.cons.injEq] at h'
      exact absurd (h'.1 ▸ ha) (hp' y List.mem_cons_self)
  | cons z zs ih =>
    cases pre' with
    | nil =>
      simp only [List.nil_append, List.cons_append, List.cons.injEq] at h'
      exact absurd (h'.1 ▸ hb) (hp z List.mem_cons_self)
    | cons y ys =>
      simp only [List.cons_append, List.cons.injEq] at h'
      exact ih (fun x hx => hp x (List.mem_cons_of_mem _ hx)) (fun x hx => hp' x (List.mem_cons_of_mem _ hx)) h'.2

/-- **C87**, the full statement.  Queries that say the same parameters, in whatever order and writing, are translated the same. -/
def C87_statement : Prop :=
  ∀ (utf8 : List Nat → Str) (U : CaseFns) (o o1 o2 : MapOrder) (m mr : RuleSet) (domain method path q1 q2 : Str) (ps1 ps2 : List (Str × Str)),
    m.keys.Nodup → newMappingRules (goParseQuery utf8) o (some m) = .ok mr → QueryText utf8 q1 ps1 → QueryText utf8 q2 ps2 → ps1.Perm ps2 →
    translateReq (goParseQuery utf8) U o1 mr domain method path q1 = translateReq (goParseQuery utf8) U o2 mr domain method path q2

/-- **C87**, for rules whose resources are templates and requests without opening brace, as in C47.  (Missing: braces in requests, and resources
or placeholders with other braces.) -/
theorem C87_same_partial (utf8 : List Nat → Str) (U : CaseFns) (o o1 o2 : MapOrder) (m mr : RuleSet) (domain method path q1 q2 : Str)
    (ps1 ps2 : List (Str × Str)) (hm : m.keys.Nodup) (h : newMappingRules (goParseQuery utf8) o (some m) = .ok mr) (h1 : QueryText utf8 q1 ps1)
    (h2 : QueryText utf8 q2 ps2) (hp : ps1.Perm ps2) (ht : ∀ rs r, m.load domain = some (some rs) → r ∈ rs → Tidy (goParseQuery utf8) r)
    (hb : '{' ∉ path ∧ ∀ k v, (k, v) ∈ ps1 → '{' ∉ v) :
    translateReq (goParseQuery utf8) U o1 mr domain method path q1 = translateReq (goParseQuery utf8) U o2 mr domain method path q2 := by
  have hkp : (ps1.map (·.1)).Perm (ps2.map (·.1)) := hp.map _
  by_cases hn : (ps1.map (·.1)).Nodup
  · have hn2 : (ps2.map (·.1)).Nodup := hkp.nodup_iff.mp hn
    cases hd : m.load domain with
    | none => rw [C46_noRules _ U o o1 m mr hm h domain method path q1 hd, C46_noRules _ U o o2 m mr hm h domain method path q2 hd]
    | some v =>
      cases v with
      | none =>
        obtain ⟨m', hm', g1⟩ := C48_sound _ (goParseQuery_ok utf8) o _ mr h
        simp only [Option.some.injEq] at hm'
        subst hm'
        obtain ⟨_, rs, g2, _⟩ := g1 domain none ((load_iff_mem hm).mp hd)
        simp at g2
      | some rs =>
        have hc1 := addParams_single hn
        have hc2 := addParams_single hn2
        have hc : ∀ k vs, (k, vs) ∈ addParams [] ps1 ↔ (k, vs) ∈ addParams [] ps2 := by
          intro k vs
          rw [hc1, hc2]
          exact (hp.map _).mem_iff
        have b1 : NoBrace path (addParams [] ps1) := by
          refine ⟨hb.1, fun k vs v hv hm => ?_⟩
          rw [(addParams_mem ps1 k vs).mp hv |>.1] at hm
          exact hb.2 k v (valuesOf_mem.mp hm)
        have b2 : NoBrace path (addParams [] ps2) := ⟨hb.1, fun k vs v hv hm => b1.2 k vs v ((hc k vs).mpr hv) hm⟩
        have e1 := parseQuery_iff.mpr ⟨ps1, h1, rfl⟩
        have e2 := parseQuery_iff.mpr ⟨ps2, h2, rfl⟩
        rcases C46_first _ (goParseQuery_ok utf8) U o o1 m mr hm h domain method path q1 _ e1 rs hd with
          ⟨pre, r, post, g1, g2, g3, t, g4, g5⟩ | ⟨g1, g2⟩
        · obtain ⟨ts, hts⟩ := (ht rs r hd (by rw [g1]; simp)).1
          obtain ⟨t1, k1, k2⟩ := C47_filled_partial _ (goParseQuery_ok utf8) U o o1 m mr hm h domain method path q1 _ e1 rs hd (ht rs · hd) b1 pre post r
            g1 g2 g3 ts hts
          obtain ⟨t2, k3, k4⟩ := C47_filled_partial _ (goParseQuery_ok utf8) U o o2 m mr hm h domain method path q2 _ e2 rs hd (ht rs · hd) b2 pre post r
            g1 (fun x hx hmx => g2 x hx ((matches_congr hc).mpr hmx)) ((matches_congr hc).mp g3) ts hts
          have hbind : Binds (goParseQuery utf8) r path (addParams [] ps1) = Binds (goParseQuery utf8) r path (addParams [] ps2) := by
            funext n v; exact propext (binds_congr hc n v)
          rw [← hbind] at k4
          obtain ⟨l, l1, l2, _⟩ := g4
          rw [k1, k3]
          have : t1 = t2 := filled_unique (fun n v v' hv hv' => by
            have e := (load_iff_mem (m := l) l1).mpr ((l2 n v).mpr hv)
            rw [(load_iff_mem (m := l) l1).mpr ((l2 n v').mpr hv')] at e
            simpa using e.symm) k2 k4
          rw [this]
        · rcases C46_first _ (goParseQuery_ok utf8) U o o2 m mr hm h domain method path q2 _ e2 rs hd with ⟨pre, r, post, k1, _, k3, _⟩ | ⟨_, k2⟩
          · exact absurd ((matches_congr hc).mpr k3) (g1 r (by rw [k1]; simp))
          · rw [g2, k2]
  · rw [C87_repeated utf8 U o o1 m mr hm h domain method path q1 ps1 h1 hn,
      C87_repeated utf8 U o o2 m mr hm h domain method path q2 ps2 h2 (fun h' => hn (hkp.nodup_iff.mpr h'))]

namespace Ex

/-- Bytes from 128 on are not used in the examples. -/
def noUtf8 : List Nat → Str := fun _ => []

def quMr : RuleSet := match newMappingRules (goParseQuery noUtf8) ordRev (some twoRules) with | .ok m => m | _ => []

def quBrace : RuleSet := match newMappingRules (goParseQuery noUtf8) ordId (some braceRules) with | .ok m => m | _ => []

theorem query_of_parse {q : Str} {ps : List (Str × Str)} (ws : List Str) (h : Str.split '&' q = ws) (hs : Says noUtf8 ws ps) : QueryText noUtf8 q ps :=
  ⟨ws, splitInto_iff.mpr h, hs⟩

end Ex

/-- It fails for requests with braces (C47), already for the same empty query. -/
theorem C87_refuted : ¬ C87_statement := by
  intro h
  have hq : QueryText Ex.noUtf8 [] [] := Ex.query_of_parse [[]] (by decide) (.empty .nil)
  have := h Ex.noUtf8 asciiCase Ex.ordId Ex.ordId Ex.ordRev Ex.braceRules Ex.quBrace "dom".toList "GET".toList "/{b}/x".toList [] [] [] []
    (by decide) (by decide +kernel) hq hq (List.Perm.refl _)
  revert this
  decide +kernel

/-- Two ways to write the same parameters, one with a repeated key, and two that say nothing. -/
example : newMappingRules (goParseQuery Ex.noUtf8) Ex.ordRev (some Ex.twoRules) = .ok Ex.quMr ∧ Ex.twoRules.keys.Nodup ∧
    QueryText Ex.noUtf8 "w=1&v=a+%62".toList [("w".toList, "1".toList), ("v".toList, "a b".toList)] ∧
    translateReq (goParseQuery Ex.noUtf8) asciiCase Ex.ordId Ex.quMr "dom".toList "GET".toList "/x/7".toList "w=1&v=a+%62".toList = .ok ("read".toList, "x.7:a b".toList) ∧
    translateReq (goParseQuery Ex.noUtf8) asciiCase Ex.ordId Ex.quMr "dom".toList "GET".toList "/x/7".toList "&%76=a%20b&w=1".toList = .ok ("read".toList, "x.7:a b".toList) ∧
    translateReq (goParseQuery Ex.noUtf8) asciiCase Ex.ordId Ex.quMr "dom".toList "GET".toList "/x/7".toList "w=1&v=2&v=3".toList = .ok ("GET".toList, "/x/7".toList) ∧
    translateReq (goParseQuery Ex.noUtf8) asciiCase Ex.ordId Ex.quMr "dom".toList "GET".toList "/x/7".toList "w=1;v=2".toList = .err (.other "url.ParseQuery") ∧
    translateReq (goParseQuery Ex.noUtf8) asciiCase Ex.ordId Ex.quMr "dom".toList "GET".toList "/x/7".toList "w=%2".toList = .err (.other "url.ParseQuery") := by
  refine ⟨by decide +kernel, by decide, ?_, ?_, ?_, ?_, ?_, ?_⟩
  · refine Ex.query_of_parse ["w=1".toList, "v=a+%62".toList] (by decide +kernel) ?_
    have w1 : Written Ex.noUtf8 "w".toList "w".toList := unescape_iff.mp (by decide +kernel)
    have w2 : Written Ex.noUtf8 "1".toList "1".toList := unescape_iff.mp (by decide +kernel)
    have w3 : Written Ex.noUtf8 "v".toList "v".toList := unescape_iff.mp (by decide +kernel)
    have w4 : Written Ex.noUtf8 "a+%62".toList "a b".toList := unescape_iff.mp (by decide +kernel)
    exact .pair (a := "w".toList) (b := "1".toList) (by decide) (by decide) (by decide) w1 w2
      (.pair (a := "v".toList) (b := "a+%62".toList) (by decide) (by decide) (by decide) w3 w4 .nil)
  all_goals decide +kernel

end Athenz
