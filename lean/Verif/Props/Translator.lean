import Verif.Proofs.Translate
import Verif.Props.Authority

/-! # C46–C48: translation rules -/

namespace Athenz
open Spec

/-- What is known of the rules of a domain after validation. -/
theorem rules_compiled {pq : QueryParser} (hpq : pq.Ok) {o : MapOrder} {m mr : RuleSet} (hm : m.keys.Nodup) (h : newMappingRules pq o (some m) = .ok mr)
    {domain : Str} {rs : List Rule} (hd : m.load domain = some (some rs)) :
    ∃ rs', mr.load domain = some (some rs') ∧ Aligned (fun r r' => ∃ segs qm, Compiled pq r r' segs qm) rs rs' := by
  have ha := compileDomains_iff h
  have hp := o.perm [] m
  have hl : SMap.load (o.at' [] m) domain = some (some rs) := by
    rw [load_perm hp ((keys_perm hp).nodup_iff.mpr hm)]
    exact hd
  obtain ⟨rs', d, h1, h2⟩ := domain_rules ha hl
  exact ⟨rs', h1, aligned_imp (fun r _ r' ⟨j, hj⟩ => compiled_of hpq (o.perm [d, j]) hj) h2⟩

/-- What a list of rules does with a request with a query. -/
theorem applyRules_spec {pq : QueryParser} (hpq : pq.Ok) {U : CaseFns} {o : MapOrder} {method path query : Str} {rq : SMap (List Str)}
    (hq : pq query = some rq) : ∀ {rs rs' : List Rule} {i : Nat}, Aligned (fun r r' => ∃ segs qm, Compiled pq r r' segs qm) rs rs' →
    (∃ pre r post, rs = pre ++ r :: post ∧ (∀ x ∈ pre, ¬ Matches pq U x method path rq) ∧ Matches pq U r method path rq ∧
        ∃ l : SMap Str, l.keys.Nodup ∧ (∀ n v, (n, v) ∈ l ↔ Binds pq r path rq n v) ∧
          applyRules pq U o method path query i rs' = .ok (r.action, substitute r.resource l)) ∨
      ((∀ x ∈ rs, ¬ Matches pq U x method path rq) ∧ applyRules pq U o method path query i rs' = .ok (method, path)) := by
  intro rs
  induction rs with
  | nil =>
    intro rs' i h
    cases rs' with
    | nil => exact .inr ⟨by simp, rfl⟩
    | cons _ _ => exact h.elim
  | cons r rs ih =>
    intro rs' i h
    cases rs' with
    | nil => exact h.elim
    | cons r' rs' =>
      obtain ⟨⟨segs, qm, hc⟩, hrest⟩ := h
      simp only [applyRules]
      rcases hc.apply hpq (U := U) (o := o) (i := i) (method := method) (path := path) hq with ⟨h1, l, h2, h3, h4⟩ | ⟨h1, h2⟩
      · rw [h4]
        exact .inl ⟨[], r, rs, rfl, by simp, h1, l, h2, h3, rfl⟩
      · rw [h2]
        rcases ih (i := i + 1) hrest with ⟨pre, x, post, rfl, h3, h4, h5⟩ | ⟨h3, h4⟩
        · refine .inl ⟨r :: pre, x, post, rfl, ?_, h4, h5⟩
          intro y hy
          rcases List.mem_cons.mp hy with rfl | hy
          · exact h1
          · exact h3 y hy
        · refine .inr ⟨?_, h4⟩
          intro y hy
          rcases List.mem_cons.mp hy with rfl | hy
          · exact h1
          · exact h3 y hy

theorem applyRules_bad {pq : QueryParser} {U : CaseFns} {o : MapOrder} {method path query : Str} (hq : pq query = none) :
    ∀ {rs rs' : List Rule} {i : Nat}, Aligned (fun r r' => ∃ segs qm, Compiled pq r r' segs qm) rs rs' →
    ((∃ r ∈ rs, SameShape pq U r method path) ∧ applyRules pq U o method path query i rs' = .err (.other "url.ParseQuery")) ∨
      ((∀ r ∈ rs, ¬ SameShape pq U r method path) ∧ applyRules pq U o method path query i rs' = .ok (method, path)) := by
  intro rs
  induction rs with
  | nil =>
    intro rs' i h
    cases rs' with
    | nil => exact .inr ⟨by simp, rfl⟩
    | cons _ _ => exact h.elim
  | cons r rs ih =>
    intro rs' i h
    cases rs' with
    | nil => exact h.elim
    | cons r' rs' =>
      obtain ⟨⟨segs, qm, hc⟩, hrest⟩ := h
      simp only [applyRules]
      rcases hc.apply_bad (U := U) (o := o) (i := i) (method := method) (path := path) hq with ⟨h1, h2⟩ | ⟨h1, h2⟩
      · rw [h2]
        exact .inl ⟨⟨r, List.mem_cons_self .., h1⟩, rfl⟩
      · rw [h2]
        rcases ih (i := i + 1) hrest with ⟨⟨x, hx, h3⟩, h4⟩ | ⟨h3, h4⟩
        · exact .inl ⟨⟨x, List.mem_cons_of_mem _ hx, h3⟩, h4⟩
        · refine .inr ⟨?_, h4⟩
          intro y hy
          rcases List.mem_cons.mp hy with rfl | hy
          · exact h1
          · exact h3 y hy

/-! ## C46 the first matching rule -/

/-- **C46**.  With validated rules, the result is the action and the substituted resource of the first rule that matches, and the request
unchanged if there is none. -/
theorem C46_first (pq : QueryParser) (hpq : pq.Ok) (U : CaseFns) (o o' : MapOrder) (m mr : RuleSet) (hm : m.keys.Nodup)
    (h : newMappingRules pq o (some m) = .ok mr) (domain method path query : Str) (rq : SMap (List Str)) (hq : pq query = some rq)
    (rs : List Rule) (hd : m.load domain = some (some rs)) :
    (∃ pre r post, rs = pre ++ r :: post ∧ (∀ x ∈ pre, ¬ Matches pq U x method path rq) ∧ Matches pq U r method path rq ∧
        ∃ t, Substituted pq r path rq t ∧ translateReq pq U o' mr domain method path query = .ok (r.action, t)) ∨
      ((∀ x ∈ rs, ¬ Matches pq U x method path rq) ∧ translateReq pq U o' mr domain method path query = .ok (method, path)) := by
  obtain ⟨rs', h1, h2⟩ := rules_compiled hpq hm h hd
  unfold translateReq
  rw [h1]
  rcases applyRules_spec hpq (U := U) (o := o') (method := method) (path := path) (i := 0) hq h2 with ⟨pre, r, post, h3, h4, h5, l, h6, h7, h8⟩ | h3
  · refine .inl ⟨pre, r, post, h3, h4, h5, _, ⟨l, h6, h7, ?_⟩, h8⟩
    rw [replacedAll_iff]
    intro e he
    obtain ⟨⟨t, _, ht⟩, _⟩ := (h7 e.1 e.2).mp he
    rw [ht]
    simp
  · exact .inr h3

/-- **C46**, a query that cannot be parsed: an error if the method and the number of path segments of a rule agree, otherwise the request
is unchanged. -/
theorem C46_badQuery (pq : QueryParser) (hpq : pq.Ok) (U : CaseFns) (o o' : MapOrder) (m mr : RuleSet) (hm : m.keys.Nodup)
    (h : newMappingRules pq o (some m) = .ok mr) (domain method path query : Str) (hq : pq query = none) (rs : List Rule)
    (hd : m.load domain = some (some rs)) :
    ((∃ r ∈ rs, SameShape pq U r method path) ∧ translateReq pq U o' mr domain method path query = .err (.other "url.ParseQuery")) ∨
      ((∀ r ∈ rs, ¬ SameShape pq U r method path) ∧ translateReq pq U o' mr domain method path query = .ok (method, path)) := by
  obtain ⟨rs', h1, h2⟩ := rules_compiled hpq hm h hd
  unfold translateReq
  rw [h1]
  exact applyRules_bad hq h2

/-- **C46**, a domain without rules: the request is unchanged. -/
theorem C46_noRules (pq : QueryParser) (U : CaseFns) (o o' : MapOrder) (m mr : RuleSet) (hm : m.keys.Nodup)
    (h : newMappingRules pq o (some m) = .ok mr) (domain method path query : Str) (hd : m.load domain = none) :
    translateReq pq U o' mr domain method path query = .ok (method, path) := by
  have hp := o.perm [] m
  have := domain_none (compileDomains_iff h) (k := domain) (by rw [load_perm hp ((keys_perm hp).nodup_iff.mpr hm)]; exact hd)
  unfold translateReq
  rw [this]
  rfl

/-! ## C47 translation is deterministic -/

/-- The full statement of C47: the result does not depend on the order in which maps are visited. -/
def C47_statement : Prop :=
  ∀ (pq : QueryParser) (U : CaseFns) (o o1 o2 : MapOrder) (m mr : RuleSet) (domain method path query : Str), pq.Ok → m.keys.Nodup →
    newMappingRules pq o (some m) = .ok mr →
    translateReq pq U o1 mr domain method path query = translateReq pq U o2 mr domain method path query

theorem filled_unique {binds : Str → Str → Prop} (hf : ∀ n v v', binds n v → binds n v' → v = v') {ts : List Tok} {t t' : Str}
    (h : Filled binds ts t) (h' : Filled binds ts t') : t = t' := by
  obtain ⟨ss, h1, rfl⟩ := h
  obtain ⟨ss', h1', rfl⟩ := h'
  have : ss = ss' := by
    induction ts generalizing ss ss' with
    | nil =>
      cases ss with
      | nil => cases ss' with | nil => rfl | cons _ _ => exact h1'.elim
      | cons _ _ => exact h1.elim
    | cons x xs ih =>
      cases ss with
      | nil => exact h1.elim
      | cons a as =>
        cases ss' with
        | nil => exact h1'.elim
        | cons b bs =>
          rw [ih as h1.2 bs h1'.2]
          congr 1
          have ha := h1.1
          have hb := h1'.1
          cases x with
          | lit s => exact ha.trans hb.symm
          | var n =>
            rcases ha with ha | ⟨ha, ha'⟩ <;> rcases hb with hb | ⟨hb, hb'⟩
            · exact hf _ _ _ ha hb
            · exact absurd ha (hb _)
            · exact absurd hb (ha _)
            · exact ha'.trans hb'.symm
  rw [this]

theorem mem_join_of_mem {c x : Char} {ws : List Str} {w : Str} (h : w ∈ ws) (hx : x ∈ w) : x ∈ Str.join c ws := by
  induction ws with
  | nil => simp at h
  | cons v vs ih =>
    cases vs with
    | nil => simp only [List.mem_singleton] at h; subst h; exact hx
    | cons u us =>
      rw [Str.join_cons_ne (by simp)]
      rcases List.mem_cons.mp h with rfl | h
      · exact List.mem_append_left _ hx
      · exact List.mem_append_right _ (List.mem_cons_of_mem _ (ih h))

/-- The resource of a tidy rule, for a request without braces. -/
theorem tidy_filled {pq : QueryParser} {r : Rule} (ht : Tidy pq r) {path : Str}
    {rq : SMap (List Str)} (hb : NoBrace path rq) {l : SMap Str} (hk : l.keys.Nodup) (hl : ∀ n v, (n, v) ∈ l ↔ Binds pq r path rq n v) {ts : List Tok}
    (hts : Template r.resource ts) : Filled (Binds pq r path rq) ts (substitute r.resource l) := by
  obtain ⟨hres, htok⟩ := hts
  -- the names without braces
  let l' : List (Str × Str) := l.map fun e => (e.1.tail.dropLast, e.2)
  have hname : ∀ e ∈ l, ∃ n, e.1 = (Tok.var n).text ∧ n = e.1.tail.dropLast ∧ (Tok.var n).Ok := by
    intro e he
    obtain ⟨⟨t, _, h1⟩, segs', qm', reqSegs, h2, h3, h4⟩ := (hl e.1 e.2).mp he
    have htl : e.1.tail.dropLast = t := by rw [h1]; simp
    refine ⟨t, h1, htl.symm, ?_⟩
    have := ht.2 segs' qm' h2 e.1 ?_ ⟨t, ‹_›, h1⟩
    · rw [htl] at this; exact this
    · rcases h4 with ⟨i, h4, _⟩ | ⟨k, h4, _⟩
      · exact List.mem_append_left _ (List.mem_of_getElem? h4)
      · exact List.mem_append_right _ (List.mem_flatMap.mpr ⟨_, h4, by simp⟩)
  have hll : l = l'.map fun e => ((Tok.var e.1).text, e.2) := by
    simp only [l', List.map_map]
    conv => lhs; rw [← List.map_id l]
    apply List.map_congr_left
    intro e he
    obtain ⟨n, h1, h2, _⟩ := hname e he
    simp only [Function.comp, id]
    rw [← h2, ← h1]
  have hok : ∀ e ∈ l', (Tok.var e.1).Ok := by
    intro e he
    obtain ⟨x, hx, rfl⟩ := List.mem_map.mp he
    obtain ⟨n, _, h2, h3⟩ := hname x hx
    simp only
    rw [← h2]
    exact h3
  have hval : ∀ e ∈ l', '{' ∉ e.2 := by
    intro e he
    obtain ⟨x, hx, rfl⟩ := List.mem_map.mp he
    obtain ⟨_, segs', qm', reqSegs, _, h3, h4⟩ := (hl x.1 x.2).mp hx
    rcases h4 with ⟨i, _, h4⟩ | ⟨k, _, h4⟩
    · intro hin
      have h3 := splitInto_iff.mp h3
      subst h3
      have hm := List.mem_of_getElem? h4
      apply hb.1
      rw [← Str.join_split '/' path]
      exact mem_join_of_mem hm hin
    · exact hb.2 k _ x.2 h4 (by simp)
  have hmem : ∀ n v, (n, v) ∈ l' ↔ Binds pq r path rq (Tok.var n).text v := by
    intro n v
    rw [← hl]
    constructor
    · intro h
      rw [hll]
      exact List.mem_map.mpr ⟨_, h, rfl⟩
    · intro h
      refine List.mem_map.mpr ⟨_, h, ?_⟩
      simp [Tok.text]
  have hnd : (l'.map (·.1)).Nodup := by
    have hk' := hk
    rw [SMap.keys, List.nodup_iff_pairwise_ne, List.pairwise_map] at hk'
    rw [List.nodup_iff_pairwise_ne, List.pairwise_map, List.pairwise_map]
    refine hk'.imp_of_mem ?_
    intro a b ha hb' hne heq
    obtain ⟨n, h1, h2, _⟩ := hname a ha
    obtain ⟨n', h1', h2', _⟩ := hname b hb'
    apply hne
    rw [h1, h1', h2, h2']
    exact congrArg (fun x => (Tok.var x).text) heq
  rw [hll, hres, substitute_toks hok hval ts htok]
  refine ⟨(ts.map (tokFold l')).map Tok.text, ?_, List.flatMap_def ..⟩
  clear hres htok
  induction ts with
  | nil => trivial
  | cons t ts ih =>
    refine ⟨?_, ih⟩
    cases t with
    | lit s => rw [tokFold_lit]; rfl
    | var n =>
      by_cases hv : ∃ v, (n, v) ∈ l'
      · obtain ⟨v, hv⟩ := hv
        rw [tokFold_hit hnd hv]
        exact .inl ((hmem n v).mp hv)
      · rw [tokFold_miss fun v h => hv ⟨v, h⟩]
        exact .inr ⟨fun v h => hv ⟨v, (hmem n v).mpr h⟩, rfl⟩

/-- Two orders give the same if they do for the placeholders of every rule. -/
theorem translate_order {pq : QueryParser} (hpq : pq.Ok) (U : CaseFns) {o o1 o2 : MapOrder} {m mr : RuleSet} (hm : m.keys.Nodup)
    (h : newMappingRules pq o (some m) = .ok mr) {domain method path query : Str}
    (hs : ∀ rs r, m.load domain = some (some rs) → r ∈ rs → ∀ r' segs qm, Compiled pq r r' segs qm → ∀ rq, pq query = some rq → ∀ l l' : SMap Str,
      l.keys.Nodup → l'.keys.Nodup → (∀ n v, (n, v) ∈ l ↔ Binds pq r path rq n v) → (∀ n v, (n, v) ∈ l' ↔ Binds pq r path rq n v) →
      substitute r.resource l = substitute r.resource l') :
    translateReq pq U o1 mr domain method path query = translateReq pq U o2 mr domain method path query := by
  cases hd : m.load domain with
  | none => rw [C46_noRules pq U o o1 m mr hm h _ _ _ _ hd, C46_noRules pq U o o2 m mr hm h _ _ _ _ hd]
  | some v =>
    cases v with
    | none =>
      have hp := o.perm [] m
      obtain ⟨_, _, _, _, rs, _, h2, _⟩ := aligned_left (compileDomains_iff h) _ (hp.mem_iff.mpr ((load_iff_mem hm).mp hd))
      simp at h2
    | some rs =>
      obtain ⟨rs', h1, h2⟩ := rules_compiled hpq hm h hd
      have hs := fun r => hs rs r hd
      unfold translateReq
      rw [h1]
      simp only [Option.bind_some, id, Option.getD_some]
      clear h1 hd
      generalize 0 = i
      induction rs generalizing rs' i with
      | nil =>
        cases rs' with
        | nil => rfl
        | cons _ _ => exact h2.elim
      | cons r rs ih =>
        cases rs' with
        | nil => exact h2.elim
        | cons r' rs' =>
          obtain ⟨⟨segs, qm, hc⟩, hrest⟩ := h2
          have ih := ih rs' hrest (fun r hr => hs r (List.mem_cons_of_mem _ hr)) (i + 1)
          simp only [applyRules]
          cases hq : pq query with
          | none =>
            rcases hc.apply_bad (U := U) (o := o1) (i := i) (method := method) (path := path) hq with ⟨a1, a2⟩ | ⟨a1, a2⟩ <;>
            rcases hc.apply_bad (U := U) (o := o2) (i := i) (method := method) (path := path) hq with ⟨b1, b2⟩ | ⟨b1, b2⟩
            · rw [a2, b2]
            · exact absurd a1 b1
            · exact absurd b1 a1
            · rw [a2, b2]; exact ih
          | some rq =>
            rcases hc.apply hpq (U := U) (o := o1) (i := i) (method := method) (path := path) hq with ⟨a1, l, a2, a3, a4⟩ | ⟨a1, a2⟩ <;>
            rcases hc.apply hpq (U := U) (o := o2) (i := i) (method := method) (path := path) hq with ⟨b1, l', b2, b3, b4⟩ | ⟨b1, b2⟩
            · rw [a4, b4]
              simp only
              rw [hs r (List.mem_cons_self ..) r' segs qm hc rq hq l l' a2 b2 a3 b3]
            · exact absurd a1 b1
            · exact absurd b1 a1
            · rw [a2, b2]; exact ih

/-- It holds for rules whose resources are templates and requests without opening brace.  Missing: requests with braces, and resources or
placeholders with other braces. -/
theorem C47_tidy_partial (pq : QueryParser) (hpq : pq.Ok) (U : CaseFns) (o o1 o2 : MapOrder) (m mr : RuleSet) (hm : m.keys.Nodup)
    (h : newMappingRules pq o (some m) = .ok mr) (domain method path query : Str)
    (ht : ∀ rs r, m.load domain = some (some rs) → r ∈ rs → Tidy pq r) (hb : ∀ rq, pq query = some rq → NoBrace path rq) :
    translateReq pq U o1 mr domain method path query = translateReq pq U o2 mr domain method path query := by
  refine translate_order hpq U hm h ?_
  intro rs r hrs hr r' segs qm hc rq hq l l' hk hk' hl hl'
  obtain ⟨ts, hts⟩ := (ht rs r hrs hr).1
  have f1 := tidy_filled (ht rs r hrs hr) (hb rq hq) hk hl hts
  have f2 := tidy_filled (ht rs r hrs hr) (hb rq hq) hk' hl' hts
  refine filled_unique ?_ f1 f2
  intro n v v' hv hv'
  have e1 := (load_iff_mem hk).mpr ((hl n v).mpr hv)
  rw [(load_iff_mem hk).mpr ((hl n v').mpr hv')] at e1
  simpa using e1.symm

/-- For such rules and requests the resource is the template with all placeholders replaced at once. -/
theorem C47_filled_partial (pq : QueryParser) (hpq : pq.Ok) (U : CaseFns) (o o' : MapOrder) (m mr : RuleSet) (hm : m.keys.Nodup)
    (h : newMappingRules pq o (some m) = .ok mr) (domain method path query : Str) (rq : SMap (List Str)) (hq : pq query = some rq)
    (rs : List Rule) (hd : m.load domain = some (some rs)) (ht : ∀ r ∈ rs, Tidy pq r) (hb : NoBrace path rq) (pre post : List Rule) (r : Rule)
    (hrs : rs = pre ++ r :: post) (hpre : ∀ x ∈ pre, ¬ Matches pq U x method path rq) (hr : Matches pq U r method path rq) (ts : List Tok)
    (hts : Template r.resource ts) :
    ∃ t, translateReq pq U o' mr domain method path query = .ok (r.action, t) ∧ Filled (Binds pq r path rq) ts t := by
  obtain ⟨rs', h1, h2⟩ := rules_compiled hpq hm h hd
  unfold translateReq
  rw [h1]
  simp only [Option.bind_some, id, Option.getD_some]
  have hmem : r ∈ rs := by rw [hrs]; simp
  obtain ⟨r', _, segs, qm, hc⟩ := aligned_left h2 r hmem
  rcases applyRules_spec hpq (U := U) (o := o') (method := method) (path := path) (i := 0) hq h2 with ⟨pre', x, post', h3, h4, h5, l, h6, h7, h8⟩ | ⟨h3, _⟩
  · have hx : x = r := by
      rw [hrs] at h3
      clear h1 h2 hd ht hrs hmem h6 h7 h8 hts hc
      induction pre generalizing pre' with
      | nil =>
        cases pre' with
        | nil => simp only [List.nil_append, List.cons.injEq] at h3; exact h3.1.symm
        | cons y ys =>
          simp only [List.nil_append, List.cons_append, List.cons.injEq] at h3
          exact absurd (h3.1 ▸ hr) (h4 y (List.mem_cons_self ..))
      | cons z zs ih =>
        cases pre' with
        | nil =>
          simp only [List.nil_append, List.cons_append, List.cons.injEq] at h3
          exact absurd (h3.1 ▸ h5) (hpre z (List.mem_cons_self ..))
        | cons y ys =>
          simp only [List.cons_append, List.cons.injEq] at h3
          exact ih (fun x hx => hpre x (List.mem_cons_of_mem _ hx)) ys h3.2 (fun x hx => h4 x (List.mem_cons_of_mem _ hx))
    subst hx
    exact ⟨_, h8, tidy_filled (ht x hmem) hb h6 h7 hts⟩
  · exact absurd hr (h3 r hmem)

/-- For rules with at most one placeholder it holds for all requests. -/
theorem C47_single_partial (pq : QueryParser) (hpq : pq.Ok) (U : CaseFns) (o o1 o2 : MapOrder) (m mr : RuleSet) (hm : m.keys.Nodup)
    (h : newMappingRules pq o (some m) = .ok mr) (domain method path query : Str)
    (hs : ∀ rs r, m.load domain = some (some rs) → r ∈ rs → ∀ segs qm, RuleParts pq r segs qm → ∀ a ∈ segs ++ qm.flatMap (·.2),
      ∀ b ∈ segs ++ qm.flatMap (·.2), IsPh a → IsPh b → a = b) :
    translateReq pq U o1 mr domain method path query = translateReq pq U o2 mr domain method path query := by
  refine translate_order hpq U hm h ?_
  intro rs r hrs hr r' segs qm hc rq hq l l' hk hk' hl hl'
  have hone : ∀ {n n' v v'}, Binds pq r path rq n v → Binds pq r path rq n' v' → n = n' := by
    rintro n n' v v' ⟨a1, segs1, qm1, _, a2, _, a3⟩ ⟨b1, segs2, qm2, _, b2, _, b3⟩
    obtain ⟨rfl, rfl⟩ := ruleParts_unique hc.parts a2
    obtain ⟨rfl, rfl⟩ := ruleParts_unique hc.parts b2
    have mem : ∀ {x y : Str} {z : List Str}, ((∃ i : Nat, segs[i]? = some x ∧ z[i]? = some y) ∨ ∃ k, (k, [x]) ∈ qm ∧ (k, [y]) ∈ rq) →
        x ∈ segs ++ qm.flatMap (·.2) := by
      rintro x y z (⟨i, h4, _⟩ | ⟨k, h4, _⟩)
      · exact List.mem_append_left _ (List.mem_of_getElem? h4)
      · exact List.mem_append_right _ (List.mem_flatMap.mpr ⟨_, h4, by simp⟩)
    exact hs rs r hrs hr segs qm hc.parts _ (mem a3) _ (mem b3) a1 b1
  have small : ∀ {l : SMap Str}, l.keys.Nodup → (∀ n v, (n, v) ∈ l ↔ Binds pq r path rq n v) → l = [] ∨ ∃ e, l = [e] := by
    intro l hk hl
    cases l with
    | nil => exact .inl rfl
    | cons a l =>
      cases l with
      | nil => exact .inr ⟨a, rfl⟩
      | cons b l =>
        exfalso
        have := hone ((hl a.1 a.2).mp (by simp)) ((hl b.1 b.2).mp (by simp))
        simp [SMap.keys, this] at hk
  rcases small hk hl with rfl | ⟨e, rfl⟩ <;> rcases small hk' hl' with rfl | ⟨e', rfl⟩
  · rfl
  · have := (hl e'.1 e'.2).mpr ((hl' e'.1 e'.2).mp (by simp)); simp at this
  · have := (hl' e.1 e.2).mpr ((hl e.1 e.2).mp (by simp)); simp at this
  · have := (hl' e.1 e.2).mpr ((hl e.1 e.2).mp (by simp))
    simp only [List.mem_singleton] at this
    rw [← this]

namespace Ex

/-- One parameter more. -/
def addQ (m : SMap (List Str)) (kv : Str) : SMap (List Str) :=
  match Str.cut "=".toList kv with
  | some (k, v) => m.store k ((m.load k).getD [] ++ [v])
  | none => m.store kv ((m.load kv).getD [] ++ [[]])

/-- A parser of queries like "a=1&b=2" without escapes. -/
def parseQ (s : Str) : Option (SMap (List Str)) :=
  if '%' ∈ s then none
  else some ((if s = [] then [] else Str.split '&' s).foldl addQ [])

theorem nodup_store {V : Type} {m : SMap V} (h : m.keys.Nodup) (k : Str) (v : V) : (m.store k v).keys.Nodup := by
  have e : (m.store k v).keys = k :: (m.delete k).keys := rfl
  rw [e, List.nodup_cons]
  constructor
  · rw [SMap.mem_keys, SMap.load_delete]; simp
  · exact h.sublist (List.Sublist.map _ List.filter_sublist)

theorem parseQ_ok : QueryParser.Ok parseQ := by
  intro s m h
  unfold parseQ at h
  split at h
  · simp at h
  · simp only [Option.some.injEq] at h
    rw [← h]
    generalize (if s = [] then [] else Str.split '&' s) = l
    have gen : ∀ (l : List Str) (m : SMap (List Str)), m.keys.Nodup → (SMap.keys (l.foldl addQ m)).Nodup := by
      intro l
      induction l with
      | nil => intro m hm; exact hm
      | cons x xs ih =>
        intro m hm
        rw [List.foldl_cons]
        apply ih
        unfold addQ
        split <;> exact nodup_store hm _ _
    exact gen l [] List.nodup_nil

def ordId : MapOrder := ⟨fun _ l => l, fun _ l => List.Perm.refl l⟩

def ordRev : MapOrder := ⟨fun _ l => l.reverse, fun _ l => List.reverse_perm l⟩

/-- "GET /{a}/{b}" is translated to reading "{a}-{b}". -/
def braceRule : Rule := { method := "get".toList, path := "/{a}/{b}".toList, action := "read".toList, resource := "{a}-{b}".toList }

def braceRules : RuleSet := [("dom".toList, some [braceRule])]

def braceMr : RuleSet := match newMappingRules parseQ ordId (some braceRules) with | .ok m => m | _ => []

theorem braceMr_ok : newMappingRules parseQ ordId (some braceRules) = .ok braceMr := by decide +kernel

/-- "/x/{id}?v={ver}&w=1" and "/x/{id}". -/
def twoRules : RuleSet :=
  [("dom".toList, some [{ method := "get".toList, path := "/x/{id}?v={ver}&w=1".toList, action := "read".toList, resource := "x.{id}:{ver}".toList },
    { method := "GET".toList, path := "/x/{id}".toList, action := "get".toList, resource := "x.{id}".toList }])]

def twoMr : RuleSet := match newMappingRules parseQ ordRev (some twoRules) with | .ok m => m | _ => []

end Ex

/-- It fails if the value of one placeholder looks like another placeholder. -/
theorem C47_refuted : ¬ C47_statement := by
  intro h
  have := h Ex.parseQ asciiCase Ex.ordId Ex.ordId Ex.ordRev Ex.braceRules Ex.braceMr "dom".toList "GET".toList "/{b}/x".toList [] Ex.parseQ_ok
    (by decide) Ex.braceMr_ok
  revert this
  decide +kernel

/-- The two results. -/
example : translateReq Ex.parseQ asciiCase Ex.ordId Ex.braceMr "dom".toList "GET".toList "/{b}/x".toList [] = .ok ("read".toList, "{b}-x".toList) ∧
    translateReq Ex.parseQ asciiCase Ex.ordRev Ex.braceMr "dom".toList "GET".toList "/{b}/x".toList [] = .ok ("read".toList, "x-x".toList) := by
  decide +kernel

/-- Rules that are accepted, and what becomes of some requests: the first rule, the second, none, an error. -/
example : newMappingRules Ex.parseQ Ex.ordRev (some Ex.twoRules) = .ok Ex.twoMr ∧ Ex.twoRules.keys.Nodup ∧
    translateReq Ex.parseQ asciiCase Ex.ordId Ex.twoMr "dom".toList "GET".toList "/x/7".toList "w=1&v=2".toList = .ok ("read".toList, "x.7:2".toList) ∧
    translateReq Ex.parseQ asciiCase Ex.ordId Ex.twoMr "dom".toList "Get".toList "/x/7".toList [] = .ok ("get".toList, "x.7".toList) ∧
    translateReq Ex.parseQ asciiCase Ex.ordId Ex.twoMr "dom".toList "Get".toList "/y/7".toList [] = .ok ("Get".toList, "/y/7".toList) ∧
    translateReq Ex.parseQ asciiCase Ex.ordId Ex.twoMr "dom".toList "GET".toList "/x/7".toList "w=1&v=2&v=3".toList = .ok ("GET".toList, "/x/7".toList) ∧
    translateReq Ex.parseQ asciiCase Ex.ordId Ex.twoMr "other".toList "GET".toList "/x/7".toList [] = .ok ("GET".toList, "/x/7".toList) ∧
    translateReq Ex.parseQ asciiCase Ex.ordId Ex.twoMr "dom".toList "GET".toList "/x/7".toList "%".toList = .err (.other "url.ParseQuery") := by
  decide +kernel

/-- The rule with two placeholders is tidy, and a request without braces. -/
example : Tidy Ex.parseQ Ex.braceRule ∧ Template Ex.braceRule.resource [.var "a".toList, .lit "-".toList, .var "b".toList] ∧ NoBrace "/x/y".toList [] ∧
    translateReq Ex.parseQ asciiCase Ex.ordRev Ex.braceMr "dom".toList "GET".toList "/x/y".toList [] = .ok ("read".toList, "x-y".toList) := by
  have ht : Template Ex.braceRule.resource [.var "a".toList, .lit "-".toList, .var "b".toList] := by
    refine ⟨by decide +kernel, ?_⟩
    intro t ht
    simp only [List.mem_cons, List.not_mem_nil, or_false] at ht
    rcases ht with rfl | rfl | rfl
    · exact ⟨by decide, by decide⟩
    · exact (by decide : '{' ∉ "-".toList)
    · exact ⟨by decide, by decide⟩
  refine ⟨⟨⟨_, ht⟩, ?_⟩, ht, ⟨by decide, by simp⟩, by decide +kernel⟩
  intro segs qm hp s hs _
  have hparts : RuleParts Ex.parseQ Ex.braceRule ["".toList, "{a}".toList, "{b}".toList] [] := ruleParts_iff.mpr (.inl ⟨by decide +kernel, by decide +kernel, rfl⟩)
  obtain ⟨rfl, rfl⟩ := ruleParts_unique hparts hp
  simp only [List.flatMap_nil, List.append_nil, List.mem_cons, List.not_mem_nil, or_false] at hs
  rcases hs with rfl | rfl | rfl <;> exact ⟨by decide, by decide⟩

/-! ## C48 validated rule sets are well formed -/

/-- **C48**.  Only well formed rule sets are accepted, whatever the order in which maps are visited. -/
theorem C48_sound (pq : QueryParser) (hpq : pq.Ok) (o : MapOrder) (rules : Option RuleSet) (mr : RuleSet) (h : newMappingRules pq o rules = .ok mr) :
    RuleSetOk pq rules := by
  cases rules with
  | none => simp [newMappingRules] at h
  | some m =>
    refine ⟨m, rfl, ?_⟩
    intro k v hkv
    have hp := o.perm [] m
    obtain ⟨e', _, h1, _, rs, rs', h2, _, d, h3⟩ := aligned_left (compileDomains_iff h) _ (hp.mem_iff.mpr hkv)
    refine ⟨h1, rs, h2, ?_⟩
    intro r hr
    obtain ⟨r', _, j, hj⟩ := aligned_left h3 r hr
    obtain ⟨⟨a1, a2, a3⟩, a4, segs, qm, a5, a6, _, _⟩ := (compile_iff hpq (o.perm [d, j])).mp hj
    obtain ⟨b1, b2, b3⟩ := partsOk_iff.mp a6
    exact ⟨a1, a2, a3, a4, segs, qm, a5, b1, b2, b3⟩

/-- Nothing of an earlier validation is in the way. -/
def Spec.Unused (pq : QueryParser) (r : Rule) : Prop :=
  ∀ segs qm, RuleParts pq r segs qm → ∀ s ∈ segs, ∀ k p, (k, p) ∈ r.queryValueMap → p.isPlaceholder = true → p.name ≠ s

/-- **C48**.  Conversely, well formed rule sets are accepted if the rules are new. -/
theorem C48_complete (pq : QueryParser) (hpq : pq.Ok) (o : MapOrder) (rules : Option RuleSet) (h : RuleSetOk pq rules)
    (hu : ∀ m k rs r, rules = some m → (k, some rs) ∈ m → r ∈ rs → Unused pq r) : ∃ mr, newMappingRules pq o rules = .ok mr := by
  obtain ⟨m, rfl, h⟩ := h
  have hp := o.perm [] m
  refine compileDomains_ok ?_ 0
  intro k v hkv
  have hkv := hp.mem_iff.mp hkv
  obtain ⟨h1, rs, rfl, h2⟩ := h k v hkv
  refine ⟨h1, rs, rfl, ?_⟩
  intro r hr i
  obtain ⟨a1, a2, a3, a4, segs, qm, a5, a6⟩ := h2 r hr
  refine ⟨_, (compile_iff hpq (o.perm i)).mpr ⟨⟨a1, a2, a3⟩, a4, segs, qm, a5, partsOk_iff.mpr a6, ?_, rfl⟩⟩
  intro s hs _ p hp' hpp
  obtain ⟨e, he, rfl⟩ := List.mem_map.mp hp'
  exact hu m k rs r rfl hkv hr segs qm a5 s hs e.1 e.2 he hpp

/-- **C48**.  Validation never crashes. -/
theorem C48_noPanic (pq : QueryParser) (o : MapOrder) (rules : Option RuleSet) : newMappingRules pq o rules ≠ .panic := by
  cases rules with
  | none => simp [newMappingRules]
  | some m => exact compileDomains_no_panic _ _ _ _

/-- **C48**.  Rules that were validated can be validated again. -/
theorem C48_again (pq : QueryParser) (hpq : pq.Ok) (o o' : MapOrder) (rules : Option RuleSet) (mr : RuleSet) (h : newMappingRules pq o rules = .ok mr) :
    ∃ mr', newMappingRules pq o' (some mr) = .ok mr' := by
  cases rules with
  | none => simp [newMappingRules] at h
  | some m =>
    have ha := compileDomains_iff h
    have back : ∀ {k v}, (k, v) ∈ mr → k ≠ [] ∧ ∃ (rs rs' : List Rule) (d : Nat), v = some rs' ∧ Aligned (fun r r' => ∃ j, r.compile pq (o.at' [d, j]) = .ok r') rs rs' := by
      intro k v hkv
      obtain ⟨e, _, h1, h2, rs, rs', h3, h4, d, h5⟩ := aligned_right ha _ hkv
      simp only at h2 h4
      exact ⟨by rw [h2]; exact h1, rs, rs', d, h4, h5⟩
    have parts : ∀ {r r' : Rule}, r'.path = r.path → ∀ {segs qm}, RuleParts pq r' segs qm ↔ RuleParts pq r segs qm := by
      intro r r' hp segs qm
      unfold RuleParts
      rw [hp]
    refine C48_complete pq hpq o' (some mr) ⟨mr, rfl, ?_⟩ ?_
    · intro k v hkv
      obtain ⟨h1, rs, rs', d, rfl, h5⟩ := back hkv
      refine ⟨h1, rs', rfl, ?_⟩
      intro r' hr'
      obtain ⟨r, _, j, hj⟩ := aligned_right h5 r' hr'
      obtain ⟨⟨a1, a2, a3⟩, a4, segs, qm, a5, a6, _, rfl⟩ := (compile_iff hpq (o.perm [d, j])).mp hj
      obtain ⟨b1, b2, b3⟩ := partsOk_iff.mp a6
      exact ⟨a1, a2, a3, a4, segs, qm, (parts rfl).mpr a5, b1, b2, b3⟩
    · intro m' k rs0 r' hm hkv hr' segs qm hparts s hs k' p hp hpp
      simp only [Option.some.injEq] at hm
      subst hm
      obtain ⟨_, rs, rs', d, hv, h5⟩ := back hkv
      simp only [Option.some.injEq] at hv
      subst hv
      obtain ⟨r, _, j, hj⟩ := aligned_right h5 r' hr'
      obtain ⟨_, _, segs1, qm1, a5, a6, _, rfl⟩ := (compile_iff hpq (o.perm [d, j])).mp hj
      obtain ⟨rfl, rfl⟩ := ruleParts_unique a5 ((parts rfl).mp hparts)
      simp only [List.mem_reverse, List.mem_map, qEntry, Prod.mk.injEq] at hp
      obtain ⟨e, he, _, rfl⟩ := hp
      have he := (o.perm [d, j] _).mem_iff.mp he
      obtain ⟨v, hv⟩ := a6.single e he
      rw [hv] at hpp ⊢
      simp only [toParam, List.headD_cons] at hpp ⊢
      have hnd := a6.nodup
      rw [ruleTexts, List.pairwise_append] at hnd
      rintro rfl
      exact hnd.2.2 v hs v (List.mem_flatMap.mpr ⟨e, he, by rw [hv]; simp⟩) hpp rfl

/-- New rules that are well formed (see C46), and rules that are not. -/
example : RuleSetOk Ex.parseQ (some Ex.twoRules) ∧ (∀ m k rs r, some Ex.twoRules = some m → (k, some rs) ∈ m → r ∈ rs → Unused Ex.parseQ r) ∧
    newMappingRules Ex.parseQ Ex.ordId (some [("dom".toList, some [{ Ex.braceRule with path := "/{a}?x={a}".toList }])]) =
      .err (.other "placeholder is duplicated") := by
  refine ⟨C48_sound _ Ex.parseQ_ok Ex.ordRev _ Ex.twoMr (by decide +kernel), ?_, by decide +kernel⟩
  intro m k rs r hm hk hr segs qm _ s _ k' p hp
  simp only [Option.some.injEq] at hm
  subst hm
  simp only [Ex.twoRules, List.mem_singleton, Prod.mk.injEq, Option.some.injEq] at hk
  rw [hk.2] at hr
  simp only [List.mem_cons, List.not_mem_nil, or_false] at hr
  rcases hr with rfl | rfl <;> simp at hp

/-- What an earlier validation left can be in the way: the path of a rule is changed from "/?x={a}" to "/{a}" and the rule is refused. -/
example : (match newMappingRules Ex.parseQ Ex.ordId (some [("dom".toList, some [{ Ex.braceRule with path := "/?x={a}".toList }])]) with
    | .ok [(d, some [r])] => newMappingRules Ex.parseQ Ex.ordId (some [(d, some [{ r with path := "/{a}".toList }])])
    | x => x) = .err (.other "placeholder is duplicated") := by decide +kernel

end Athenz
