import Verif.Proofs.Authority

/-! The key of the result cache. -/

namespace Athenz
open Spec

/-- The parts of the key. -/
def keyParts (cfg : AuthCfg) (q : AReq) : List Str :=
  q.tok :: ((match q.cert with | none => [] | some x => [x.issuerCN, x.subjectCN]) ++
    (if cfg.disablePolicyd then [] else q.act :: q.res :: (if q.query ≠ [] ∧ cfg.translator.isSome then [q.query] else [])))

theorem cacheKey_join (cfg : AuthCfg) (q : AReq) : cacheKey cfg q = Str.join ':' (keyParts cfg q) := by
  unfold cacheKey keyParts certKey
  cases q.cert <;> cases cfg.disablePolicyd <;> by_cases h : q.query ≠ [] ∧ cfg.translator.isSome = true <;>
    simp [h, Str.join]

theorem keyParts_noColon {cfg : AuthCfg} {q : AReq} (h : NoColon q) : ∀ w ∈ keyParts cfg q, ':' ∉ w := by
  obtain ⟨h1, h2, h3, h4, h5⟩ := h
  intro w hw
  unfold keyParts at hw
  cases hc : q.cert with
  | none =>
    simp only [hc, List.nil_append, List.mem_cons] at hw
    rcases hw with rfl | hw
    · exact h1
    · split at hw
      · simp at hw
      · simp only [List.mem_cons] at hw
        rcases hw with rfl | rfl | hw
        · exact h2
        · exact h3
        · split at hw
          · simp only [List.mem_singleton] at hw
            rw [hw]; exact h4
          · simp at hw
  | some x =>
    obtain ⟨h6, h7⟩ := h5 x hc
    simp only [hc, List.cons_append, List.nil_append, List.mem_cons] at hw
    rcases hw with rfl | rfl | rfl | hw
    · exact h1
    · exact h6
    · exact h7
    · split at hw
      · simp at hw
      · simp only [List.mem_cons] at hw
        rcases hw with rfl | rfl | hw
        · exact h2
        · exact h3
        · split at hw
          · simp only [List.mem_singleton] at hw
            rw [hw]; exact h4
          · simp at hw

theorem keyParts_same {cfg : AuthCfg} {q q' : AReq} (h : keyParts cfg q = keyParts cfg q') : SameRequest cfg q q' := by
  unfold keyParts at h
  unfold SameRequest certNames
  cases hd : cfg.disablePolicyd <;> cases hc : q.cert <;> cases hc' : q'.cert <;>
    by_cases hq : q.query ≠ [] ∧ cfg.translator.isSome = true <;> by_cases hq' : q'.query ≠ [] ∧ cfg.translator.isSome = true <;>
    simp only [hd, hc, hc', hq, hq', if_true, if_false, List.nil_append, List.cons_append, List.cons.injEq, and_true, and_false,
      Bool.false_eq_true, List.cons_ne_nil, List.nil_eq, not_false_eq_true, ne_eq] at h <;>
    simp_all <;>
    (intro ht; by_cases a : q.query = [] <;> by_cases b : q'.query = [] <;> simp_all)

theorem cacheKey_inj {cfg : AuthCfg} {q q' : AReq} (hq : NoColon q) (hq' : NoColon q') (h : cacheKey cfg q = cacheKey cfg q') :
    SameRequest cfg q q' := by
  apply keyParts_same
  rw [cacheKey_join, cacheKey_join] at h
  have h1 := Str.split_join (ws := keyParts cfg q) (by simp [keyParts]) (keyParts_noColon hq)
  have h2 := Str.split_join (ws := keyParts cfg q') (by simp [keyParts]) (keyParts_noColon hq')
  rw [← h1, h, h2]

theorem colon_split {a b a' b' : Str} (ha : ':' ∉ a) (ha' : ':' ∉ a') (h : a ++ ':' :: b = a' ++ ':' :: b') : a = a' ∧ b = b' := by
  have h1 := Str.cut_singleton_iff (c := ':') (s := a ++ ':' :: b) (a := a) (b := b)
  have h2 := Str.cut_singleton_iff (c := ':') (s := a ++ ':' :: b) (a := a') (b := b')
  have e1 := h1.mpr ⟨rfl, ha⟩
  have e2 := h2.mpr ⟨h, ha'⟩
  rw [e1] at e2
  simpa using e2

/-- The key begins with the token, and ends with it or goes on with a delimiter. -/
theorem cacheKey_tok (cfg : AuthCfg) (q : AReq) : cacheKey cfg q = q.tok ∨ ∃ rest, cacheKey cfg q = q.tok ++ ':' :: rest := by
  rw [cacheKey_join]
  unfold keyParts
  cases h : ((match q.cert with | none => [] | some x => [x.issuerCN, x.subjectCN]) ++
    (if cfg.disablePolicyd then [] else q.act :: q.res :: (if q.query ≠ [] ∧ cfg.translator.isSome then [q.query] else []))) with
  | nil => left; rfl
  | cons a l => right; exact ⟨_, rfl⟩

theorem cacheKey_same_tok {cfg : AuthCfg} {q q' : AReq} (hq : ':' ∉ q.tok) (hq' : ':' ∉ q'.tok) (h : cacheKey cfg q = cacheKey cfg q') :
    q.tok = q'.tok := by
  rcases cacheKey_tok cfg q with h1 | ⟨r, h1⟩ <;> rcases cacheKey_tok cfg q' with h2 | ⟨r', h2⟩ <;> rw [h1, h2] at h
  · exact h
  · rw [h] at hq; simp at hq
  · rw [← h] at hq'; simp at hq'
  · exact (colon_split hq hq' h).1

/-- What the key determines if token, certificate names and action have no delimiter and both requests have a certificate, or both have
none: everything but the border between resource and query. -/
theorem cacheKey_shape {cfg : AuthCfg} {q q' : AReq} (hd : cfg.disablePolicyd = false)
    (ht : ':' ∉ q.tok) (ht' : ':' ∉ q'.tok) (ha : ':' ∉ q.act) (ha' : ':' ∉ q'.act)
    (hc : ∀ x, q.cert = some x → ':' ∉ x.issuerCN ∧ ':' ∉ x.subjectCN) (hc' : ∀ x, q'.cert = some x → ':' ∉ x.issuerCN ∧ ':' ∉ x.subjectCN)
    (hs : q.cert.isSome = q'.cert.isSome) (h : cacheKey cfg q = cacheKey cfg q') :
    q.tok = q'.tok ∧ certNames q.cert = certNames q'.cert ∧ q.act = q'.act ∧
      q.res ++ (if q.query ≠ [] ∧ cfg.translator.isSome then ':' :: q.query else []) =
        q'.res ++ (if q'.query ≠ [] ∧ cfg.translator.isSome then ':' :: q'.query else []) := by
  unfold cacheKey certKey at h
  rw [hd] at h
  cases hx : q.cert with
  | none =>
    cases hx' : q'.cert with
    | none =>
      simp only [hx, hx', Bool.false_eq_true, if_false, List.append_assoc, List.cons_append] at h
      obtain ⟨h1, h⟩ := colon_split ht ht' h
      obtain ⟨h2, h⟩ := colon_split ha ha' h
      exact ⟨h1, rfl, h2, h⟩
    | some x' => simp [hx, hx'] at hs
  | some x =>
    cases hx' : q'.cert with
    | none => simp [hx, hx'] at hs
    | some x' =>
      simp only [hx, hx', Bool.false_eq_true, if_false, List.append_assoc, List.cons_append] at h
      obtain ⟨h1, h⟩ := colon_split ht ht' h
      obtain ⟨h3, h⟩ := colon_split (hc x hx).1 (hc' x' hx').1 h
      obtain ⟨h4, h⟩ := colon_split (hc x hx).2 (hc' x' hx').2 h
      obtain ⟨h2, h⟩ := colon_split ha ha' h
      exact ⟨h1, by simp [certNames, h3, h4], h2, h⟩

end Athenz
