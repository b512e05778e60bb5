import Verif.Model.Mask
import Verif.Props.Authority

/-! # C49: masking; C50: URLs -/

namespace Athenz
open Spec

/-! ## C49 logs never contain signatures -/

/-- The text says nothing of what follows the marker of the signature: it is a fixed message or the part of the token before it. -/
def Spec.NoSignature (tok text : Str) : Prop :=
  text = "mask token error: invalid role token".toList ∨ text = "mask token error: invalid access token".toList ∨
  ∀ u, UnsignedPart tok u → text <+: u

/-- The full statement of C49: the token in the log line of a granted call (authorizerd.go:396) shows no signature if the token is one that
was accepted as a role token. -/
def C49_statement : Prop :=
  ∀ (cfg : AuthCfg) (now : Int) (keys : Option KeyProvider) (jwkp : Option JwkProvider) (acts : List AAct) (s : AState) (i j : Nat) (q q' : AReq)
    (p p' : Principal), 0 ≤ now → aRun cfg (aInit now keys jwkp) acts = some s → s.calls i = some ⟨q, .done (.ok p)⟩ →
    s.calls j = some ⟨q', .done (.ok p')⟩ → q'.mode = .roleToken → q'.tok = q.tok → NoSignature q.tok (maskToken q.mode q.tok)

/-- **C49**, role tokens: in a call for a role token, the masked token is the part before the first marker of a signature, or a fixed message.
Missing: calls for an access token with a role token in its place. -/
theorem C49_role_partial (tok : Str) : maskToken .roleToken tok = "mask token error: invalid role token".toList ∨
    UnsignedPart tok (maskToken .roleToken tok) := by
  unfold maskToken
  simp only
  cases h : Str.cut ";s=".toList tok with
  | none => exact .inl rfl
  | some p =>
    obtain ⟨a, b⟩ := p
    simp only
    split
    · obtain ⟨h1, h2⟩ := (Str.cut_eq_some_iff (by decide)).mp h
      exact .inr ⟨b, h1, h2⟩
    · exact .inl rfl

/-- **C49**, what is masked is still told apart: everything before the first marker is shown. -/
theorem C49_role_shown (tok u : Str) (hu : UnsignedPart tok u) (hne : u ≠ []) : maskToken .roleToken tok = u := by
  obtain ⟨sig, h1, h2⟩ := hu
  have hc : Str.cut ";s=".toList tok = some (u, sig) := (Str.cut_eq_some_iff (by decide)).mpr ⟨h1, h2⟩
  unfold maskToken
  simp only [hc]
  rw [if_pos (List.length_pos_iff.mpr hne)]

/-- The same with the notion of the full statement. -/
theorem C49_noSignature_partial (tok : Str) : NoSignature tok (maskToken .roleToken tok) := by
  rcases C49_role_partial tok with h | ⟨sig, h1, h2⟩
  · exact .inl h
  · refine .inr (.inr ?_)
    rintro u ⟨sig', h1', h2'⟩
    have hl : u.length = (maskToken .roleToken tok).length := Nat.le_antisymm (h2' _ _ h1) (h2 _ _ h1')
    have p1 : maskToken .roleToken tok <+: tok := ⟨";s=".toList ++ sig, by rw [← List.append_assoc]; exact h1.symm⟩
    have p2 : u <+: tok := ⟨";s=".toList ++ sig', by rw [← List.append_assoc]; exact h1'.symm⟩
    exact List.prefix_of_prefix_length_le p1 p2 (by omega)

/-- **C49**, access tokens: the masked token is header and payload. -/
theorem C49_access (tok h p s : Str) (hs : Segments tok h p s) : maskToken .accessToken tok = h ++ '.' :: p := by
  obtain ⟨h1, _, _, h4⟩ := hs
  unfold maskToken
  simp only
  have e : Str.cutLast '.' tok = some (h ++ '.' :: p, s) := Str.cutLast_iff.mpr ⟨by rw [h1]; simp, h4⟩
  rw [e]
  simp

/-- **C49**, all access tokens: what is shown ends before the last full stop. -/
theorem C49_accessAny (tok : Str) : maskToken .accessToken tok = "mask token error: invalid access token".toList ∨
    ∃ rest, tok = maskToken .accessToken tok ++ '.' :: rest ∧ '.' ∉ rest := by
  unfold maskToken
  simp only
  cases h : Str.cutLast '.' tok with
  | none => exact .inl rfl
  | some p =>
    obtain ⟨a, b⟩ := p
    simp only
    split
    · exact .inr ⟨b, Str.cutLast_iff.mp h⟩
    · exact .inl rfl

/-- **C49**, and everything before it is shown. -/
theorem C49_access_shown (tok a b : Str) (h : tok = a ++ '.' :: b) (hb : '.' ∉ b) (hne : a ≠ []) : maskToken .accessToken tok = a := by
  have hc : Str.cutLast '.' tok = some (a, b) := Str.cutLast_iff.mpr ⟨h, hb⟩
  unfold maskToken
  simp only [hc]
  rw [if_pos (List.length_pos_iff.mpr hne)]

/-- A token of one character before the marker. -/
example : UnsignedPart "x;s=y".toList "x".toList ∧ maskToken .roleToken "x;s=y".toList = "x".toList ∧ maskToken .accessToken "x.y".toList = "x".toList := by
  refine ⟨?_, by decide +kernel, by decide +kernel⟩
  obtain ⟨h3, h4⟩ := (Str.cut_eq_some_iff (sep := ";s=".toList) (s := "x;s=y".toList) (a := "x".toList) (b := "y".toList) (by decide)).mp (by decide +kernel)
  exact ⟨_, h3, h4⟩

/-- **C49**, the cache key: masking it never panics, and the result does not depend on the token. -/
theorem C49_key (cfg : AuthCfg) (q : AReq) : ∃ rest, maskCacheKey (cacheKey cfg q) q.tok = .ok rest ∧ cacheKey cfg q = q.tok ++ rest ∧
    ∀ tok', maskCacheKey (cacheKey cfg { q with tok := tok' }) tok' = .ok rest := by
  have key : ∃ rest, ∀ tok', cacheKey cfg { q with tok := tok' } = tok' ++ rest := by
    unfold cacheKey certKey
    cases cfg.disablePolicyd with
    | true =>
      simp only [if_true]
      cases q.cert with
      | none => exact ⟨[], fun tok' => by simp⟩
      | some x => exact ⟨':' :: x.issuerCN ++ ':' :: x.subjectCN, fun tok' => by simp⟩
    | false =>
      simp only [Bool.false_eq_true, if_false]
      cases q.cert with
      | none => exact ⟨_, fun tok' => by simp only [List.append_assoc, List.cons_append]; rfl⟩
      | some x => exact ⟨_, fun tok' => by simp only [List.append_assoc, List.cons_append]; rfl⟩
  obtain ⟨rest, h⟩ := key
  have mask : ∀ tok', maskCacheKey (tok' ++ rest) tok' = .ok rest := by
    intro tok'
    unfold maskCacheKey
    simp
  refine ⟨rest, ?_, h q.tok, ?_⟩
  · rw [show cacheKey cfg q = q.tok ++ rest from h q.tok]; exact mask q.tok
  · intro tok'; rw [h]; exact mask tok'

namespace Ex

/-- The key "0" of ZTS accepts the signature "S.T". -/
def dotKeys : KeyProvider := fun env kid => if env = .zts ∧ kid = "0".toList then some fun _ sig => sig == "S.T".toList else none

def dotTok : Str := "d=dom;r=admin;p=me;e=2000;k=0;s=S.T".toList

def dotReq (m : Mode) : AReq := ⟨m, dotTok, "read".toList, "/x".toList, [], none⟩

def dotRun : List AAct := auFull 0 (dotReq .roleToken) ++ [.call 1 (dotReq .accessToken), .get 1]

def auDone (s : AState) (i : Nat) (q : AReq) : Bool :=
  match s.calls i with
  | some ⟨q', .done (.ok _)⟩ => decide (q' = q)
  | _ => false

theorem of_auDone {s : AState} {i : Nat} {q : AReq} (h : auDone s i q = true) : ∃ p, s.calls i = some ⟨q, .done (.ok p)⟩ := by
  unfold auDone at h
  split at h
  · rename_i q' p hc
    simp only [decide_eq_true_eq] at h
    exact ⟨p, by rw [hc, h]⟩
  · simp at h

end Ex

/-- A role token that is sent as access token is found in the cache, and is then masked like an access token: part of its signature is
shown. -/
theorem C49_refuted : ¬ C49_statement := by
  intro h
  obtain ⟨s, hs, hp⟩ := Ex.exists_of_map (o := aRun Ex.auCfg (aInit (Ex.auT 1500) (some Ex.dotKeys) (some Ex.atKeys)) Ex.dotRun)
    (p := fun s => Ex.auDone s 0 (Ex.dotReq .roleToken) && Ex.auDone s 1 (Ex.dotReq .accessToken)) (by decide +kernel)
  simp only [Bool.and_eq_true] at hp
  obtain ⟨p', h0⟩ := Ex.of_auDone hp.1
  obtain ⟨p, h1⟩ := Ex.of_auDone hp.2
  rcases h _ _ _ _ _ s 1 0 _ _ p p' (by decide) hs h1 h0 rfl rfl with h2 | h2 | h2
  · revert h2; decide +kernel
  · revert h2; decide +kernel
  · have h3 := h2 "d=dom;r=admin;p=me;e=2000;k=0".toList (by
      obtain ⟨h3, h4⟩ := (Str.cut_eq_some_iff (sep := ";s=".toList) (s := Ex.dotTok) (a := "d=dom;r=admin;p=me;e=2000;k=0".toList) (b := "S.T".toList)
        (by decide)).mp (by decide +kernel)
      exact ⟨_, h3, h4⟩)
    have h4 : (maskToken (Ex.dotReq .accessToken).mode (Ex.dotReq .accessToken).tok).length ≤ 29 := h3.length_le
    revert h4
    decide +kernel

/-- What is shown, rightly and wrongly masked. -/
example : maskToken .roleToken Ex.dotTok = "d=dom;r=admin;p=me;e=2000;k=0".toList ∧ maskToken .accessToken Ex.dotTok = "d=dom;r=admin;p=me;e=2000;k=0;s=S".toList ∧
    maskToken .accessToken "H.P.S".toList = "H.P".toList ∧ Segments "H.P.S".toList "H".toList "P".toList "S".toList := by
  refine ⟨by decide +kernel, by decide +kernel, by decide +kernel, ?_⟩
  refine ⟨by decide, by decide, by decide, by decide⟩

/-! ## C50 the Athenz server is always contacted over https -/

/-- A letter of the English alphabet. -/
def Spec.Letter (c : Char) : Prop := ∃ i < 26, c.toNat = 97 + i ∨ c.toNat = 65 + i

/-- `u` begins with a scheme: a letter, then letters, digits and the characters from plus to full stop, then "://". -/
def Spec.Scheme (u : Str) : Prop :=
  ∃ c cs rest, u = c :: (cs ++ "://".toList ++ rest) ∧ Letter c ∧ ∀ x ∈ cs, Letter x ∨ x ∈ "0123456789+,-.".toList

theorem isLetter_iff (c : Char) : isLetter c = true ↔ Letter c := by
  have le : ∀ a b : Char, a ≤ b ↔ a.toNat ≤ b.toNat := fun a b => Iff.rfl
  have h1 : 'a'.toNat = 97 ∧ 'z'.toNat = 122 ∧ 'A'.toNat = 65 ∧ 'Z'.toNat = 90 := by decide
  simp only [isLetter, Letter, Bool.or_eq_true, Bool.and_eq_true, decide_eq_true_eq, le]
  constructor
  · rintro (⟨h2, h3⟩ | ⟨h2, h3⟩)
    · exact ⟨c.toNat - 97, by omega, by omega⟩
    · exact ⟨c.toNat - 65, by omega, by omega⟩
  · rintro ⟨i, h2, h3⟩
    omega

theorem isSchemeChar_iff (c : Char) : isSchemeChar c = true ↔ Letter c ∨ c ∈ "0123456789+,-.".toList := by
  have e : "0123456789+,-.".toList = ['0', '1', '2', '3', '4', '5', '6', '7', '8', '9', '+', ',', '-', '.'] := rfl
  rw [e, ← isLetter_iff]
  simp only [isSchemeChar, Bool.or_eq_true, Bool.and_eq_true, decide_eq_true_eq, or_assoc]
  apply or_congr Iff.rfl
  have le : ∀ a b : Char, a ≤ b ↔ a.toNat ≤ b.toNat := fun a b => Iff.rfl
  have eq : ∀ a : Char, c = a ↔ c.toNat = a.toNat := fun a => ⟨fun h => by rw [h], fun h => Char.toNat_inj.mp h⟩
  simp only [le, List.mem_cons, List.not_mem_nil, or_false, eq]
  have : ('0'.toNat = 48 ∧ '1'.toNat = 49 ∧ '2'.toNat = 50 ∧ '3'.toNat = 51 ∧ '4'.toNat = 52 ∧ '5'.toNat = 53 ∧ '6'.toNat = 54 ∧ '7'.toNat = 55 ∧
    '8'.toNat = 56 ∧ '9'.toNat = 57) ∧ '+'.toNat = 43 ∧ ','.toNat = 44 ∧ '-'.toNat = 45 ∧ '.'.toNat = 46 := by decide
  omega

theorem mem_takeWhile_prop {α : Type} {p : α → Bool} {l : List α} {x : α} (h : x ∈ l.takeWhile p) : p x = true := by
  induction l with
  | nil => simp at h
  | cons y l ih =>
    rw [List.takeWhile_cons] at h
    split at h
    · rcases List.mem_cons.mp h with rfl | h
      · assumption
      · exact ih h
    · simp at h

theorem hasScheme_iff (u : Str) : hasScheme u = true ↔ Scheme u := by
  unfold hasScheme Scheme
  cases u with
  | nil => simp
  | cons c cs =>
    simp only [Bool.and_eq_true, Str.hasPrefix, List.isPrefixOf_iff_prefix, isLetter_iff]
    constructor
    · rintro ⟨h1, rest, h2⟩
      refine ⟨c, cs.takeWhile isSchemeChar, rest, ?_, h1, ?_⟩
      · rw [List.append_assoc, h2, List.takeWhile_append_dropWhile]
      · intro x hx
        rw [← isSchemeChar_iff]
        exact mem_takeWhile_prop hx
    · rintro ⟨c', cs', rest, h1, h2, h3⟩
      simp only [List.cons.injEq] at h1
      obtain ⟨rfl, rfl⟩ := h1
      refine ⟨h2, rest, ?_⟩
      rw [List.append_assoc, List.dropWhile_append_of_pos]
      · rw [show "://".toList ++ rest = ':' :: ("//".toList ++ rest) from rfl, List.dropWhile_cons_of_neg (by decide)]
      · intro x hx
        exact (isSchemeChar_iff x).mpr (h3 x hx)

theorem trim_cases (url : Str) :
    (url = "http://".toList ++ trimHTTPScheme url) ∨ (url = "https://".toList ++ trimHTTPScheme url) ∨
    (trimHTTPScheme url = url ∧ ¬ "http://".toList <+: url ∧ ¬ "https://".toList <+: url) := by
  unfold trimHTTPScheme
  simp only [Str.hasPrefix, List.isPrefixOf_iff_prefix]
  split
  · rename_i h
    obtain ⟨t, rfl⟩ := h
    exact .inl rfl
  · rename_i h
    split
    · rename_i h'
      obtain ⟨t, rfl⟩ := h'
      exact .inr (.inl rfl)
    · rename_i h'
      exact .inr (.inr ⟨rfl, h, h'⟩)

theorem trim_http (u : Str) : trimHTTPScheme ("http://".toList ++ u) = u := by
  unfold trimHTTPScheme
  rw [if_pos (by simp only [Str.hasPrefix, List.isPrefixOf_iff_prefix]; exact ⟨u, rfl⟩)]
  rfl

theorem trim_https (u : Str) : trimHTTPScheme ("https://".toList ++ u) = u := by
  unfold trimHTTPScheme
  rw [if_neg (by
    simp only [Str.hasPrefix, List.isPrefixOf_iff_prefix]
    rintro ⟨t, h⟩
    have h1 := congrArg (fun l : Str => l[4]?) h
    simp at h1), if_pos (by simp only [Str.hasPrefix, List.isPrefixOf_iff_prefix]; exact ⟨u, rfl⟩)]
  rfl

theorem trim_other {u : Str} (h1 : ¬ "http://".toList <+: u) (h2 : ¬ "https://".toList <+: u) : trimHTTPScheme u = u := by
  unfold trimHTTPScheme
  simp only [Str.hasPrefix, List.isPrefixOf_iff_prefix]
  rw [if_neg h1, if_neg h2]

/-- The prefix that is taken off. -/
def Spec.Trimmed (url u : Str) : Prop :=
  url = "http://".toList ++ u ∨ url = "https://".toList ++ u ∨ (url = u ∧ ¬ "http://".toList <+: url ∧ ¬ "https://".toList <+: url)

theorem trim_iff (url u : Str) : trimHTTPScheme url = u ↔ Trimmed url u := by
  constructor
  · rintro rfl
    rcases trim_cases url with h | h | ⟨h1, h2, h3⟩
    · exact .inl h
    · exact .inr (.inl h)
    · exact .inr (.inr ⟨h1.symm, h2, h3⟩)
  · rintro (rfl | rfl | ⟨rfl, h1, h2⟩)
    · exact trim_http u
    · exact trim_https u
    · exact trim_other h1 h2

/-- **C50**.  The stored URL is the given one without one leading "http://" or "https://", and it has no scheme. -/
theorem C50_stored (url u : Str) : athenzURL url = .ok u ↔ Trimmed url u ∧ ¬ Scheme u := by
  unfold athenzURL
  simp only
  rw [← hasScheme_iff, ← trim_iff]
  constructor
  · intro h
    split at h
    · cases h
    · rename_i hs
      simp only [Res.ok.injEq] at h
      subst h
      exact ⟨rfl, hs⟩
  · rintro ⟨rfl, hs⟩
    rw [if_neg hs]

/-- **C50**.  Everything else is refused with the error for an unsupported scheme. -/
theorem C50_refused (url : Str) : athenzURL url = .err .unsupportedScheme ↔ ∃ u, Trimmed url u ∧ Scheme u := by
  unfold athenzURL
  simp only
  constructor
  · intro h
    split at h
    · rename_i hs
      exact ⟨_, (trim_iff url _).mp rfl, (hasScheme_iff _).mp hs⟩
    · cases h
  · rintro ⟨u, h1, h2⟩
    rw [(trim_iff url u).mpr h1, if_pos ((hasScheme_iff u).mpr h2)]

/-- **C50**.  The option is a fixed point: the URL stored by the authorizer is stored unchanged by the daemons, to which it is passed on
(authorizerd.go:134, 147). -/
theorem C50_again (url u : Str) (h : athenzURL url = .ok u) : athenzURL u = .ok u := by
  obtain ⟨_, h2⟩ := (C50_stored url u).mp h
  have no : ∀ p : Str, Scheme p → (∀ t, Scheme (p ++ t)) := by
    rintro p ⟨c, cs, rest, rfl, h3, h4⟩ t
    exact ⟨c, cs, rest ++ t, by simp, h3, h4⟩
  refine (C50_stored u u).mpr ⟨.inr (.inr ⟨rfl, ?_, ?_⟩), h2⟩
  · rintro ⟨t, rfl⟩
    exact h2 (no _ ((hasScheme_iff _).mp (by decide +kernel)) t)
  · rintro ⟨t, rfl⟩
    exact h2 (no _ ((hasScheme_iff _).mp (by decide +kernel)) t)

/-- **C50**.  Every URL made from a stored one, for policies, for public keys and for the JSON web keys, has the scheme https, directly followed
by the configured address, which has no scheme of its own. -/
theorem C50_https (url u : Str) (h : athenzURL url = .ok u) :
    Trimmed url u ∧ ¬ Scheme u ∧ (∀ d, ∃ path, policyURL u d = "https://".toList ++ u ++ '/' :: path) ∧
    (∀ d env, ∃ path, pubkeyURL u d env = "https://".toList ++ u ++ '/' :: path) ∧
    (u ≠ [] → ∃ path, athenzJwksURL u = .ok ("https://".toList ++ u ++ '/' :: path)) ∧ (u = [] → athenzJwksURL u = .err .emptyAthenzJwksURL) := by
  obtain ⟨h1, h2⟩ := (C50_stored url u).mp h
  have hd : "/domain/".toList = '/' :: "domain/".toList := by decide +kernel
  refine ⟨h1, h2, fun d => ⟨"domain/".toList ++ d ++ "/signed_policy_data".toList, by
    unfold policyURL; rw [hd]; simp only [List.append_assoc, List.cons_append]⟩,
    fun d env => ⟨"domain/".toList ++ d ++ "/service/".toList ++ env, by
    unfold pubkeyURL; rw [hd]; simp only [List.append_assoc, List.cons_append]⟩, ?_, ?_⟩
  · intro hu
    refine ⟨"oauth2/keys?rfc=true".toList, ?_⟩
    have h3 := (C50_stored u u).mp (C50_again url u h)
    unfold athenzJwksURL
    simp only
    rw [if_neg hu, (trim_iff u u).mpr h3.1, if_neg (fun hc => h2 ((hasScheme_iff u).mp hc))]
    rfl
  · intro hu
    unfold athenzJwksURL
    rw [if_pos hu]

/-- **C50**, the key URL given on its own: what is stored has the scheme https, then the address, which has no scheme. -/
theorem C50_jwks (url w : Str) (h : athenzJwksURL url = .ok w) :
    url ≠ [] ∧ ∃ u, Trimmed url u ∧ ¬ Scheme u ∧ w = "https://".toList ++ u ++ "/oauth2/keys?rfc=true".toList := by
  unfold athenzJwksURL at h
  split at h
  · cases h
  · rename_i hu
    simp only at h
    split at h
    · cases h
    · rename_i hs
      simp only [Res.ok.injEq] at h
      exact ⟨hu, _, (trim_iff url _).mp rfl, fun hc => hs ((hasScheme_iff _).mpr hc), h.symm⟩

/-- Accepted and refused addresses; a second scheme, capitals and other schemes are refused. -/
example : athenzURL "http://athenz.io/zts/v1".toList = .ok "athenz.io/zts/v1".toList ∧ athenzURL "https://a.b:8443".toList = .ok "a.b:8443".toList ∧
    athenzURL "athenz.io".toList = .ok "athenz.io".toList ∧ athenzURL "https://http://a".toList = .err .unsupportedScheme ∧
    athenzURL "HTTP://a".toList = .err .unsupportedScheme ∧ athenzURL "ftp://a".toList = .err .unsupportedScheme ∧
    athenzURL "https://".toList = .ok [] ∧ athenzJwksURL [] = .err .emptyAthenzJwksURL := by
  decide +kernel

end Athenz
