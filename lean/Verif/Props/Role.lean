import Verif.Proofs.Role
import Verif.Props.Examples

/-! # C20–C23: role tokens -/

namespace Athenz
open Spec

namespace Ex

/-- The key "0" of ZTS accepts the signature "S". -/
def roleKeys : KeyProvider := fun env kid =>
  if env = .zts ∧ kid = "0".toList then some fun _ sig => sig == "S".toList else none

/-- 2020-01-01 00:00:00 UTC, in Unix seconds 1577836800. -/
def roleNow : GoTime := ⟨1577836800 + unixToInternal, 0⟩

/-- A token that expires at that very second. -/
def roleTok : Str := "v=Z1;d=dom;r=admin,user;p=me;t=1577836000;e=1577836800;k=0;s=S".toList

def roleTokExpired : Str := "v=Z1;d=dom;r=admin,user;p=me;t=1577836000;e=1577836799;k=0;s=S".toList

/-- The same token without its expiry. -/
def roleTokForever : Str := "v=Z1;d=dom;r=admin,user;p=me;t=1577836000;k=0;s=S".toList

/-- A token with a signature pair in front and no usable signature at the end. -/
def roleTokFront : Str := "s=S;d=dom;r=admin;p=me;e=1577836800;k=0;s=forged".toList

def rolePairs : List (Str × Str) :=
  [("v".toList, "Z1".toList), ("d".toList, "dom".toList), ("r".toList, "admin,user".toList), ("p".toList, "me".toList),
   ("t".toList, "1577836000".toList), ("e".toList, "1577836800".toList), ("k".toList, "0".toList)]

def isOk {α : Type} : Res α → Bool
  | .ok _ => true
  | _ => false

theorem of_isOk {α : Type} {r : Res α} (h : isOk r = true) : ∃ a, r = .ok a := by
  cases r with
  | ok a => exact ⟨a, rfl⟩
  | err e => simp [isOk] at h
  | panic => simp [isOk] at h

theorem roleNow_ok : ClockOk roleNow := by unfold ClockOk; decide +kernel

end Ex

/-! ## C20 acceptance -/

/-- What it means for a role token to be good: it is made of pairs, the marker and a signature, the last expiry has not passed, and the
signature `used` verifies the text in front of the marker under the ZTS key that the token names. -/
def GoodRoleToken (keys : KeyProvider) (now : GoTime) (unsigned used : Str) (kvs : List (Str × Str)) : Prop :=
  (∃ v i, lastValue "e" kvs = some v ∧ Numeral v i ∧ NotExpired now i) ∧
  ∃ ver, keys .zts ((lastValue "k" kvs).getD []) = some ver ∧ ver unsigned used = true

/-- **C20**.  `ParseAndValidateRoleToken` accepts exactly the good tokens and returns their fields.  The signature that is checked is the
text behind the first `;s=`, except if the token begins with `s=`: then it is the value of that first pair. -/
theorem C20_accept (keys : KeyProvider) (now : GoTime) (hn : ClockOk now) (tok : Str) (rt : RoleToken) :
    parseAndValidateRoleToken keys now tok = .ok rt ↔
      ∃ unsigned sig kvs, RoleText tok unsigned sig kvs ∧ GoodRoleToken keys now unsigned (usedSignature kvs sig) kvs ∧
        RoleFields rt kvs ∧ rt.unsignedToken = unsigned ∧ rt.signature = usedSignature kvs sig := by
  rw [accept_iff, parseRoleToken_ok]
  constructor
  · rintro ⟨⟨u, sig, kvs, h, hrt⟩, hexp, ver, hk, hv⟩
    obtain ⟨hf, hu, hs⟩ := (applyPairs_iff h).mp hrt
    refine ⟨u, sig, kvs, h, ⟨?_, ver, by rw [← hf.keyId]; exact hk, by rw [← hu, ← hs]; exact hv⟩, hf, hu, hs⟩
    cases he : lastValue "e" kvs with
    | none =>
      rw [hf.noExpiry he, after_zero hn] at hexp
      simp at hexp
    | some v =>
      obtain ⟨i, hi⟩ := h.times _ (lastValue_mem he) (.inl rfl)
      rw [hf.expiry v i he hi] at hexp
      exact ⟨v, i, rfl, hi, (after_ofUnix hn.1 hi.1).mp hexp⟩
  · rintro ⟨u, sig, kvs, h, ⟨⟨v, i, he, hi, hne⟩, ver, hk, hv⟩, hf, hu, hs⟩
    refine ⟨⟨u, sig, kvs, h, (applyPairs_iff h).mpr ⟨hf, hu, hs⟩⟩, ?_, ver, by rw [hf.keyId]; exact hk, by rw [hu, hs]; exact hv⟩
    rw [hf.expiry v i he hi]
    exact (after_ofUnix hn.1 hi.1).mpr hne

/-- Every input is answered by a token or an error. -/
theorem C20_total (keys : KeyProvider) (now : GoTime) (tok : Str) : parseAndValidateRoleToken keys now tok ≠ .panic :=
  parseAndValidate_no_panic

/-- The full statement of C20: what is accepted carries, behind the marker, a signature of everything in front of it. -/
def C20_statement : Prop :=
  ∀ (keys : KeyProvider) (now : GoTime) (tok : Str), ClockOk now →
    ((∃ rt, parseAndValidateRoleToken keys now tok = .ok rt) ↔
      ∃ unsigned sig kvs, RoleText tok unsigned sig kvs ∧ GoodRoleToken keys now unsigned sig kvs)

/-- It holds for tokens that do not begin with `s=`.  Missing: tokens that do. -/
theorem C20_behind_marker_partial (keys : KeyProvider) (now : GoTime) (hn : ClockOk now) (tok : Str) (hs : ¬ "s=".toList <+: tok) :
    (∃ rt, parseAndValidateRoleToken keys now tok = .ok rt) ↔
      ∃ unsigned sig kvs, RoleText tok unsigned sig kvs ∧ GoodRoleToken keys now unsigned sig kvs := by
  have hused : ∀ {u sig kvs}, RoleText tok u sig kvs → usedSignature kvs sig = sig := by
    intro u sig kvs h
    unfold usedSignature
    cases hk : kvs with
    | nil => rfl
    | cons p ps =>
      simp only [List.head?_cons]
      split
      · rename_i hp
        refine absurd ?_ hs
        have : ∃ r, pairsText kvs = "s=".toList ++ r := by
          rw [hk]
          cases ps with
          | nil => exact ⟨p.2, by simp [pairsText, Str.join, hp]⟩
          | cons q ps => exact ⟨p.2 ++ ';' :: pairsText (q :: ps), by simp [pairsText, Str.join, hp]⟩
        obtain ⟨r, hr⟩ := this
        rw [h.text, h.pairs, hr]
        simp only [List.append_assoc]
        exact List.prefix_append _ _
      · rfl
  constructor
  · rintro ⟨rt, h⟩
    obtain ⟨u, sig, kvs, h1, h2, _⟩ := (C20_accept keys now hn tok rt).mp h
    rw [hused h1] at h2
    exact ⟨u, sig, kvs, h1, h2⟩
  · rintro ⟨u, sig, kvs, h1, h2⟩
    have h3 := (applyPairs_iff (rt := applyPairs (blankToken u sig) kvs) h1).mp rfl
    exact ⟨_, (C20_accept keys now hn tok _).mpr ⟨u, sig, kvs, h1, by rw [hused h1]; exact h2, h3⟩⟩

/-- It fails for a token that begins with `s=`: what stands behind the marker is then not looked at. -/
theorem C20_refuted : ¬ C20_statement := by
  intro h
  have hr := (h Ex.roleKeys Ex.roleNow Ex.roleTokFront Ex.roleNow_ok).mp (Ex.of_isOk (by decide +kernel))
  obtain ⟨u, sig, kvs, h1, _, ver, hk, hv⟩ := hr
  have hc : Str.cut ";s=".toList Ex.roleTokFront = some (u, sig) := (Str.cut_eq_some_iff (by decide)).mpr ⟨h1.text, h1.first⟩
  have hc' : Str.cut ";s=".toList Ex.roleTokFront = some ("s=S;d=dom;r=admin;p=me;e=1577836800;k=0".toList, "forged".toList) := by decide +kernel
  rw [hc'] at hc
  simp only [Option.some.injEq, Prod.mk.injEq] at hc
  obtain ⟨_, rfl⟩ := hc
  unfold Ex.roleKeys at hk
  split at hk
  · simp only [Option.some.injEq] at hk
    subst hk
    simp only [beq_iff_eq] at hv
    exact absurd hv (by decide)
  · simp at hk

/-- A token accepted at its last second, with its fields. -/
example : ClockOk Ex.roleNow ∧ ¬ "s=".toList <+: Ex.roleTok ∧ ∃ rt, parseAndValidateRoleToken Ex.roleKeys Ex.roleNow Ex.roleTok = .ok rt ∧
    rt.domain = "dom".toList ∧ rt.roles = ["admin".toList, "user".toList] ∧ rt.principal = "me".toList ∧ rt.signature = "S".toList := by
  refine ⟨Ex.roleNow_ok, by decide +kernel, ?_⟩
  cases h : parseAndValidateRoleToken Ex.roleKeys Ex.roleNow Ex.roleTok with
  | ok rt =>
    refine ⟨rt, rfl, ?_⟩
    have : (match parseAndValidateRoleToken Ex.roleKeys Ex.roleNow Ex.roleTok with
      | .ok rt => decide (rt.domain = "dom".toList ∧ rt.roles = ["admin".toList, "user".toList] ∧ rt.principal = "me".toList ∧ rt.signature = "S".toList)
      | _ => false) = true := by decide +kernel
    rw [h] at this
    simpa using this
  | err e => have : Ex.isOk (parseAndValidateRoleToken Ex.roleKeys Ex.roleNow Ex.roleTok) = true := by decide +kernel
             rw [h] at this; simp [Ex.isOk] at this
  | panic => have : Ex.isOk (parseAndValidateRoleToken Ex.roleKeys Ex.roleNow Ex.roleTok) = true := by decide +kernel
             rw [h] at this; simp [Ex.isOk] at this

/-! ## C21 identity -/

/-- **C21**.  Two accepted tokens with the same text in front of the first `;s=` have the same contents, whatever keys and clocks they were
checked with. -/
theorem C21_signed_text (keys keys' : KeyProvider) (now now' : GoTime) (tok tok' u : Str) (rt rt' : RoleToken)
    (hu : UnsignedPart tok u) (hu' : UnsignedPart tok' u) (h : parseAndValidateRoleToken keys now tok = .ok rt)
    (h' : parseAndValidateRoleToken keys' now' tok' = .ok rt') :
    rt.domain = rt'.domain ∧ rt.roles = rt'.roles ∧ rt.principal = rt'.principal ∧ rt.keyId = rt'.keyId ∧
      rt.timeStamp = rt'.timeStamp ∧ rt.expiryTime = rt'.expiryTime ∧ rt.unsignedToken = u ∧ rt'.unsignedToken = u := by
  obtain ⟨sig, h1, h2⟩ := hu
  obtain ⟨sig', h1', h2'⟩ := hu'
  have hc : Str.cut ";s=".toList tok = some (u, sig) := (Str.cut_eq_some_iff (by decide)).mpr ⟨h1, h2⟩
  have hc' : Str.cut ";s=".toList tok' = some (u, sig') := (Str.cut_eq_some_iff (by decide)).mpr ⟨h1', h2'⟩
  have hp := (accept_iff.mp h).1
  have hp' := (accept_iff.mp h').1
  unfold parseRoleToken at hp hp'
  rw [hc] at hp; rw [hc'] at hp'
  obtain ⟨kvs, k1, k2, k3, rfl⟩ := setPairs_ok.mp hp
  obtain ⟨kvs', k1', k2', k3', rfl⟩ := setPairs_ok.mp hp'
  have hkk : kvs = kvs' := by
    have hmap : kvs.map pairText = kvs'.map pairText := by rw [← k1, ← k1']
    clear k1 k1' k3 k3' hp hp' h h'
    induction kvs generalizing kvs' with
    | nil => simpa using hmap.symm
    | cons p kvs ih =>
      cases kvs' with
      | nil => simp at hmap
      | cons q kvs' =>
        simp only [List.map_cons, List.cons.injEq] at hmap
        have e1 : Str.cut ['='] (pairText p) = some (p.1, p.2) := Str.cut_singleton_iff.mpr ⟨rfl, k2 p (by simp)⟩
        have e2 : Str.cut ['='] (pairText q) = some (q.1, q.2) := Str.cut_singleton_iff.mpr ⟨rfl, k2' q (by simp)⟩
        rw [hmap.1, e2] at e1
        have : q = p := by simp only [Option.some.injEq, Prod.mk.injEq] at e1; exact Prod.ext e1.1 e1.2
        rw [this, ih (fun r hr => k2 r (by simp [hr])) kvs' (fun r hr => k2' r (by simp [hr])) hmap.2]
  subst hkk
  exact ⟨rfl, rfl, rfl, rfl, rfl, rfl, rfl, rfl⟩

/-- Two accepted tokens with different signatures. -/
example : ∃ tok tok' u rt rt', tok ≠ tok' ∧ UnsignedPart tok u ∧ UnsignedPart tok' u ∧
    parseAndValidateRoleToken Ex.roleKeys Ex.roleNow tok = .ok rt ∧
    parseAndValidateRoleToken (fun _ _ => some fun _ sig => sig == "S;s=S".toList) Ex.roleNow tok' = .ok rt' := by
  obtain ⟨rt, h⟩ := Ex.of_isOk (r := parseAndValidateRoleToken Ex.roleKeys Ex.roleNow Ex.roleTok) (by decide +kernel)
  obtain ⟨rt', h'⟩ := Ex.of_isOk (r := parseAndValidateRoleToken (fun _ _ => some fun _ sig => sig == "S;s=S".toList) Ex.roleNow
    (Ex.roleTok ++ ";s=S".toList)) (by decide +kernel)
  refine ⟨Ex.roleTok, Ex.roleTok ++ ";s=S".toList, "v=Z1;d=dom;r=admin,user;p=me;t=1577836000;e=1577836800;k=0".toList, rt, rt', by simp, ?_, ?_, h, h'⟩
  · exact ⟨"S".toList, (Str.cut_eq_some_iff (by decide)).mp (by decide +kernel)⟩
  · exact ⟨"S;s=S".toList, (Str.cut_eq_some_iff (by decide)).mp (by decide +kernel)⟩

/-! ## C22 expiry -/

/-- **C22**, expired.  A token whose last expiry second lies before the present is rejected. -/
theorem C22_expired (keys : KeyProvider) (now : GoTime) (hn : ClockOk now) (tok u sig v : Str) (kvs : List (Str × Str)) (i : Int)
    (h : RoleText tok u sig kvs) (he : lastValue "e" kvs = some v) (hi : Numeral v i) (hx : i * 1000000000 < unixNanos now) :
    parseAndValidateRoleToken keys now tok = .err .roleTokenExpired := by
  have hp : parseRoleToken tok = .ok (applyPairs (blankToken u sig) kvs) := parseRoleToken_ok.mpr ⟨u, sig, kvs, h, rfl⟩
  have hf := ((applyPairs_iff h).mp rfl).1
  have : now.after (applyPairs (blankToken u sig) kvs).expiryTime = true := by
    rw [hf.expiry v i he hi]
    cases ha : now.after (GoTime.ofUnix i) with
    | true => rfl
    | false => have := ((after_ofUnix hn.1 hi.1).mp ha).2; omega
  simp [parseAndValidateRoleToken, hp, validateRoleToken, RoleToken.expired, this]

/-- **C22**, overflow.  An expiry that Go's time type cannot represent is treated as passed. -/
theorem C22_overflow (keys : KeyProvider) (now : GoTime) (hn : ClockOk now) (tok u sig v : Str) (kvs : List (Str × Str)) (i : Int)
    (h : RoleText tok u sig kvs) (he : lastValue "e" kvs = some v) (hi : Numeral v i) (hx : 2 ^ 63 - unixToInternal ≤ i) :
    parseAndValidateRoleToken keys now tok = .err .roleTokenExpired := by
  have hp : parseRoleToken tok = .ok (applyPairs (blankToken u sig) kvs) := parseRoleToken_ok.mpr ⟨u, sig, kvs, h, rfl⟩
  have hf := ((applyPairs_iff h).mp rfl).1
  have : now.after (applyPairs (blankToken u sig) kvs).expiryTime = true := by
    rw [hf.expiry v i he hi]
    cases ha : now.after (GoTime.ofUnix i) with
    | true => rfl
    | false => have := ((after_ofUnix hn.1 hi.1).mp ha).1; omega
  simp [parseAndValidateRoleToken, hp, validateRoleToken, RoleToken.expired, this]

/-- **C22**, no expiry. -/
theorem C22_missing (keys : KeyProvider) (now : GoTime) (hn : ClockOk now) (tok u sig : Str) (kvs : List (Str × Str))
    (h : RoleText tok u sig kvs) (he : lastValue "e" kvs = none) :
    parseAndValidateRoleToken keys now tok = .err .roleTokenExpired := by
  have hp : parseRoleToken tok = .ok (applyPairs (blankToken u sig) kvs) := parseRoleToken_ok.mpr ⟨u, sig, kvs, h, rfl⟩
  have hf := ((applyPairs_iff h).mp rfl).1
  have : now.after (applyPairs (blankToken u sig) kvs).expiryTime = true := by
    rw [hf.noExpiry he]; exact after_zero hn
  simp [parseAndValidateRoleToken, hp, validateRoleToken, RoleToken.expired, this]

/-- **C22**, malformed.  A token with an expiry pair that is not a 64 bit decimal number is rejected, wherever the pair stands. -/
theorem C22_malformed (keys : KeyProvider) (now : GoTime) (tok u v : Str) (pre post : List Str) (hu : UnsignedPart tok u)
    (hsplit : u = Str.join ';' (pre ++ ("e=".toList ++ v) :: post)) (hp : ∀ w ∈ pre ++ ("e=".toList ++ v) :: post, ';' ∉ w)
    (hv : ∀ i, ¬ Numeral v i) : ∃ e, parseAndValidateRoleToken keys now tok = .err e := by
  cases h : parseAndValidateRoleToken keys now tok with
  | err e => exact ⟨e, rfl⟩
  | panic => exact absurd h parseAndValidate_no_panic
  | ok rt =>
    exfalso
    obtain ⟨sig, h1, h2⟩ := hu
    have hc : Str.cut ";s=".toList tok = some (u, sig) := (Str.cut_eq_some_iff (by decide)).mpr ⟨h1, h2⟩
    have hq := (accept_iff.mp h).1
    unfold parseRoleToken at hq
    rw [hc] at hq
    obtain ⟨kvs, k1, k2, k3, _⟩ := setPairs_ok.mp hq
    rw [hsplit, Str.split_join (by simp) hp] at k1
    have hm : ("e=".toList ++ v) ∈ kvs.map pairText := by rw [← k1]; simp
    obtain ⟨p, hpm, he⟩ := List.mem_map.mp hm
    have e1 : Str.cut ['='] (pairText p) = some (p.1, p.2) := Str.cut_singleton_iff.mpr ⟨rfl, k2 p hpm⟩
    have e2 : Str.cut ['='] ("e=".toList ++ v) = some ("e".toList, v) := Str.cut_singleton_iff.mpr ⟨by simp, by decide⟩
    rw [he, e2] at e1
    simp only [Option.some.injEq, Prod.mk.injEq] at e1
    have := k3 p hpm (.inl e1.1.symm)
    rw [← e1.2] at this
    obtain ⟨i, hi⟩ := Option.isSome_iff_exists.mp this
    exact hv i (parseInt64_iff.mp hi)

/-- **C22**, all together: an accepted token has an expiry that has not passed. -/
theorem C22_accepted (keys : KeyProvider) (now : GoTime) (hn : ClockOk now) (tok : Str) (rt : RoleToken)
    (h : parseAndValidateRoleToken keys now tok = .ok rt) :
    ∃ u sig kvs v i, RoleText tok u sig kvs ∧ lastValue "e" kvs = some v ∧ Numeral v i ∧ unixNanos now ≤ i * 1000000000 ∧
      rt.expiryTime.unix = i := by
  obtain ⟨u, sig, kvs, h1, ⟨⟨v, i, h2, h3, h4⟩, _⟩, h5, _⟩ := (C20_accept keys now hn tok rt).mp h
  exact ⟨u, sig, kvs, v, i, h1, h2, h3, h4.2, by rw [h5.expiry v i h2 h3, GoTime.unix_ofUnix h3.1]⟩

/-- The three kinds of rejected tokens, for a key set that accepts the signature; the first is accepted one second earlier. -/
example : Ex.isOk (parseAndValidateRoleToken Ex.roleKeys Ex.roleNow Ex.roleTokExpired) = false ∧
    Ex.isOk (parseAndValidateRoleToken Ex.roleKeys ⟨Ex.roleNow.isec - 1, 0⟩ Ex.roleTokExpired) = true ∧
    Ex.isOk (parseAndValidateRoleToken Ex.roleKeys Ex.roleNow Ex.roleTokForever) = false ∧
    Ex.isOk (parseAndValidateRoleToken Ex.roleKeys Ex.roleNow "e=9223372036854775807;k=0;s=S".toList) = false ∧
    Ex.isOk (parseAndValidateRoleToken Ex.roleKeys Ex.roleNow "e=9223372036854775808;k=0;s=S".toList) = false ∧
    Ex.isOk (parseAndValidateRoleToken Ex.roleKeys Ex.roleNow "e=9223371974719179007;k=0;s=S".toList) = true := by decide +kernel

/-- The hypotheses of `C22_expired` are met by a token. -/
example : ∃ u sig kvs v i, RoleText Ex.roleTokExpired u sig kvs ∧ lastValue "e" kvs = some v ∧ Numeral v i ∧
    i * 1000000000 < unixNanos Ex.roleNow := by
  obtain ⟨rt, h⟩ := Ex.of_isOk (r := parseAndValidateRoleToken Ex.roleKeys ⟨Ex.roleNow.isec - 1, 0⟩ Ex.roleTokExpired) (by decide +kernel)
  obtain ⟨u, sig, kvs, v, i, h1, h2, h3, _, h5⟩ := C22_accepted _ _ (by unfold ClockOk; decide +kernel) _ _ h
  refine ⟨u, sig, kvs, v, i, h1, h2, h3, ?_⟩
  have hx : (match parseAndValidateRoleToken Ex.roleKeys ⟨Ex.roleNow.isec - 1, 0⟩ Ex.roleTokExpired with
    | .ok rt => rt.expiryTime.unix
    | _ => 0) = 1577836799 := by decide +kernel
  rw [h] at hx
  simp only at hx
  rw [← h5, hx]
  decide +kernel

/-! ## C23 round trip -/

/-- **C23**.  A token whose pairs state the fields, in any order and mixed with any pairs of other names, is parsed back to the fields. -/
theorem C23_parse (domain principal keyId sig : Str) (roles : List Str) (time expiry : Int) (extra kvs : List (Str × Str))
    (hd : ';' ∉ domain) (hp : ';' ∉ principal) (hk : ';' ∉ keyId) (hr : roles ≠ []) (hrr : ∀ r ∈ roles, ';' ∉ r ∧ ',' ∉ r)
    (ht : IsInt64 time) (he : IsInt64 expiry)
    (hx : ∀ p ∈ extra, ';' ∉ p.1 ∧ '=' ∉ p.1 ∧ ';' ∉ p.2 ∧ ∀ c ∈ ["d", "r", "p", "t", "e", "k", "s"], p.1 ≠ c.toList)
    (hperm : kvs.Perm (corePairs domain roles principal time expiry keyId ++ extra)) :
    parseRoleToken (pairsText kvs ++ ";s=".toList ++ sig) =
      .ok { domain := domain, roles := roles, principal := principal, timeStamp := GoTime.ofUnix time, expiryTime := GoTime.ofUnix expiry,
            keyId := keyId, signature := sig, unsignedToken := pairsText kvs } := by
  have hjoin : ';' ∉ Str.join ',' roles := by
    have : ∀ rs : List Str, (∀ r ∈ rs, ';' ∉ r ∧ ',' ∉ r) → ';' ∉ Str.join ',' rs := by
      intro rs
      induction rs with
      | nil => intro _; simp [Str.join]
      | cons r rs ih =>
        intro hr'
        cases rs with
        | nil => simpa [Str.join] using (hr' r (by simp)).1
        | cons q rs =>
          rw [Str.join_cons_ne (by simp)]
          simp only [List.mem_append, List.mem_cons, not_or]
          exact ⟨(hr' r (by simp)).1, by decide, ih (fun x hx => hr' x (by simp [hx]))⟩
    exact this roles hrr
  have hnt := numeral_decimal ht
  have hne := numeral_decimal he
  have hmem : ∀ p, p ∈ kvs ↔ p ∈ corePairs domain roles principal time expiry keyId ∨ p ∈ extra := fun p => by rw [hperm.mem_iff]; simp
  have hcore : ∀ p ∈ corePairs domain roles principal time expiry keyId, ';' ∉ p.1 ∧ '=' ∉ p.1 ∧ ';' ∉ p.2 ∧ p.1 ≠ "s".toList := by
    intro p hpm
    simp only [corePairs, List.mem_cons, List.not_mem_nil, or_false] at hpm
    rcases hpm with rfl | rfl | rfl | rfl | rfl | rfl
    · exact ⟨by simp only; decide, by simp only; decide, hd, by simp only; decide⟩
    · exact ⟨by simp only; decide, by simp only; decide, hjoin, by simp only; decide⟩
    · exact ⟨by simp only; decide, by simp only; decide, hp, by simp only; decide⟩
    · exact ⟨by simp only; decide, by simp only; decide, numeral_no_semicolon hnt, by simp only; decide⟩
    · exact ⟨by simp only; decide, by simp only; decide, numeral_no_semicolon hne, by simp only; decide⟩
    · exact ⟨by simp only; decide, by simp only; decide, hk, by simp only; decide⟩
  have hkeys : ∀ p ∈ kvs, ';' ∉ p.1 ∧ '=' ∉ p.1 ∧ ';' ∉ p.2 := by
    intro p hpm
    rcases (hmem p).mp hpm with h | h
    · exact ⟨(hcore p h).1, (hcore p h).2.1, (hcore p h).2.2.1⟩
    · exact ⟨(hx p h).1, (hx p h).2.1, (hx p h).2.2.1⟩
  have hnos : ∀ p ∈ kvs, p.1 ≠ "s".toList := by
    intro p hpm
    rcases (hmem p).mp hpm with h | h
    · exact (hcore p h).2.2.2
    · exact (hx p h).2.2.2 "s" (by simp)
  have hval : ∀ c v, c ∈ ["d", "r", "p", "t", "e", "k", "s"] → (c.toList, v) ∈ corePairs domain roles principal time expiry keyId →
      (∀ v', (c.toList, v') ∈ corePairs domain roles principal time expiry keyId → v' = v) → lastValue c kvs = some v := by
    intro c v hc hm hu
    cases hl : lastValue c kvs with
    | none => exact absurd ((hmem _).mpr (.inl hm)) (lastValue_none.mp hl v)
    | some w =>
      rcases (hmem _).mp (lastValue_mem hl) with h | h
      · rw [hu w h]
      · exact absurd rfl ((hx _ h).2.2.2 c hc)
  have vd : lastValue "d" kvs = some domain := hval "d" domain (by simp) (by simp [corePairs]) (by intro v'; simp [corePairs])
  have vr : lastValue "r" kvs = some (Str.join ',' roles) := hval "r" _ (by simp) (by simp [corePairs]) (by intro v'; simp [corePairs])
  have vp : lastValue "p" kvs = some principal := hval "p" _ (by simp) (by simp [corePairs]) (by intro v'; simp [corePairs])
  have vt : lastValue "t" kvs = some (decimal time) := hval "t" _ (by simp) (by simp [corePairs]) (by intro v'; simp [corePairs])
  have ve : lastValue "e" kvs = some (decimal expiry) := hval "e" _ (by simp) (by simp [corePairs]) (by intro v'; simp [corePairs])
  have vk : lastValue "k" kvs = some keyId := hval "k" _ (by simp) (by simp [corePairs]) (by intro v'; simp [corePairs])
  have htext : RoleText (pairsText kvs ++ ";s=".toList ++ sig) (pairsText kvs) sig kvs := by
    refine ⟨rfl, fun a b h => marker_first hkeys hnos a b h, ?_, rfl, hkeys, ?_⟩
    · intro h0
      have := (hmem ("d".toList, domain)).mpr (.inl (by simp [corePairs]))
      rw [h0] at this; simp at this
    · intro p hpm hpk
      rcases (hmem p).mp hpm with h | h
      · simp only [corePairs, List.mem_cons, List.not_mem_nil, or_false] at h
        rcases h with rfl | rfl | rfl | rfl | rfl | rfl
        · exact absurd hpk (by simp only; decide)
        · exact absurd hpk (by simp only; decide)
        · exact absurd hpk (by simp only; decide)
        · exact ⟨time, hnt⟩
        · exact ⟨expiry, hne⟩
        · exact absurd hpk (by simp only; decide)
      · rcases hpk with hpk | hpk
        · exact absurd hpk ((hx p h).2.2.2 "e" (by simp))
        · exact absurd hpk ((hx p h).2.2.2 "t" (by simp))
  refine parseRoleToken_ok.mpr ⟨_, sig, kvs, htext, (applyPairs_iff htext).mpr ⟨?_, rfl, ?_⟩⟩
  · refine ⟨by rw [vd]; rfl, by rw [vp]; rfl, by rw [vk]; rfl, ?_, by rw [vr]; simp, ?_, by rw [ve]; simp, ?_, by rw [vt]; simp⟩
    · intro v hv
      rw [vr] at hv
      cases hv
      exact ⟨hr, fun w hw => (hrr w hw).2, rfl⟩
    · intro v i hv hi
      rw [ve] at hv
      cases hv
      rw [numeral_fun hi hne]
    · intro v i hv hi
      rw [vt] at hv
      cases hv
      rw [numeral_fun hi hnt]
  · unfold usedSignature
    cases hh : kvs with
    | nil => rfl
    | cons p ps =>
      simp only [List.head?_cons]
      rw [if_neg (hnos p (by rw [hh]; simp))]

/-- A token rendered from fields and accepted by the processor carries exactly those fields. -/
theorem C23_accepted (keys : KeyProvider) (now : GoTime) (rt : RoleToken)
    (domain principal keyId sig : Str) (roles : List Str) (time expiry : Int) (extra kvs : List (Str × Str))
    (hd : ';' ∉ domain) (hp : ';' ∉ principal) (hk : ';' ∉ keyId) (hr : roles ≠ []) (hrr : ∀ r ∈ roles, ';' ∉ r ∧ ',' ∉ r)
    (ht : IsInt64 time) (he : IsInt64 expiry)
    (hx : ∀ p ∈ extra, ';' ∉ p.1 ∧ '=' ∉ p.1 ∧ ';' ∉ p.2 ∧ ∀ c ∈ ["d", "r", "p", "t", "e", "k", "s"], p.1 ≠ c.toList)
    (hperm : kvs.Perm (corePairs domain roles principal time expiry keyId ++ extra))
    (h : parseAndValidateRoleToken keys now (pairsText kvs ++ ";s=".toList ++ sig) = .ok rt) :
    rt.domain = domain ∧ rt.roles = roles ∧ rt.principal = principal ∧ rt.keyId = keyId ∧ rt.timeStamp.unix = time ∧
      rt.expiryTime.unix = expiry ∧ rt.signature = sig := by
  have h1 := (accept_iff.mp h).1
  rw [C23_parse domain principal keyId sig roles time expiry extra kvs hd hp hk hr hrr ht he hx hperm] at h1
  cases h1
  exact ⟨rfl, rfl, rfl, rfl, GoTime.unix_ofUnix ht, GoTime.unix_ofUnix he, rfl⟩

/-- A token with an extra version pair in front and the pairs in Athenz' order. -/
example : pairsText Ex.rolePairs ++ ";s=".toList ++ "S".toList = Ex.roleTok ∧
    Ex.rolePairs.Perm (corePairs "dom".toList ["admin".toList, "user".toList] "me".toList 1577836000 1577836800 "0".toList ++ [("v".toList, "Z1".toList)]) ∧
    (∀ p ∈ [("v".toList, "Z1".toList)], ';' ∉ p.1 ∧ '=' ∉ p.1 ∧ ';' ∉ p.2 ∧ ∀ c ∈ ["d", "r", "p", "t", "e", "k", "s"], p.1 ≠ c.toList) ∧
    (∃ rt, parseAndValidateRoleToken Ex.roleKeys Ex.roleNow Ex.roleTok = .ok rt) := by
  refine ⟨by decide +kernel, by decide +kernel, by decide +kernel, Ex.of_isOk (by decide +kernel)⟩

end Athenz
