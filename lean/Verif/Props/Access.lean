import Verif.Proofs.Access
import Verif.Proofs.Jwkd
import Verif.Props.Role

/-! # C24–C30, C59: access tokens and JSON web keys -/

namespace Athenz
open Spec

namespace Ex

/-- Claims of the client "me", issued at 1000, valid until 2000, with the given confirmation. -/
def atClaims (iat : Int) (confirm : Str → Option Json) : Claims :=
  { authTime := iat, version := 1, clientID := "me".toList, userID := "me".toList, proxyPrincipal := [], scope := ["admin".toList],
    confirm := confirm, audience := "dom".toList, expiresAt := 2000, id := [], issuedAt := iat, issuer := [], notBefore := iat, subject := "me".toList }

def atConfirm : Str → Option Json := fun k =>
  if k = "x5t#S256".toList then some (.str "t-old".toList)
  else if k = "proxy-principals#spiffe".toList then some (.arr [.other, .str "spiffe://proxy".toList])
  else none

/-- Segments by name: header "H" names key "k" of the default set, "J" the one of another set, "N" no algorithm; claims "P" are proper,
"F" are issued in the far future. -/
def atLib : JwtLib :=
  { header := fun h =>
      if h = "H".toList then some fun k => if k = "alg".toList then some (.str "RS256".toList) else if k = "kid".toList then some (.str "k".toList) else none
      else if h = "J".toList then some fun k => if k = "alg".toList then some (.str "RS256".toList) else if k = "kid".toList then some (.str "k".toList)
        else if k = "jku".toList then some (.str "evil".toList) else none
      else if h = "X".toList then some fun k => if k = "alg".toList then some (.str "HS256".toList) else if k = "kid".toList then some (.str "k".toList) else none
      else none
    claims := fun p =>
      if p = "P".toList then some (atClaims 1000 atConfirm)
      else if p = "F".toList then some (atClaims (2 ^ 63 - 1) atConfirm)
      else none
    crypto := fun _ _ sig k => sig == k.key }

def atKeys : JwkProvider := fun kid jku => if kid = "k".toList ∧ jku = [] then some ⟨.rsaPublic, "S".toList⟩ else none

def atCfg : AtpCfg :=
  { jwkp := atKeys, mtlsBound := true, goBack := 10, offset := 100, verifyClientID := true,
    authorized := fun cn => if cn = "me".toList then ["me".toList] else [], lib := atLib, thumb := fun raw => raw }

/-- The time 1500. -/
def atNow : GoTime := ⟨1500 + unixToInternal, 5⟩

/-- A certificate of "me" with the given thumbprint, issued at `t`, and the given URIs. -/
def atCert (raw : String) (t : Int) (uris : List String) : Cert :=
  { raw := raw.toList, subjectCN := "me".toList, issuerCN := "ca".toList, notBefore := ⟨t + unixToInternal, 0⟩, uris := uris.map String.toList }

theorem atNow_clock : atNow.IsClock := by decide

theorem atLib_wf : WfClaims atLib := by
  intro p c h
  simp only [atLib] at h
  split at h
  · simp only [Option.some.injEq] at h
    subst h
    simp only [atClaims]
    decide
  · split at h
    · simp only [Option.some.injEq] at h
      subst h
      simp only [atClaims]
      decide
    · simp at h

end Ex

/-! ## C24 acceptance -/

/-- A good access token: three parts, the key asked for in the header verifies the signature over the first two, `c` are the claims of the
second, which are current in the sense of `past` for the issue time and the not-before time. -/
def GoodAccessToken (cfg : AtpCfg) (past : Int → Int → Prop) (now : GoTime) (tok : Str) (c : Claims) : Prop :=
  ∃ h p s hdr k, Segments tok h p s ∧ cfg.lib.header h = some hdr ∧ cfg.lib.claims p = some c ∧ HeaderKey cfg.jwkp hdr k ∧
    Signed cfg.lib hdr h p s k ∧ InFuture now.unix c.expiresAt ∧ past now.unix c.issuedAt ∧ past now.unix c.notBefore

/-- **C24**.  `ParseAndValidateOAuth2AccessToken` accepts exactly the good tokens whose enabled certificate checks pass, and returns their
claims; an issue or not-before time counts as past also if it is so large that `time.Unix` wraps around. -/
theorem C24_accept (cfg : AtpCfg) (hw : WfClaims cfg.lib) (now : GoTime) (hn : now.IsClock) (tok : Str) (cert : Option Cert) (c : Claims) :
    parseAndValidateAccessToken cfg now tok cert = .ok c ↔ GoodAccessToken cfg NotFutureOrHuge now tok c ∧ Bound cfg cert c := by
  rw [access_iff, parse_iff]
  refine and_congr ?_ Iff.rfl
  constructor
  · rintro ⟨h, p, s, hdr, k, h1, h2, h3, h4, h5, h6⟩
    obtain ⟨w1, w2, w3⟩ := hw p c h3
    simp only [claimsValid, Bool.and_eq_true, verifyExpiresAt_iff hn w1, verifyNotFuture_iff hn w2, verifyNotFuture_iff hn w3] at h6
    exact ⟨h, p, s, hdr, k, h1, h2, h3, keyFunc_iff.mp h4, h5, h6.1.1, h6.1.2, h6.2⟩
  · rintro ⟨h, p, s, hdr, k, h1, h2, h3, h4, h5, h6, h7, h8⟩
    obtain ⟨w1, w2, w3⟩ := hw p c h3
    refine ⟨h, p, s, hdr, k, h1, h2, h3, keyFunc_iff.mpr h4, h5, ?_⟩
    simp only [claimsValid, Bool.and_eq_true, verifyExpiresAt_iff hn w1, verifyNotFuture_iff hn w2, verifyNotFuture_iff hn w3]
    exact ⟨⟨h6, h7⟩, h8⟩

/-- The full statement of C24. -/
def C24_statement : Prop :=
  ∀ (cfg : AtpCfg) (now : GoTime) (tok : Str) (cert : Option Cert) (c : Claims), WfClaims cfg.lib → now.IsClock →
    (parseAndValidateAccessToken cfg now tok cert = .ok c ↔ GoodAccessToken cfg NotFuture now tok c ∧ Bound cfg cert c)

/-- It holds for all claims whose issue and not-before times do not make `time.Unix` wrap around.  Missing: the others. -/
theorem C24_accept_partial (cfg : AtpCfg) (hw : WfClaims cfg.lib) (now : GoTime) (hn : now.IsClock) (tok : Str) (cert : Option Cert) (c : Claims)
    (h1 : c.issuedAt < unixLimit) (h2 : c.notBefore < unixLimit) :
    parseAndValidateAccessToken cfg now tok cert = .ok c ↔ GoodAccessToken cfg NotFuture now tok c ∧ Bound cfg cert c := by
  rw [C24_accept cfg hw now hn tok cert c]
  have e : ∀ t, t < unixLimit → (NotFutureOrHuge now.unix t ↔ NotFuture now.unix t) := by
    intro t ht; unfold NotFutureOrHuge
    constructor
    · rintro (h | h)
      · exact h
      · omega
    · exact .inl
  unfold GoodAccessToken
  simp only [e _ h1, e _ h2]

/-- It fails for a token that was issued at the end of time. -/
theorem C24_refuted : ¬ C24_statement := by
  intro h
  obtain ⟨c, hc⟩ := Ex.of_isOk (r := parseAndValidateAccessToken { Ex.atCfg with mtlsBound := false } Ex.atNow "H.F.S".toList
    (some (Ex.atCert "x" 0 []))) (by decide +kernel)
  obtain ⟨⟨_, p, _, _, _, hs, _, hp, _, _, _, hi, _⟩, _⟩ := (h _ _ _ _ _ Ex.atLib_wf Ex.atNow_clock).mp hc
  obtain ⟨h', p', s', hsp⟩ : ∃ h' p' s', Str.split '.' "H.F.S".toList = [h', p', s'] ∧ p' = "F".toList := ⟨"H".toList, "F".toList, "S".toList, by decide +kernel, rfl⟩
  have : p = "F".toList := by
    have h1 := split_three.mpr hs
    rw [hsp.1] at h1
    simp only [List.cons.injEq, and_true] at h1
    rw [← h1.2.1, hsp.2]
  subst this
  have hp' : Ex.atLib.claims "F".toList = some (Ex.atClaims (2 ^ 63 - 1) Ex.atConfirm) := rfl
  rw [show ({ Ex.atCfg with mtlsBound := false } : AtpCfg).lib = Ex.atLib from rfl, hp'] at hp
  simp only [Option.some.injEq] at hp
  subst hp
  exact absurd hi (by unfold NotFuture; decide)

/-- A token accepted with every check enabled, for the old certificate; the same token is rejected with another key set, with another
certificate, and once it has expired. -/
example : WfClaims Ex.atCfg.lib ∧ Ex.atNow.IsClock ∧
    Ex.isOk (parseAndValidateAccessToken Ex.atCfg Ex.atNow "H.P.S".toList (some (Ex.atCert "t-old" 0 []))) = true ∧
    Ex.isOk (parseAndValidateAccessToken Ex.atCfg Ex.atNow "J.P.S".toList (some (Ex.atCert "t-old" 0 []))) = false ∧
    Ex.isOk (parseAndValidateAccessToken Ex.atCfg Ex.atNow "H.P.S".toList (some (Ex.atCert "t-new" 0 []))) = false ∧
    Ex.isOk (parseAndValidateAccessToken Ex.atCfg ⟨2000 + unixToInternal, 0⟩ "H.P.S".toList (some (Ex.atCert "t-old" 0 []))) = false :=
  ⟨Ex.atLib_wf, Ex.atNow_clock, by decide +kernel⟩

/-! ## C25 client id -/

/-- **C25**.  With client id verification enabled, what is accepted comes with a certificate whose common name is configured for the client id. -/
theorem C25_client_id (cfg : AtpCfg) (now : GoTime) (tok : Str) (cert : Option Cert) (c : Claims) (he : cfg.verifyClientID = true)
    (h : parseAndValidateAccessToken cfg now tok cert = .ok c) : ∃ x, cert = some x ∧ c.clientID ∈ cfg.authorized x.subjectCN :=
  (access_iff.mp h).2.1 he

/-- The check is exact: whatever is accepted with it disabled is accepted with it enabled exactly if the client id is configured. -/
theorem C25_exact (cfg : AtpCfg) (now : GoTime) (tok : Str) (cert : Option Cert) (c : Claims)
    (h : parseAndValidateAccessToken { cfg with verifyClientID := false } now tok cert = .ok c) :
    parseAndValidateAccessToken { cfg with verifyClientID := true } now tok cert = .ok c ↔
      ∃ x, cert = some x ∧ c.clientID ∈ cfg.authorized x.subjectCN := by
  obtain ⟨h1, _, h2⟩ := access_iff.mp h
  rw [access_iff]
  constructor
  · intro h3; exact h3.2.1 rfl
  · intro h3; exact ⟨h1, fun _ => h3, h2⟩

example : Ex.isOk (parseAndValidateAccessToken { Ex.atCfg with verifyClientID := false } Ex.atNow "H.P.S".toList
      (some { Ex.atCert "t-old" 0 [] with subjectCN := "you".toList })) = true ∧
    Ex.isOk (parseAndValidateAccessToken Ex.atCfg Ex.atNow "H.P.S".toList (some { Ex.atCert "t-old" 0 [] with subjectCN := "you".toList })) = false ∧
    Ex.isOk (parseAndValidateAccessToken Ex.atCfg Ex.atNow "H.P.S".toList (some (Ex.atCert "t-old" 0 []))) = true := by decide +kernel

/-! ## C26 certificate binding -/

/-- **C26**.  With certificate-bound tokens enabled, what is accepted comes with the bound certificate, a rotation of it, or a certificate of
one of the token's proxy principals. -/
theorem C26_bound (cfg : AtpCfg) (now : GoTime) (tok : Str) (cert : Option Cert) (c : Claims) (he : cfg.mtlsBound = true)
    (h : parseAndValidateAccessToken cfg now tok cert = .ok c) :
    ∃ x, cert = some x ∧ (BoundTo cfg.thumb x c ∨ Rotated machineAdd cfg.goBack cfg.offset x c ∨ ProxyOf x c) :=
  (access_iff.mp h).2.2 he

/-- The check is exact. -/
theorem C26_exact (cfg : AtpCfg) (now : GoTime) (tok : Str) (cert : Option Cert) (c : Claims)
    (h : parseAndValidateAccessToken { cfg with mtlsBound := false } now tok cert = .ok c) :
    parseAndValidateAccessToken { cfg with mtlsBound := true } now tok cert = .ok c ↔
      ∃ x, cert = some x ∧ (BoundTo cfg.thumb x c ∨ Rotated machineAdd cfg.goBack cfg.offset x c ∨ ProxyOf x c) := by
  obtain ⟨h1, h2, _⟩ := access_iff.mp h
  rw [access_iff]
  constructor
  · intro h3; exact h3.2.2 rfl
  · intro h3; exact ⟨h1, h2, fun _ => h3⟩

/-- The three ways: the bound certificate, a rotation inside the window, a proxy; none of them for another certificate. -/
example : Ex.isOk (parseAndValidateAccessToken { Ex.atCfg with mtlsBound := false } Ex.atNow "H.P.S".toList (some (Ex.atCert "x" 0 []))) = true ∧
    Ex.isOk (parseAndValidateAccessToken Ex.atCfg Ex.atNow "H.P.S".toList (some (Ex.atCert "t-old" 0 []))) = true ∧
    Ex.isOk (parseAndValidateAccessToken Ex.atCfg Ex.atNow "H.P.S".toList (some (Ex.atCert "t-new" 1090 []))) = true ∧
    Ex.isOk (parseAndValidateAccessToken Ex.atCfg Ex.atNow "H.P.S".toList (some (Ex.atCert "t-new" 1091 []))) = false ∧
    Ex.isOk (parseAndValidateAccessToken Ex.atCfg Ex.atNow "H.P.S".toList (some (Ex.atCert "t-new" 0 ["a", "spiffe://proxy"]))) = true ∧
    Ex.isOk (parseAndValidateAccessToken Ex.atCfg Ex.atNow "H.P.S".toList (some (Ex.atCert "t-new" 0 ["a"]))) = false := by decide +kernel

/-! ## C27 rotation window -/

/-- A mismatch that only the rotation window can forgive. -/
def Mismatch (thumb : Str → Str) (x : Cert) (c : Claims) : Prop := BoundToSome c ∧ ¬ BoundTo thumb x c ∧ ¬ ProxyOf x c

/-- **C27**.  As long as the two sums stay in the range of `int64`, a mismatch is forgiven exactly if the window is enabled, the names are
equal and not empty, and the corrected issue time of the certificate lies in the window. -/
theorem C27_window (cfg : AtpCfg) (now : GoTime) (tok : Str) (x : Cert) (c : Claims) (hm : Mismatch cfg.thumb x c)
    (h : parseAndValidateAccessToken { cfg with mtlsBound := false } now tok (some x) = .ok c)
    (h1 : IsInt64 (x.notBefore.unix + cfg.goBack)) (h2 : IsInt64 (c.issuedAt + cfg.offset)) :
    parseAndValidateAccessToken { cfg with mtlsBound := true } now tok (some x) = .ok c ↔
      cfg.offset ≠ 0 ∧ x.subjectCN ≠ [] ∧ x.subjectCN = c.clientID ∧
        c.issuedAt ≤ x.notBefore.unix + cfg.goBack ∧ x.notBefore.unix + cfg.goBack ≤ c.issuedAt + cfg.offset := by
  rw [C26_exact cfg now tok (some x) c h]
  simp only [Option.some.injEq, exists_eq_left', hm.2.1, hm.2.2, false_or, or_false, Rotated, hm.1, true_and, RotationNames, InWindow, machineAdd,
    wrap64_id h1, wrap64_id h2, and_assoc]

/-- The outcome for all values: the sums wrap around. -/
theorem C27_machine (cfg : AtpCfg) (now : GoTime) (tok : Str) (x : Cert) (c : Claims) (hm : Mismatch cfg.thumb x c)
    (h : parseAndValidateAccessToken { cfg with mtlsBound := false } now tok (some x) = .ok c) :
    parseAndValidateAccessToken { cfg with mtlsBound := true } now tok (some x) = .ok c ↔
      RotationNames cfg.offset x c ∧ InWindow machineAdd cfg.goBack cfg.offset x.notBefore.unix c.issuedAt := by
  rw [C26_exact cfg now tok (some x) c h]
  simp only [Option.some.injEq, exists_eq_left', hm.2.1, hm.2.2, false_or, or_false, Rotated, hm.1, true_and]

theorem wrap64_high {x : Int} (h : 2 ^ 63 ≤ x) (h' : x < 2 ^ 64) : wrap64 x = x - 2 ^ 64 := by unfold wrap64; omega

theorem wrap64_low {x : Int} (h : x < -(2 ^ 63)) (h' : -(2 ^ 64) ≤ x) : wrap64 x = x + 2 ^ 64 := by unfold wrap64; omega

/-- **C27**, overflow.  If the end of the window overflows, nothing is forgiven; if it underflows (a negative window on a token issued
before the beginning of time), the window has no end; if the issue time of the certificate overflows, only tokens issued before the
beginning of time can be forgiven; if it underflows, it counts as issued at the end of time. -/
theorem C27_overflow (goBack offset nb iat : Int) (h1 : IsInt64 goBack) (h2 : IsInt64 offset) (h3 : IsInt64 nb) (h4 : IsInt64 iat) :
    (2 ^ 63 ≤ iat + offset → ¬ InWindow machineAdd goBack offset nb iat) ∧
    (iat + offset < -(2 ^ 63) → (InWindow machineAdd goBack offset nb iat ↔
      iat ≤ machineAdd nb goBack ∧ machineAdd nb goBack ≤ iat + offset + 2 ^ 64)) ∧
    (2 ^ 63 ≤ nb + goBack → InWindow machineAdd goBack offset nb iat → iat < 0) ∧
    (nb + goBack < -(2 ^ 63) → InWindow machineAdd goBack offset nb iat → 0 ≤ machineAdd nb goBack) := by
  unfold IsInt64 at *
  unfold InWindow machineAdd
  refine ⟨?_, ?_, ?_, ?_⟩
  · intro h
    rw [wrap64_high h (by omega)]
    omega
  · intro h
    rw [wrap64_low h (by omega)]
  · intro h
    rw [wrap64_high h (by omega)]
    omega
  · intro h _
    rw [wrap64_low h (by omega)]
    omega

/-- The two ends of the window belong to it; a certificate issued a second earlier or later does not.  An underflow of the window is
possible: a window of minus one second forgives any certificate of a token issued at the smallest time. -/
example : Mismatch Ex.atCfg.thumb (Ex.atCert "t-new" 990 []) (Ex.atClaims 1000 Ex.atConfirm) ∧
    Ex.isOk (parseAndValidateAccessToken Ex.atCfg Ex.atNow "H.P.S".toList (some (Ex.atCert "t-new" 990 []))) = true ∧
    Ex.isOk (parseAndValidateAccessToken Ex.atCfg Ex.atNow "H.P.S".toList (some (Ex.atCert "t-new" 989 []))) = false ∧
    Ex.isOk (parseAndValidateAccessToken { Ex.atCfg with offset := 0 } Ex.atNow "H.P.S".toList (some (Ex.atCert "t-new" 990 []))) = false ∧
    InWindow machineAdd 0 (-1) 990 (-(2 ^ 63)) := by
  refine ⟨⟨⟨"t-old".toList, rfl⟩, ?_, ?_⟩, by decide +kernel, by decide +kernel, by decide +kernel, by unfold InWindow; decide +kernel⟩
  · intro h
    have h' : Ex.atConfirm "x5t#S256".toList = some (.str "t-new".toList) := h
    have : Ex.atConfirm "x5t#S256".toList = some (.str "t-old".toList) := rfl
    rw [this] at h'
    simp at h'
  · rintro ⟨l, u, _, _, hu⟩
    simp [Ex.atCert] at hu

/-! ## C28 key selection -/

/-- **C28**.  An accepted token has a string `kid`, its `jku` is absent or a string, and its signature verifies under the key that the provider
has for the two (for the empty URL without `jku`). -/
theorem C28_header (cfg : AtpCfg) (now : GoTime) (tok : Str) (cert : Option Cert) (c : Claims)
    (h : parseAndValidateAccessToken cfg now tok cert = .ok c) :
    ∃ hd p s hdr k, Segments tok hd p s ∧ cfg.lib.header hd = some hdr ∧ HeaderKey cfg.jwkp hdr k ∧ Signed cfg.lib hdr hd p s k := by
  obtain ⟨hd, p, s, hdr, k, h1, h2, _, h4, h5, _⟩ := parse_iff.mp (access_iff.mp h).1
  exact ⟨hd, p, s, hdr, k, h1, h2, keyFunc_iff.mp h4, h5⟩

/-- **C28**, with the keys of a daemon: the key is the first one with that `kid` in the set kept for the `jku`, or for the Athenz URL
without (or with an empty) `jku`. -/
theorem C28_daemon (dcfg : JwkCfg) (ds : JwkState) (cfg : AtpCfg) (hk : cfg.jwkp = getKey dcfg ds) (now : GoTime) (tok : Str) (cert : Option Cert)
    (c : Claims) (h : parseAndValidateAccessToken cfg now tok cert = .ok c) :
    ∃ hd p s hdr kid jku set k, Segments tok hd p s ∧ cfg.lib.header hd = some hdr ∧ hdr "kid".toList = some (.str kid) ∧ kid ≠ [] ∧
      ((hdr "jku".toList = none ∧ jku = []) ∨ hdr "jku".toList = some (.str jku)) ∧
      ds.keys.load (lookupURL dcfg jku) = some set ∧ KeyIn set kid k ∧ Signed cfg.lib hdr hd p s k := by
  obtain ⟨hd, p, s, hdr, k, h1, h2, ⟨kid, h3, h4⟩, h5⟩ := C28_header cfg now tok cert c h
  have key : ∀ jku, cfg.jwkp kid jku = some k → kid ≠ [] ∧ ∃ set, ds.keys.load (lookupURL dcfg jku) = some set ∧ KeyIn set kid k := by
    intro jku hq
    rw [hk] at hq
    simp only [getKey] at hq
    split at hq
    · simp at hq
    · rename_i hne
      refine ⟨hne, ?_⟩
      cases hl : ds.keys.load (lookupURL dcfg jku) with
      | none => rw [show (if jku = [] then dcfg.athenzURL else jku) = lookupURL dcfg jku from rfl, hl] at hq; simp at hq
      | some set =>
        rw [show (if jku = [] then dcfg.athenzURL else jku) = lookupURL dcfg jku from rfl, hl] at hq
        exact ⟨set, rfl, lookup_iff.mp hq⟩
  rcases h4 with ⟨h4, h6⟩ | ⟨url, h4, h6⟩
  · obtain ⟨hne, set, hs, hki⟩ := key [] h6
    exact ⟨hd, p, s, hdr, kid, [], set, k, h1, h2, h3, hne, .inl ⟨h4, rfl⟩, hs, hki, h5⟩
  · obtain ⟨hne, set, hs, hki⟩ := key url h6
    exact ⟨hd, p, s, hdr, kid, url, set, k, h1, h2, h3, hne, .inr h4, hs, hki, h5⟩

/-! ## C59 algorithms -/

/-- **C59**.  The algorithm of an accepted token is one for the kind of key that verified it: a token with an HMAC algorithm is accepted only
under a symmetric key of the key set, never under a public key, and one with algorithm `none` never. -/
theorem C59_algorithm (cfg : AtpCfg) (now : GoTime) (tok : Str) (cert : Option Cert) (c : Claims)
    (h : parseAndValidateAccessToken cfg now tok cert = .ok c) :
    ∃ hd p s hdr k alg, Segments tok hd p s ∧ cfg.lib.header hd = some hdr ∧ hdr "alg".toList = some (.str alg) ∧ HeaderKey cfg.jwkp hdr k ∧
      cfg.lib.crypto alg (hd ++ '.' :: p) s k = true ∧ alg ≠ "none".toList ∧
      (alg ∈ ["HS256".toList, "HS384".toList, "HS512".toList] ↔ k.kind = .bytes) := by
  obtain ⟨hd, p, s, hdr, k, h1, h2, h3, alg, h4, h5, h6⟩ := C28_header cfg now tok cert c h
  refine ⟨hd, p, s, hdr, k, alg, h1, h2, h4, h3, h6, ?_, ?_⟩
  · rintro rfl
    rw [show signingMethod "none".toList = some none from by decide] at h5
    simp at h5
  · unfold signingMethod at h5
    constructor
    · intro ha
      simp only [List.mem_cons, List.not_mem_nil, or_false] at ha
      rcases ha with rfl | rfl | rfl
      · have : signingMethod "HS256".toList = some (some .bytes) := by decide
        unfold signingMethod at this; rw [this] at h5; simpa using h5.symm
      · have : signingMethod "HS384".toList = some (some .bytes) := by decide
        unfold signingMethod at this; rw [this] at h5; simpa using h5.symm
      · have : signingMethod "HS512".toList = some (some .bytes) := by decide
        unfold signingMethod at this; rw [this] at h5; simpa using h5.symm
    · intro hk
      rw [hk] at h5
      split at h5
      · simp at h5
      · split at h5
        · simp at h5
        · split at h5
          · assumption
          · split at h5
            · simp at h5
            · split at h5
              · simp at h5
              · simp at h5

/-- A token with an HMAC algorithm whose signature would be right under the public key's text is rejected. -/
example : Ex.isOk (parseAndValidateAccessToken Ex.atCfg Ex.atNow "X.P.S".toList (some (Ex.atCert "t-old" 0 []))) = false ∧
    Ex.isOk (parseAndValidateAccessToken { Ex.atCfg with jwkp := fun _ _ => some ⟨.bytes, "S".toList⟩ } Ex.atNow "X.P.S".toList
      (some (Ex.atCert "t-old" 0 []))) = true := by decide +kernel

/-! ## C29 key sources -/

namespace Ex

def jkA : JwkSet := [⟨"k".toList, some ⟨.rsaPublic, "S".toList⟩⟩]
def jkB : JwkSet := [⟨"k2".toList, none⟩, ⟨"k3".toList, some ⟨.rsaPublic, "S3".toList⟩⟩]
def jkCfg : JwkCfg := { athenzURL := "athenz".toList, urls := ["u".toList, "v".toList] }

/-- Two updates one after the other: in the second, "athenz" fails and "u" changes. -/
def jkSeq : List JwkAct := [.update, .fetch 0 (some jkA), .store 0, .fetch 0 (some jkA), .store 0, .fetch 0 none,
  .update, .fetch 1 none, .fetch 1 (some jkB), .store 1, .fetch 1 (some jkA), .store 1]

/-- Two overlapping updates: the second fetches later but stores first. -/
def jkRace : List JwkAct := [.update, .fetch 0 (some jkA), .update, .fetch 1 (some jkB), .store 1, .store 0]

def idleCheck (s : JwkState) : Bool := s.jobs.all fun b => b.todo.isEmpty

/-- Checks that the updates do not overlap. -/
def seqUpdatesCheck (cfg : JwkCfg) : JwkState → List JwkAct → Bool
  | _, [] => true
  | s, a :: as => (match a with | .update => idleCheck s | _ => true) &&
    match jwkStep cfg s a with
    | some s' => seqUpdatesCheck cfg s' as
    | none => true

theorem idle_of_check {s : JwkState} (h : idleCheck s = true) : Idle s := by
  intro b hb
  simp only [idleCheck, List.all_eq_true] at h
  simpa using h b hb

theorem seqUpdates_of_check {cfg : JwkCfg} {s : JwkState} {acts : List JwkAct} (h : seqUpdatesCheck cfg s acts = true) : SeqUpdates cfg s acts := by
  induction acts generalizing s with
  | nil => trivial
  | cons a as ih =>
    simp only [seqUpdatesCheck, Bool.and_eq_true] at h
    refine ⟨?_, ?_⟩
    · cases a with
      | update => exact idle_of_check h.1
      | fetch j o => trivial
      | store j => trivial
    · intro s' hs
      rw [hs] at h
      exact ih h.2

end Ex

/-- **C29**.  In every execution, with any number of overlapping updates: a key is handed out only for a non-empty id, only from the set that
was stored last for the asked URL (the Athenz URL for the empty one), which is a configured URL and from which the set was fetched. -/
theorem C29_sources (cfg : JwkCfg) (acts : List JwkAct) (s : JwkState) (h : jwkRun cfg jwkInit acts = some s) (kid jku : Str) (k : JKey)
    (hk : getKey cfg s kid jku = some k) :
    kid ≠ [] ∧ (lookupURL cfg jku = cfg.athenzURL ∨ lookupURL cfg jku ∈ cfg.urls) ∧
    ∃ set j, latest (lookupURL cfg jku) (stores s.log) = some set ∧ .fetched j (lookupURL cfg jku) (some set) ∈ s.log ∧ KeyIn set kid k := by
  have hK : JwkKeysInv s := jwkRun_ind (fun _ _ _ => jwkKeysInv_step) (fun url => rfl) h
  have hS : JwkStoredInv cfg s := jwkRun_ind (fun _ _ _ => jwkStoredInv_step) (by simp [JwkStoredInv, jwkInit]) h
  simp only [getKey] at hk
  split at hk
  · simp at hk
  · rename_i hne
    rw [show (if jku = [] then cfg.athenzURL else jku) = lookupURL cfg jku from rfl] at hk
    cases hl : s.keys.load (lookupURL cfg jku) with
    | none => rw [hl] at hk; simp at hk
    | some set =>
      rw [hl] at hk
      have h1 : latest (lookupURL cfg jku) (stores s.log) = some set := by rw [← hK]; exact hl
      obtain ⟨j, hj⟩ := mem_stores.mp (latest_mem h1)
      obtain ⟨h2, h3⟩ := hS.1 j _ _ hj
      exact ⟨hne, mem_targets.mp h3, set, j, h1, h2, lookup_iff.mp hk⟩

/-- The full statement of C29: whenever no update is between its request and its store, the set was the one last fetched. -/
def C29_statement : Prop :=
  ∀ (cfg : JwkCfg) (acts : List JwkAct) (s : JwkState), jwkRun cfg jwkInit acts = some s → (∀ b ∈ s.jobs, b.got = none) →
    ∀ kid jku k, getKey cfg s kid jku = some k → ∃ set, latest (lookupURL cfg jku) (okFetches s.log) = some set ∧ KeyIn set kid k

/-- It holds if the updates do not overlap.  Missing: overlapping updates. -/
theorem C29_last_fetched_partial (cfg : JwkCfg) (acts : List JwkAct) (s : JwkState) (h : jwkRun cfg jwkInit acts = some s)
    (hq : SeqUpdates cfg jwkInit acts) (hg : ∀ b ∈ s.jobs, b.got = none) (kid jku : Str) (k : JKey) (hk : getKey cfg s kid jku = some k) :
    ∃ set, latest (lookupURL cfg jku) (okFetches s.log) = some set ∧ KeyIn set kid k := by
  have hS : JwkSeqInv s := jwkSeqInv_run (.inl ⟨by simp [Idle, jwkInit], rfl⟩) hq h
  obtain ⟨_, _, set, _, h1, _, h2⟩ := C29_sources cfg acts s h kid jku k hk
  exact ⟨set, by rw [jwkSeqInv_idle hS hg]; exact h1, h2⟩

/-- It fails for two overlapping updates: the older key set is kept and its withdrawn keys are handed out. -/
theorem C29_refuted : ¬ C29_statement := by
  intro h
  obtain ⟨s, hs, hp⟩ := Ex.exists_of_map (o := jwkRun Ex.jkCfg jwkInit Ex.jkRace)
    (p := fun s => s.jobs.all (fun b => b.got.isNone) && decide (getKey Ex.jkCfg s "k".toList [] = some ⟨.rsaPublic, "S".toList⟩) &&
      decide (latest "athenz".toList (okFetches s.log) = some Ex.jkB)) (by decide +kernel)
  simp only [Bool.and_eq_true, List.all_eq_true, decide_eq_true_eq] at hp
  obtain ⟨set, h1, pre, e, post, h2, h3, h4, h5⟩ := h _ _ s hs (fun b hb => by simpa using hp.1.1 b hb) _ _ _ hp.1.2
  rw [show lookupURL Ex.jkCfg [] = "athenz".toList from rfl, hp.2] at h1
  simp only [Option.some.injEq] at h1
  have hm : e ∈ Ex.jkB := by rw [h1, h2]; simp
  simp only [Ex.jkB, List.mem_cons, List.not_mem_nil, or_false] at hm
  rcases hm with rfl | rfl
  · exact absurd h4 (by decide)
  · exact absurd h4 (by decide)

/-- A key handed out after two updates, from the second of the configured URLs; the key "k" of the first is withdrawn. -/
example : ∃ s, jwkRun Ex.jkCfg jwkInit Ex.jkSeq = some s ∧ SeqUpdates Ex.jkCfg jwkInit Ex.jkSeq ∧ (∀ b ∈ s.jobs, b.got = none) ∧
    getKey Ex.jkCfg s "k".toList [] = some ⟨.rsaPublic, "S".toList⟩ ∧ getKey Ex.jkCfg s "k3".toList "u".toList = some ⟨.rsaPublic, "S3".toList⟩ ∧
    getKey Ex.jkCfg s "k".toList "u".toList = none ∧ getKey Ex.jkCfg s "k".toList "evil".toList = none := by
  obtain ⟨s, hs, hp⟩ := Ex.exists_of_map (o := jwkRun Ex.jkCfg jwkInit Ex.jkSeq)
    (p := fun s => s.jobs.all (fun b => b.got.isNone) && decide (getKey Ex.jkCfg s "k".toList [] = some ⟨.rsaPublic, "S".toList⟩) &&
      decide (getKey Ex.jkCfg s "k3".toList "u".toList = some ⟨.rsaPublic, "S3".toList⟩) &&
      decide (getKey Ex.jkCfg s "k".toList "u".toList = none) && decide (getKey Ex.jkCfg s "k".toList "evil".toList = none)) (by decide +kernel)
  simp only [Bool.and_eq_true, List.all_eq_true, decide_eq_true_eq] at hp
  exact ⟨s, hs, Ex.seqUpdates_of_check (by decide +kernel), fun b hb => by simpa using hp.1.1.1.1 b hb, hp.1.1.1.2, hp.1.1.2, hp.1.2, hp.2⟩

/-! ## C30 updates -/

/-- **C30**, attempts and result.  In every execution, a finished update has asked every configured URL once, in order, and the Athenz URL
too, and it returns an error exactly if one of the requests failed. -/
theorem C30_tries_all (cfg : JwkCfg) (acts : List JwkAct) (s : JwkState) (h : jwkRun cfg jwkInit acts = some s) (j : Nat) (b : JwkJob)
    (hb : s.jobs[j]? = some b) (hd : b.todo = []) :
    (fetchesOf j s.log).map (·.1) = cfg.targets ∧ (∀ url, url ∈ cfg.targets ↔ url = cfg.athenzURL ∨ url ∈ cfg.urls) ∧
      ∃ e, b.result = some e ∧ (e = true ↔ ∃ url, (url, none) ∈ fetchesOf j s.log) := by
  have hJ : JwkJobsInv cfg s := jwkRun_ind (fun _ _ _ => jwkJobsInv_step) ⟨by intro j b hb; simp [jwkInit] at hb, fun _ _ => rfl⟩ h
  obtain ⟨ho, hf, hp⟩ := hJ.1 j b hb
  refine ⟨?_, fun url => mem_targets, ?_⟩
  · rw [ho, hd]; simp
  · refine ⟨!b.failed.isEmpty, by rw [JwkJob.result, if_pos hd], ?_⟩
    rw [hf]
    simp only [List.isEmpty_map, Bool.not_eq_true', List.isEmpty_eq_false_iff, ne_eq]
    constructor
    · intro he
      obtain ⟨⟨url, o⟩, hm⟩ := List.exists_mem_of_ne_nil _ he
      obtain ⟨hm, ho'⟩ := List.mem_filter.mp hm
      cases o with
      | none => exact ⟨url, hm⟩
      | some set => simp at ho'
    · rintro ⟨url, hu⟩ he
      exact absurd (List.mem_filter.mpr ⟨hu, rfl⟩) (by rw [he]; simp)

/-- **C30**, effect.  In every execution, an update that ran alone and has finished has replaced the key set of every URL that could be
fetched by the fetched one, and has left all other sets as they were. -/
theorem C30_replaces (cfg : JwkCfg) (before after : List JwkAct) (s s' : JwkState) (h : jwkRun cfg jwkInit before = some s) (hid : Idle s)
    (hn : .update ∉ after) (h' : jwkRun cfg s (.update :: after) = some s') (b : JwkJob) (hb : s'.jobs[s.jobs.length]? = some b) (hd : b.todo = [])
    (url : Str) :
    s'.keys.load url = (latest url (succeeded (fetchesOf s.jobs.length s'.log))).or (s.keys.load url) := by
  have hK : JwkKeysInv s := jwkRun_ind (fun _ _ _ => jwkKeysInv_step) (fun url => rfl) h
  have hK' : JwkKeysInv s' := jwkRun_ind (fun _ _ _ => jwkKeysInv_step) hK h'
  have hJ : JwkJobsInv cfg s := jwkRun_ind (fun _ _ _ => jwkJobsInv_step) ⟨by intro j b hb; simp [jwkInit] at hb, fun _ _ => rfl⟩ h
  simp only [jwkRun, jwkStep] at h'
  have hA : JwkAloneInv s s.jobs.length s' := by
    refine jwkAloneInv_run ⟨?_, [], by simp, rfl, ⟨cfg.targets, none, []⟩, by simp, by simp [okFetches, stores, JwkJob.pending]⟩ hn h'
    intro i c hc hne
    rcases getElem?_append_cases hc with hc | ⟨hj, _⟩
    · exact idle_getElem hid hc
    · exact absurd hj hne
  obtain ⟨_, ev, hlog, hok, b', hb', hp⟩ := hA
  rw [hb] at hb'
  simp only [Option.some.injEq] at hb'
  subst hb'
  have hpend : b.pending = [] := by simp [JwkJob.pending, hd]
  rw [hpend, List.append_nil, hok] at hp
  rw [hK' url, hK url, hlog, stores_append, latest_append, fetchesOf_append, hJ.2 _ (Nat.le_refl _), List.nil_append, hp]

/-- **C30**, effect of overlapping updates: at any time the set of a URL is the one stored last, and an update stores exactly what it fetched. -/
theorem C30_last_store (cfg : JwkCfg) (acts : List JwkAct) (s : JwkState) (h : jwkRun cfg jwkInit acts = some s) :
    (∀ url, s.keys.load url = latest url (stores s.log)) ∧
    ∀ j url set, .stored j url set ∈ s.log → .fetched j url (some set) ∈ s.log ∧ ConfiguredURL cfg url :=
  ⟨jwkRun_ind (P := JwkKeysInv) (fun _ _ _ => jwkKeysInv_step) (fun url => rfl) h,
    fun j url set hm =>
      let ⟨h1, h2⟩ := (jwkRun_ind (P := JwkStoredInv cfg) (fun _ _ _ => jwkStoredInv_step) (by simp [JwkStoredInv, jwkInit]) h).1 j url set hm
      ⟨h1, mem_targets.mp h2⟩⟩

/-- The second of the two updates of `Ex.jkSeq`: it fails for the Athenz URL, whose keys stay, and replaces the keys of "u" and "v". -/
example : ∃ s s' b, jwkRun Ex.jkCfg jwkInit (Ex.jkSeq.take 6) = some s ∧ Idle s ∧ jwkRun Ex.jkCfg s (.update :: Ex.jkSeq.drop 7) = some s' ∧
    .update ∉ Ex.jkSeq.drop 7 ∧ s'.jobs[s.jobs.length]? = some b ∧ b.todo = [] ∧ b.result = some true ∧
    s'.keys.load "athenz".toList = some Ex.jkA ∧ s.keys.load "u".toList = some Ex.jkA ∧ s'.keys.load "u".toList = some Ex.jkB ∧
    s.keys.load "v".toList = none ∧ s'.keys.load "v".toList = some Ex.jkA := by
  obtain ⟨s, hs, hp⟩ := Ex.exists_of_map (o := jwkRun Ex.jkCfg jwkInit (Ex.jkSeq.take 6))
    (p := fun s => Ex.idleCheck s && decide (s.keys.load "u".toList = some Ex.jkA) && decide (s.keys.load "v".toList = none) &&
      (match jwkRun Ex.jkCfg s (.update :: Ex.jkSeq.drop 7) with
        | some s' => (match s'.jobs[s.jobs.length]? with
          | some b => decide (b.todo = []) && decide (b.result = some true)
          | none => false) && decide (s'.keys.load "athenz".toList = some Ex.jkA) && decide (s'.keys.load "u".toList = some Ex.jkB) &&
            decide (s'.keys.load "v".toList = some Ex.jkA)
        | none => false)) (by decide +kernel)
  simp only [Bool.and_eq_true, decide_eq_true_eq] at hp
  obtain ⟨⟨⟨h1, h2⟩, h3⟩, h4⟩ := hp
  split at h4
  · rename_i s' hs'
    simp only [Bool.and_eq_true, decide_eq_true_eq] at h4
    obtain ⟨⟨⟨h5, h6⟩, h7⟩, h8⟩ := h4
    split at h5
    · rename_i b hb
      simp only [Bool.and_eq_true, decide_eq_true_eq] at h5
      refine ⟨s, s', b, hs, Ex.idle_of_check h1, hs', ?_, hb, h5.1, h5.2, h6, h2, h7, h3, h8⟩
      simp [Ex.jkSeq]
    · simp at h5
  · simp at h4

end Athenz
