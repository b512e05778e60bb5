import Verif.Spec.NewError
import Verif.Props.Options

/-! # C57: the error of New -/

namespace Athenz

open Spec

/-- `x` is `v` if all demands are met, and else the error of the first that is not. -/
structure Checks {α : Type} (x : Res α) (l : List Demand) (v : α) : Prop where
  ok : (∀ d ∈ l, d.1) → x = .ok v
  bad : ∀ e, FirstUnmet l e → x = .err e

theorem FirstUnmet.append {l l' : List Demand} {e : Err} (h : FirstUnmet (l ++ l') e) : FirstUnmet l e ∨ ((∀ d ∈ l, d.1) ∧ FirstUnmet l' e) := by
  obtain ⟨pre, p, post, he, hpre, hp⟩ := h
  rcases List.append_eq_append_iff.mp he with ⟨m, rfl, h2⟩ | ⟨m, rfl, h2⟩
  · exact .inr ⟨fun d hd => hpre d (List.mem_append_left _ hd), m, p, post, h2, fun d hd => hpre d (List.mem_append_right _ hd), hp⟩
  · cases m with
    | nil => exact .inr ⟨fun d hd => hpre d (by simpa using hd), [], p, post, by simpa using h2.symm, by simp, hp⟩
    | cons x m =>
      simp only [List.cons_append, List.cons.injEq] at h2
      obtain ⟨rfl, rfl⟩ := h2
      exact .inl ⟨pre, p, m, rfl, hpre, hp⟩

/-- Either all are met or there is a first that is not. -/
theorem unmet_or (l : List Demand) : (∀ d ∈ l, d.1) ∨ ∃ e, FirstUnmet l e := by
  induction l with
  | nil => exact .inl (by simp)
  | cons d l ih =>
    by_cases h : d.1
    · rcases ih with ih | ⟨e, pre, p, post, rfl, h1, h2⟩
      · exact .inl (by simpa [h] using ih)
      · exact .inr ⟨e, d :: pre, p, post, rfl, by simpa [h] using h1, h2⟩
    · exact .inr ⟨d.2, [], d.1, l, rfl, by simp, h⟩

theorem Checks.pure {α : Type} (v : α) : Checks (.ok v) [] v :=
  ⟨fun _ => rfl, by rintro e ⟨pre, p, post, h, _⟩; simp at h⟩

theorem Checks.bind {α β : Type} {x : Res α} {f : α → Res β} {l l' : List Demand} {v : α} {w : β} (h : Checks x l v)
    (h' : Checks (f v) l' w) : Checks (x >>= f) (l ++ l') w := by
  constructor
  · intro hd
    show Res.bind x f = _
    rw [h.ok fun d hm => hd d (List.mem_append_left _ hm)]
    exact h'.ok fun d hm => hd d (List.mem_append_right _ hm)
  · intro e he
    show Res.bind x f = _
    rcases FirstUnmet.append he with he | ⟨h1, he⟩
    · rw [h.bad e he]; rfl
    · rw [h.ok h1]; exact h'.bad e he

theorem Checks.cons {O S : Type} {f : O → S → Res S} {o : O} {os : List O} {s s' v : S} {l l' : List Demand} (h : Checks (f o s) l s')
    (h' : Checks (applyAll f os s') l' v) : Checks (applyAll f (o :: os) s) (l ++ l') v := by
  have : applyAll f (o :: os) s = (f o s >>= applyAll f os) := by
    show _ = Res.bind _ _
    simp only [applyAll]
    cases f o s <;> rfl
  rw [this]
  exact h.bind h'

theorem Checks.when {α : Type} {x : Res α} {l : List Demand} {v : α} (b : Bool) (h : Checks x l v) :
    Checks (Res.when b x) (if b then l else []) (if b then some v else none) := by
  cases b with
  | false => exact .pure none
  | true =>
    constructor
    · intro hd
      simp only [Res.when, if_true]
      rw [h.ok hd]
    · intro e he
      simp only [Res.when, if_true]
      rw [h.bad e he]

theorem Checks.one {α : Type} {x : Res α} {v : α} {p : Prop} {e : Err} (h1 : p → x = .ok v) (h2 : ¬ p → x = .err e) : Checks x [(p, e)] v := by
  constructor
  · exact fun hd => h1 (hd (p, e) (by simp))
  · rintro e' ⟨pre, q, post, he, _, hq⟩
    cases pre with
    | nil =>
      simp only [List.nil_append, List.cons.injEq, Prod.mk.injEq] at he
      obtain ⟨⟨rfl, rfl⟩, _⟩ := he
      exact h2 hq
    | cons d pre => simp at he

theorem Checks.dur {S : Type} (F : NewFns) (t : Str) (old : Int) (w : String) (k : Int → S) :
    Checks ((setDur F t old w).bind fun d => .ok (k d)) [aDur F t w] (k (durOf F t old)) := by
  refine .one (fun h => (bindDur F t old w k _).mpr ⟨h, rfl⟩) fun h => ?_
  unfold DurOk at h
  unfold setDur
  have h1 : t ≠ [] := fun h0 => h (.inl h0)
  rw [if_neg h1]
  cases hp : parseDuration F.frac t with
  | none => rfl
  | some d => exact absurd (.inr ⟨d, hp⟩) h

theorem Checks.urls (F : NewFns) (us : List Str) : Checks (checkURLs F us) (us.flatMap (keyURLs F)) () := by
  induction us with
  | nil => exact .pure ()
  | cons u us ih =>
    rw [List.flatMap_cons]
    have h0 : checkURLs F (u :: us) = ((match F.uriScheme u with | none => Res.err (.other "parse URL") | some _ => .ok ()) >>= fun _ =>
        ((if F.uriScheme u ≠ some "http".toList ∧ F.uriScheme u ≠ some "https".toList then .err .unsupportedScheme else .ok ()) >>= fun _ =>
          checkURLs F us)) := by
      show _ = Res.bind _ fun _ => Res.bind _ fun _ => _
      simp only [checkURLs]
      cases F.uriScheme u with
      | none => rfl
      | some sch =>
        simp only [Option.some.injEq, ne_eq, Res.bind]
        split <;> rfl
    rw [h0]
    refine Checks.bind (l := [_]) (v := ()) (.one ?_ ?_) (Checks.bind (l := [_]) (v := ()) (.one ?_ ?_) ih)
    · intro h
      cases hs : F.uriScheme u with
      | none => exact absurd hs h
      | some s => rfl
    · intro h
      rw [Classical.not_not.mp h]
    · intro h
      rw [if_neg]
      rintro ⟨h1, h2⟩
      rcases h with h | h
      · exact h1 h
      · exact h2 h
    · intro h
      rw [if_pos]
      exact ⟨fun h1 => h (.inl h1), fun h1 => h (.inr h1)⟩

/-- One more option in front, with its demands. -/
theorem checks_cons {O S : Type} {f : O → S → Res S} {o : O} {os : List O} {l l' : List Demand} (h : ∀ s, ∃ s', Checks (f o s) l s')
    (h' : ∀ s, ∃ v, Checks (applyAll f os s) l' v) (s : S) : ∃ v, Checks (applyAll f (o :: os) s) (l ++ l') v := by
  obtain ⟨s', h1⟩ := h s
  obtain ⟨v, h2⟩ := h' s'
  exact ⟨v, h1.cons h2⟩

/-- An option that never fails. -/
theorem checks_cons0 {O S : Type} {f : O → S → Res S} {o : O} {os : List O} {l : List Demand} (h : ∀ s, ∃ s', f o s = .ok s')
    (h' : ∀ s, ∃ v, Checks (applyAll f os s) l v) (s : S) : ∃ v, Checks (applyAll f (o :: os) s) l v :=
  checks_cons (l := []) (fun s => by
    obtain ⟨s', h1⟩ := h s
    rw [h1]
    exact ⟨s', .pure s'⟩) h' s

/-- An option with one demand. -/
theorem checks_cons1 {O S : Type} {f : O → S → Res S} {o : O} {os : List O} {d : Demand} {l : List Demand} (h : ∀ s, ∃ s', Checks (f o s) [d] s')
    (h' : ∀ s, ∃ v, Checks (applyAll f os s) l v) (s : S) : ∃ v, Checks (applyAll f (o :: os) s) (d :: l) v :=
  checks_cons (l := [d]) h h' s

theorem checks_nil {O S : Type} {f : O → S → Res S} (s : S) : ∃ v, Checks (applyAll f [] s) [] v := ⟨s, .pure s⟩

theorem pk_checks (F : NewFns) (a : Settings) (hu : athenzURL a.athenzURL = .ok a.athenzURL) : ∃ v, Checks (pkNew F a.pkOpts)
    [aDur F a.pubkeyETagExpiry "invalid ETag expiry time", aDur F a.pubkeyETagPurgePeriod "invalid ETag purge period",
      aDur F a.pubkeyRefreshPeriod "invalid refresh period", aDur F a.pubkeyRetryDelay "invalid retry delay"] v := by
  rw [pkNew_defaults]
  unfold Settings.pkOpts
  refine checks_cons0 (fun q => ?_) (checks_cons0 (fun q => ?_) (checks_cons1 (fun q => ⟨_, Checks.dur F _ _ _ _⟩) (checks_cons1 (fun q => ⟨_, Checks.dur F _ _ _ _⟩)
    (checks_cons1 (fun q => ⟨_, Checks.dur F _ _ _ _⟩) (checks_cons1 (fun q => ⟨_, Checks.dur F _ _ _ _⟩) (checks_cons0 (fun q => ?_) checks_nil)))))) _
  · simp only [PkOpt.apply, hu, Res.bind]; exact ⟨_, rfl⟩
  · simp only [PkOpt.apply]; split <;> exact ⟨_, rfl⟩
  · simp only [PkOpt.apply]; first | exact ⟨_, rfl⟩ | (split <;> exact ⟨_, rfl⟩)

theorem pd_checks (F : NewFns) (a : Settings) (hu : athenzURL a.athenzURL = .ok a.athenzURL) (k : Bool) : ∃ v, Checks (pdNew F (a.pdOpts k))
    [aDur F a.policyExpiryMargin "invalid expiry margin", aDur F a.policyRefreshPeriod "invalid refresh period",
      aDur F a.policyPurgePeriod "invalid purge period", aDur F a.policyRetryDelay "invalid retry delay"] v := by
  rw [pdNew_defaults]
  unfold Settings.pdOpts
  refine checks_cons0 (fun q => ?_) (checks_cons0 (fun q => ?_) (checks_cons1 (fun q => ⟨_, Checks.dur F _ _ _ _⟩) (checks_cons1 (fun q => ⟨_, Checks.dur F _ _ _ _⟩)
    (checks_cons1 (fun q => ⟨_, Checks.dur F _ _ _ _⟩) (checks_cons1 (fun q => ⟨_, Checks.dur F _ _ _ _⟩) (checks_cons0 (fun q => ?_) (checks_cons0 (fun q => ?_)
    (checks_cons0 (fun q => ?_) checks_nil)))))))) _
  · simp only [PdOpt.apply, hu, Res.bind]; exact ⟨_, rfl⟩
  all_goals simp only [PdOpt.apply]; first | exact ⟨_, rfl⟩ | (split <;> exact ⟨_, rfl⟩)

theorem jw_checks (F : NewFns) (a : Settings) (hu : athenzURL a.athenzURL = .ok a.athenzURL) : ∃ v, Checks (jwNew F a.jwOpts)
    ([(a.athenzURL ≠ [], .emptyAthenzJwksURL), aDur F a.jwkRefreshPeriod "invalid refresh period", aDur F a.jwkRetryDelay "invalid retry delay"] ++
      a.jwkURLs.flatMap (keyURLs F)) v := by
  rw [jwNew_defaults]
  unfold Settings.jwOpts
  have hj := athenzJwksURL_of a.athenzURL hu
  rw [← List.append_nil (a.jwkURLs.flatMap (keyURLs F))]
  refine checks_cons1 (fun q => ⟨{ q with athenzJwksURL := "https://".toList ++ a.athenzURL ++ "/oauth2/keys?rfc=true".toList }, ?_⟩) (checks_cons1 (fun q => ⟨_, Checks.dur F _ _ _ _⟩)
    (checks_cons1 (fun q => ⟨_, Checks.dur F _ _ _ _⟩) (checks_cons (fun q => ⟨{ q with urls := a.jwkURLs }, ?_⟩) (checks_cons0 (fun q => ?_) checks_nil)))) _
  · simp only [JwOpt.apply, hj]
    refine .one (fun h => ?_) fun h => ?_
    · rw [if_neg h]; rfl
    · rw [if_pos (Classical.not_not.mp h)]; rfl
  · have := (Checks.urls F a.jwkURLs).bind (f := fun _ => .ok { q with urls := a.jwkURLs }) (Checks.pure _)
    rw [List.append_nil] at this
    exact this
  · simp only [JwOpt.apply]; first | exact ⟨_, rfl⟩ | (split <;> exact ⟨_, rfl⟩)

theorem Checks.secs (F : NewFns) (t : Str) (q : AtSettings) (k : Int → AtSettings) (w : String) :
    ∃ v, Checks (if t = [] then .ok q else match parseDuration F.frac t with | some d => .ok (k d) | none => .err (.other w)) [aDur F t w] v := by
  by_cases h : t = []
  · rw [if_pos h]
    exact ⟨_, .one (fun _ => rfl) fun hn => absurd (.inl h) hn⟩
  · rw [if_neg h]
    cases hp : parseDuration F.frac t with
    | none =>
      refine ⟨q, .one (fun hn => ?_) fun _ => rfl⟩
      rcases hn with hn | ⟨d, hn⟩
      · exact absurd hn h
      · rw [hp] at hn; simp at hn
    | some d => exact ⟨_, .one (fun _ => rfl) fun hn => absurd (.inr ⟨d, hp⟩) hn⟩

theorem at_checks (F : NewFns) (a : Settings) (k : Bool) : ∃ v, Checks (atNew F (a.atOpts k))
    [aDur F a.accessTokenParam.certBackdateDur "invalid refresh period", aDur F a.accessTokenParam.certOffsetDur "invalid offset duration"] v := by
  unfold Settings.atOpts atNew
  exact checks_cons0 (fun q => ⟨_, rfl⟩) (checks_cons0 (fun q => ⟨_, rfl⟩) (checks_cons0 (fun q => ⟨_, rfl⟩) (checks_cons0 (fun q => ⟨_, rfl⟩)
    (checks_cons1 (fun q => Checks.secs F _ q _ _) (checks_cons1 (fun q => Checks.secs F _ q _ _) checks_nil))))) _

theorem athenzURL_cases (url : Str) : (∃ u, athenzURL url = .ok u) ∨ athenzURL url = .err .unsupportedScheme := by
  unfold athenzURL
  dsimp only
  split
  · exact .inr rfl
  · exact .inl ⟨_, rfl⟩

/-- An unacceptable URL is the only thing that an option of `New` complains about. -/
theorem settings_err (opts : List Opt) (h : ¬ URLsOk opts) : settings opts = .err .unsupportedScheme := by
  have key : ∀ (os : List Opt) (s : Settings), (∃ a, applyAll Opt.apply os s = .ok a) ∨ applyAll Opt.apply os s = .err .unsupportedScheme := by
    intro os
    induction os with
    | nil => exact fun s => .inl ⟨s, rfl⟩
    | cons o os ih =>
      intro s
      have h1 : (∃ s', Opt.apply o s = .ok s') ∨ Opt.apply o s = .err .unsupportedScheme := by
        cases o
        case athenzURL url =>
          simp only [Opt.apply]
          rcases athenzURL_cases url with ⟨u, hu⟩ | hu
          · rw [hu]; exact .inl ⟨_, rfl⟩
          · rw [hu]; exact .inr rfl
        case httpClient c => cases c <;> exact .inl ⟨_, rfl⟩
        all_goals exact .inl ⟨_, rfl⟩
      simp only [applyAll]
      rcases h1 with ⟨s', h1⟩ | h1
      · rw [h1]; exact ih s'
      · rw [h1]; exact .inr rfl
  rcases key (defaultOpts ++ opts) zeroSettings with h1 | h1
  · exact absurd ((settings_ok_iff opts).mp h1) h
  · exact h1

theorem flag_list (b : Bool) (l : List Demand) : (if (!b) = true then l else []) = if b = true then [] else l := by cases b <;> rfl

/-- **C57**.  If `New` does not succeed it returns the error of the first demand that is not met. -/
theorem C57_error (F : NewFns) (opts : List Opt) (e : Err) : newAuthority F opts = .err e ↔ FirstUnmet (demands F opts) e := by
  have key : ∃ v, Checks (newAuthority F opts) (demands F opts) v := by
    by_cases hok : URLsOk opts
    · have hset : settings opts = .ok (settingsOf opts) := (C57_settings opts _).mpr ⟨hok, rfl⟩
      have hu := settings_url opts _ hset
      have h0 : Checks (settings opts) [(URLsOk opts, .unsupportedScheme)] (settingsOf opts) := .one (fun _ => hset) fun h => absurd hok h
      unfold demands newAuthority
      generalize settingsOf opts = a at *
      obtain ⟨v1, h1⟩ := pk_checks F a hu
      have h1 := Checks.when (!a.disablePubkeyd) h1
      generalize (if (!a.disablePubkeyd) = true then some v1 else none) = w1 at h1
      obtain ⟨v2, h2⟩ := pd_checks F a hu w1.isSome
      have h2 := Checks.when (!a.disablePolicyd) h2
      obtain ⟨v3, h3⟩ := jw_checks F a hu
      have h3 := Checks.when (!a.disableJwkd) h3
      generalize (if (!a.disableJwkd) = true then some v3 else none) = w3 at h3
      have h4 := Checks.when a.enableRoleToken (Checks.pure w1.isSome)
      obtain ⟨v5, h5⟩ := at_checks F a w3.isSome
      have h5 := Checks.when a.accessTokenParam.enable h5
      have h6 : ∀ b : Built, Checks (if a.enableRoleCert = false ∧ a.accessTokenParam.enable = false ∧ a.enableRoleToken = false
          then .err (.other "error no authorizers") else .ok b)
          [(a.enableRoleCert = true ∨ a.accessTokenParam.enable = true ∨ a.enableRoleToken = true, .other "error no authorizers")] b := by
        intro b
        refine .one (fun h => ?_) fun h => ?_
        · rw [if_neg]
          rintro ⟨g1, g2, g3⟩
          rw [g1, g2, g3] at h
          simp at h
        · rw [if_pos]
          simpa only [not_or, Bool.not_eq_true] using h
      rw [show (if a.enableRoleToken = true then ([] : List Demand) else []) = [] from by split <;> rfl] at h4
      simp only [List.append_assoc, ← flag_list]
      exact ⟨_, h0.bind (h1.bind (h2.bind (h3.bind (Checks.bind (l := []) h4 (h5.bind (h6 _))))))⟩
    · refine ⟨builtOf F (settingsOf opts), fun h => absurd (h (URLsOk opts, .unsupportedScheme) (by simp [demands])) hok, fun e he => ?_⟩
      have hs := settings_err opts hok
      have : e = .unsupportedScheme := by
        unfold demands at he
        dsimp only at he
        rw [List.append_assoc, List.append_assoc, List.append_assoc, List.append_assoc] at he
        rcases FirstUnmet.append he with he | ⟨h1, _⟩
        · have h1 : Checks (α := Unit) (.err .unsupportedScheme) [(URLsOk opts, .unsupportedScheme)] () := .one (fun h => absurd h hok) fun _ => rfl
          have := h1.bad e he
          simpa using this.symm
        · exact absurd (h1 (URLsOk opts, .unsupportedScheme) (by simp)) hok
      rw [this]
      unfold newAuthority
      rw [hs]
      rfl
  obtain ⟨v, hv⟩ := key
  constructor
  · intro h
    rcases unmet_or (demands F opts) with hall | ⟨e', he'⟩
    · rw [hv.ok hall] at h; simp at h
    · rw [hv.bad e' he'] at h
      simp only [Res.err.injEq] at h
      exact h ▸ he'
  · exact hv.bad e

/-- Two settings are bad: the error is that of the first daemon. -/
example : newAuthority Ex.newFns [.jwkRetryDelay "later".toList, .policyRefreshPeriod "soon".toList] = .err (.other "invalid refresh period") := by
  rw [C57_error]
  have he : DurOk Ex.newFns [] := .inl rfl
  have hs : ¬ DurOk Ex.newFns "soon".toList := by
    rintro (h | ⟨d, h⟩)
    · simp at h
    · have : parseDuration Ex.newFns.frac "soon".toList = none := by decide +kernel
      rw [this] at h
      simp at h
  refine ⟨[(_, _), aDur Ex.newFns [] _, aDur Ex.newFns [] _, aDur Ex.newFns [] _, aDur Ex.newFns [] _, aDur Ex.newFns [] _], _, _, rfl, ?_, hs⟩
  simp only [List.mem_cons, List.not_mem_nil, or_false]
  rintro d (rfl | rfl | rfl | rfl | rfl | rfl)
  · intro url hm
    simp only [List.mem_cons, reduceCtorEq, List.not_mem_nil, or_false] at hm
  all_goals exact he

end Athenz
