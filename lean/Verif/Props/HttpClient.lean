import Verif.Props.Options

/-! # C61: the daemons have an HTTP client -/

namespace Athenz
open Spec

/-- The client that an option gives, where nil counts as given. -/
def Spec.pkClientOf : PkOpt → Option (Option HClient) | .httpClient c => some c | _ => none
/-- The same for the key set daemon. -/
def Spec.jwClientOf : JwOpt → Option (Option HClient) | .httpClient c => some c | _ => none
/-- The client that an option gives, where nil does not count. -/
def Spec.pdClientOf : PdOpt → Option HClient | .httpClient (some c) => some c | _ => none

/-- The full statement of C61: a daemon that its constructor returned has a client. -/
def C61_statement : Prop :=
  (∀ F opts p, pkNew F opts = .ok p → p.client.isSome = true) ∧ (∀ F opts p, pdNew F opts = .ok p → p.client.isSome = true) ∧
  (∀ F opts p, jwNew F opts = .ok p → p.client.isSome = true) ∧
  ∀ F opts b, newAuthority F opts = .ok b → (∀ p, b.pubkeyd = some p → p.client.isSome = true) ∧ (∀ p, b.policyd = some p → p.client.isSome = true) ∧
    ∀ p, b.jwkd = some p → p.client.isSome = true

theorem Res.dotbind_ok {α β : Type} {x : Res α} {f : α → Res β} {b : β} (h : x.bind f = .ok b) : ∃ a, x = .ok a ∧ f a = .ok b :=
  (Res.bind_eq_ok x f b).mp h

/-- **C61**.  The policy daemon has the client given last, or Go's default client, never nil. -/
theorem C61_policy_partial (F : NewFns) (opts : List PdOpt) (p : PdSettings) (h : pdNew F opts = .ok p) :
    p.client = some (lastSet pdClientOf opts .goDefault) := by
  rw [pdNew_defaults] at h
  have := applyAll_last (f := PdOpt.apply F) (fun s : PdSettings => s.client) (fun o => (pdClientOf o).map some) ?_ opts _ _ h
  · simp only at this
    rw [this]
    exact lastSet_map pdClientOf some opts .goDefault
  · intro o s s' hs
    cases o <;> simp only [PdOpt.apply] at hs
    case httpClient c => cases c <;> (simp only [Res.ok.injEq] at hs; rw [← hs]; rfl)
    case pubKeyProvider b => split at hs <;> (simp only [Res.ok.injEq] at hs; rw [← hs]; rfl)
    case athenzDomains ds => cases ds <;> (simp only [Res.ok.injEq] at hs; rw [← hs]; rfl)
    case retryAttempts n => split at hs <;> (simp only [Res.ok.injEq] at hs; rw [← hs]; rfl)
    all_goals (obtain ⟨d, _, hs⟩ := Res.dotbind_ok hs; simp only [Res.ok.injEq] at hs; rw [← hs]; rfl)

/-- **C61**.  The public key daemon has what was given last, also if that is nil. -/
theorem C61_pubkey_partial (F : NewFns) (opts : List PkOpt) (p : PkSettings) (h : pkNew F opts = .ok p) :
    p.client = lastSet pkClientOf opts (some .zero) := by
  rw [pkNew_defaults] at h
  refine applyAll_last (f := PkOpt.apply F) (fun s : PkSettings => s.client) pkClientOf ?_ opts _ _ h
  intro o s s' hs
  cases o <;> simp only [PkOpt.apply] at hs
  case httpClient c => simp only [Res.ok.injEq] at hs; rw [← hs]; rfl
  case sysAuthDomain d => split at hs <;> (simp only [Res.ok.injEq] at hs; rw [← hs]; rfl)
  all_goals (obtain ⟨d, _, hs⟩ := Res.dotbind_ok hs; simp only [Res.ok.injEq] at hs; rw [← hs]; rfl)

/-- **C61**.  So does the key set daemon. -/
theorem C61_jwk_partial (F : NewFns) (opts : List JwOpt) (p : JwSettings) (h : jwNew F opts = .ok p) :
    p.client = lastSet jwClientOf opts (some .goDefault) := by
  rw [jwNew_defaults] at h
  refine applyAll_last (f := JwOpt.apply F) (fun s : JwSettings => s.client) jwClientOf ?_ opts _ _ h
  intro o s s' hs
  cases o <;> simp only [JwOpt.apply] at hs
  case httpClient c => simp only [Res.ok.injEq] at hs; rw [← hs]; rfl
  all_goals (obtain ⟨d, _, hs⟩ := Res.dotbind_ok hs; simp only [Res.ok.injEq] at hs; rw [← hs]; rfl)

/-- **C61**.  Behind `authorizerd.New` no daemon is without client, and all have the same: the one given last, or the one with a timeout of
thirty seconds, which is also what nil means. -/
theorem C61_new_partial (F : NewFns) (opts : List Opt) (b : Built) (h : newAuthority F opts = .ok b) :
    (∀ p, b.pubkeyd = some p → p.client = some (lastSet clientOf opts .timeout30)) ∧
    (∀ p, b.policyd = some p → p.client = some (lastSet clientOf opts .timeout30)) ∧
    ∀ p, b.jwkd = some p → p.client = some (lastSet clientOf opts .timeout30) := by
  obtain ⟨_, _, rfl⟩ := (C57_new F opts b).mp h
  have hc : (settingsOf opts).client = some (lastSet clientOf opts .timeout30) := rfl
  rw [← hc]
  generalize settingsOf opts = a
  unfold builtOf
  refine ⟨?_, ?_, ?_⟩
  · intro p hp
    simp only at hp
    split at hp
    · cases hp
    · simp only [Option.some.injEq] at hp; rw [← hp]
  · intro p hp
    simp only at hp
    split at hp
    · cases hp
    · simp only [Option.some.injEq] at hp; rw [← hp]
  · intro p hp
    simp only at hp
    split at hp
    · cases hp
    · simp only [Option.some.injEq] at hp; rw [← hp]

/-- The full statement of **C61** is false: `pubkey.New(pubkey.WithHTTPClient(nil))` and `jwk.New(jwk.WithHTTPClient(nil))` return daemons
without client. -/
theorem C61_refuted : ¬ C61_statement ∧ ∃ p, jwNew Ex.newFns [.httpClient none] = .ok p ∧ p.client = none := by
  constructor
  · rintro ⟨h, _⟩
    have hb : ∃ p, pkNew Ex.newFns [.httpClient none] = .ok p := by rw [pkNew_defaults]; exact ⟨_, rfl⟩
    obtain ⟨p, hp⟩ := hb
    have h1 := h _ _ p hp
    rw [C61_pubkey_partial _ _ p hp] at h1
    cases h1
  · have hb : ∃ p, jwNew Ex.newFns [.httpClient none] = .ok p := by rw [jwNew_defaults]; exact ⟨_, rfl⟩
    obtain ⟨p, hp⟩ := hb
    exact ⟨p, hp, C61_jwk_partial _ _ p hp⟩

/-- A client, then nil: the policy daemon keeps the client, the others drop it. -/
example : (∃ p, pdNew Ex.newFns [.httpClient (some (.given 1)), .httpClient none] = .ok p ∧ p.client = some (.given 1)) ∧
    ∃ p, pkNew Ex.newFns [.httpClient (some (.given 1)), .httpClient none] = .ok p ∧ p.client = none := by
  constructor
  · have hb : ∃ p, pdNew Ex.newFns [.httpClient (some (.given 1)), .httpClient none] = .ok p := by rw [pdNew_defaults]; exact ⟨_, rfl⟩
    obtain ⟨p, hp⟩ := hb
    exact ⟨p, hp, C61_policy_partial _ _ p hp⟩
  · have hb : ∃ p, pkNew Ex.newFns [.httpClient (some (.given 1)), .httpClient none] = .ok p := by rw [pkNew_defaults]; exact ⟨_, rfl⟩
    obtain ⟨p, hp⟩ := hb
    exact ⟨p, hp, C61_pubkey_partial _ _ p hp⟩

end Athenz
