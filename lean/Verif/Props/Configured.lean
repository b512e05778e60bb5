import Verif.Model.Configured
import Verif.Spec.Configured
import Verif.Props.Options
import Verif.Props.Fetch

/-! # C100: what the settings of the policy fetch come to on the wire -/

namespace Athenz
open Spec

theorem lastSet_given {O α : Type} (f : O → Option α) (opts : List O) (d : α) : lastSet f opts d = (lastGiven f opts).getD d := rfl

theorem policyd_of_new {F : NewFns} {opts : List Opt} {b : Built} {p : PdSettings} (hb : newAuthority F opts = .ok b) (hp : b.policyd = some p) :
    p.retryAttempts = (if lastSet policyAttemptsOf opts 0 = 0 then 2 else lastSet policyAttemptsOf opts 0) ∧
    p.expiryMargin = durOf F (lastSet policyMarginOf opts []) (3 * hour) ∧ DurOk F (lastSet policyMarginOf opts []) := by
  obtain ⟨_, hacc, rfl⟩ := (C57_new F opts b).mp hb
  simp only [builtOf] at hp
  split at hp
  · cases hp
  · rename_i hd
    simp only [Option.some.injEq] at hp
    subst hp
    exact ⟨rfl, rfl, (hacc.policyd (by simpa using hd)).1⟩

theorem givesUpAfter (cfg : FetchCfg) (n : Nat) (hn : max 0 (1 + cfg.retryAttempts) = n) : GivesUpAfter cfg n := by
  intro now keys h s hr j pc hc
  have hq : requestsOf s j = (s.reqs.filter fun p => p.1 == j).length := by
    unfold requestsOf
    rw [List.countP_eq_length_filter]
    congr 1
  rw [hq]
  have h1 := C18_bounded cfg now keys h s hr j _ hc
  simp only [if_true] at h1
  refine ⟨by omega, ?_⟩
  rintro sp e rfl
  have := (C18_fallback cfg now keys h s hr j _ hc rfl sp e rfl).1
  omega

/-- **C100**, the part that holds: a number of retries other than 0 counts, a failed fetch sends one request more than it. -/
theorem C100_attempts_partial (F : NewFns) (opts : List Opt) (b : Built) (p : PdSettings) (C : Codec) (hb : newAuthority F opts = .ok b)
    (hp : b.policyd = some p) (n : Nat) (hn : lastGiven policyAttemptsOf opts = some (n : Int)) (h0 : n ≠ 0) :
    GivesUpAfter (p.fetchCfg C) (n + 1) := by
  have h := (policyd_of_new hb hp).1
  rw [lastSet_given, hn, Option.getD_some, if_neg (by omega)] at h
  exact givesUpAfter _ _ (by show max 0 (1 + p.retryAttempts) = _; rw [h]; omega)

/-- **C100**.  Without a number of retries, or with 0, a failed fetch sends three requests. -/
theorem C100_default (F : NewFns) (opts : List Opt) (b : Built) (p : PdSettings) (C : Codec) (hb : newAuthority F opts = .ok b)
    (hp : b.policyd = some p) (hn : lastGiven policyAttemptsOf opts = none ∨ lastGiven policyAttemptsOf opts = some 0) :
    GivesUpAfter (p.fetchCfg C) 3 := by
  have h := (policyd_of_new hb hp).1
  have h0 : lastSet policyAttemptsOf opts 0 = 0 := by rw [lastSet_given]; rcases hn with hn | hn <;> rw [hn] <;> rfl
  rw [if_pos h0] at h
  exact givesUpAfter _ _ (by show max 0 (1 + p.retryAttempts) = _; rw [h]; rfl)

/-- The part of the state that a fetcher without any attempts never leaves. -/
def SilentSoFar (s : FState) : Prop :=
  s.reqs = [] ∧ s.cache = none ∧ ∀ c ∈ s.calls, c.retry = true ∧ (c.pc = .loop (-1) none ∨ ∃ e, c.pc = .ret none (some e))

theorem silent_step {cfg : FetchCfg} (ha : cfg.retryAttempts < 0) {s s' : FState} {a : FAct} (hI : SilentSoFar s)
    (hc : a ≠ .call false) (hs : fStep cfg s a = some s') : SilentSoFar s' := by
  obtain ⟨h1, h2, h3⟩ := hI
  have hget : ∀ {j : Nat} {c : FetchCall}, s.calls[j]? = some c → c.retry = true ∧ (c.pc = .loop (-1) none ∨ ∃ e, c.pc = .ret none (some e)) :=
    fun h => h3 _ (List.mem_of_getElem? h)
  unfold fStep at hs
  split at hs
  · simp at hs
  cases a with
  | tick d => simp only [Option.some.injEq] at hs; subst hs; exact ⟨h1, h2, h3⟩
  | setKeys k => simp only [Option.some.injEq] at hs; subst hs; exact ⟨h1, h2, h3⟩
  | call retry =>
    simp only [Option.some.injEq] at hs; subst hs
    refine ⟨h1, h2, ?_⟩
    intro c hcm
    simp only [List.mem_append, List.mem_singleton] at hcm
    rcases hcm with hcm | rfl
    · exact h3 c hcm
    · cases retry
      · exact absurd rfl hc
      · exact ⟨rfl, .inl rfl⟩
  | send j =>
    simp only at hs
    split at hs
    · rename_i retry i le hj
      obtain ⟨hr, hp | ⟨e, hp⟩⟩ := hget hj
      · simp only at hr
        simp only [FetchPc.loop.injEq] at hp
        rw [if_pos ⟨hr, by rw [hp.1]; omega⟩] at hs
        cases hs
      · cases hp
    · simp at hs
  | answer j r =>
    simp only at hs
    split at hs
    · rename_i retry i tp hj
      obtain ⟨_, hp | ⟨e, hp⟩⟩ := hget hj <;> cases hp
    · simp at hs
  | giveUp j =>
    simp only at hs
    split at hs
    · split at hs
      · simp at hs
      · simp only [Option.some.injEq] at hs; subst hs
        refine ⟨h1, h2, ?_⟩
        intro c hcm
        rcases List.mem_or_eq_of_mem_set hcm with hcm | rfl
        · exact h3 c hcm
        · exact ⟨rfl, .inr ⟨_, by rw [h2]; rfl⟩⟩
    · simp at hs

/-- **C100**.  A negative number of retries turns the fetch off: no request is ever sent, nothing is ever cached, and every
`FetchWithRetry` (the only call of the daemon) returns an error and no policy. -/
theorem C100_negative (F : NewFns) (opts : List Opt) (b : Built) (p : PdSettings) (C : Codec) (hb : newAuthority F opts = .ok b)
    (hp : b.policyd = some p) (n : Int) (hn : lastGiven policyAttemptsOf opts = some n) (h0 : n < 0) (now : Int) (keys : KeyProvider)
    (h : List FAct) (s : FState) (hc : .call false ∉ h) (hr : fRun (p.fetchCfg C) (fInit now keys) h = some s) :
    s.reqs = [] ∧ s.cache = none ∧ ∀ (j : Nat) (sp : Option SignedPolicy) (e : Option Err), s.calls[j]? = some ⟨true, .ret sp e⟩ → sp = none ∧ e ≠ none := by
  have ha := (policyd_of_new hb hp).1
  rw [lastSet_given, hn, Option.getD_some, if_neg (by omega)] at ha
  have hneg : (p.fetchCfg C).retryAttempts < 0 := by show p.retryAttempts < 0; omega
  have key : ∀ (h : List FAct) (s0 : FState), SilentSoFar s0 → .call false ∉ h → fRun (p.fetchCfg C) s0 h = some s → SilentSoFar s := by
    intro h
    induction h with
    | nil =>
      intro s0 hI _ hr
      simp only [fRun, Option.some.injEq] at hr
      exact hr ▸ hI
    | cons a as ih =>
      intro s0 hI hm hr
      simp only [List.mem_cons, not_or] at hm
      simp only [fRun] at hr
      split at hr
      · cases hr
      · rename_i s1 hs
        exact ih s1 (silent_step hneg hI (fun h => hm.1 h.symm) hs) hm.2 hr
  obtain ⟨h1, h2, h3⟩ := key h _ ⟨rfl, rfl, by simp [fInit]⟩ hc hr
  refine ⟨h1, h2, ?_⟩
  intro j sp e hj
  rcases (h3 _ (List.mem_of_getElem? hj)).2 with h | ⟨e', h⟩
  · cases h
  · simp only [FetchPc.ret.injEq] at h
    exact ⟨h.1, by rw [h.2]; exact nofun⟩

/-- **C100**.  The expiry margin that is given is the one on the wire: a request carries `If-None-Match: t` exactly if the policy last
downloaded came with the ETag `t` and has more than the margin left.  Without one it is three hours. -/
theorem C100_margin (F : NewFns) (opts : List Opt) (b : Built) (p : PdSettings) (C : Codec) (hb : newAuthority F opts = .ok b)
    (hp : b.policyd = some p) (m : Int)
    (hm : (lastSet policyMarginOf opts [] = [] ∧ m = 3 * hour) ∨
      ∃ t, lastGiven policyMarginOf opts = some t ∧ t ≠ [] ∧ parseDuration F.frac t = some m ∧ m ≠ -(2 ^ 63))
    (now : Int) (keys : KeyProvider) (h : List FAct) (s s' : FState) (hr : fRun (p.fetchCfg C) (fInit now keys) h = some s) (j : Nat)
    (hs : fStep (p.fetchCfg C) s (.send j) = some s') :
    ∃ inm, s'.reqs = s.reqs ++ [(j, inm)] ∧
      ∀ t, inm = some t ↔ ∃ sp d e, Spec.LastDownload (p.fetchCfg C) (fInit now keys) h (some (t, sp)) ∧ t ≠ [] ∧
        sp.data = some d ∧ d.expires = some e ∧ s.now < e - m := by
  have hx := (policyd_of_new hb hp).2.1
  have hpm : (p.fetchCfg C).expiryMargin = m ∧ IsInt64 m ∧ m ≠ -(2 ^ 63) := by
    rcases hm with ⟨h1, rfl⟩ | ⟨t, h1, h2, h3, h4⟩
    · refine ⟨?_, ?_, ?_⟩
      · show p.expiryMargin = _
        rw [hx, h1]; rfl
      · unfold IsInt64 hour minute second; omega
      · unfold hour minute second; omega
    · refine ⟨?_, parseDuration_int64 _ _ _ h3, h4⟩
      show p.expiryMargin = _
      rw [hx, lastSet_given, h1, Option.getD_some, durOf, if_neg h2, h3, Option.getD_some]
  obtain ⟨h1, h2, h3⟩ := hpm
  have := C17_if_none_match (p.fetchCfg C) (h1 ▸ h2) (h1 ▸ h3) now keys h s s' hr j hs
  rw [h1] at this
  exact this

/-- **C100** in full: the number of retries that is given is the one on the wire. -/
def C100_statement : Prop := ∀ (F : NewFns) (opts : List Opt) (b : Built) (p : PdSettings) (C : Codec), newAuthority F opts = .ok b →
  b.policyd = some p → ∀ n : Nat, lastGiven policyAttemptsOf opts = some (n : Int) → GivesUpAfter (p.fetchCfg C) (n + 1)

namespace Ex

/-- The defaults for all settings but the number of retries. -/
def cfOpts (n : Int) : List Opt := [.policyRetryAttempts 7, .policyRetryAttempts n]

theorem cfNew (n : Int) : newAuthority newFns (cfOpts n) = .ok (builtOf newFns (settingsOf (cfOpts n))) := by
  have he : DurOk newFns [] := .inl rfl
  have h1 : DurOk newFns "1h".toList :=
    (durOf_whole newFns "1".toList "h".toList 1 3600000000000 0 (by decide) (by decide) (by decide) (by decide)).1
  refine (C57_new _ _ _).mpr ⟨?_, ⟨fun _ => ⟨he, he, he, he⟩, fun _ => ⟨he, he, he, he⟩, fun _ => ⟨?_, he, he, ?_⟩, fun _ => ⟨h1, h1⟩, .inl rfl⟩, rfl⟩
  · intro url hm
    simp [cfOpts] at hm
  · show trimHTTPScheme "athenz.io/zts/v1".toList ≠ []
    decide +kernel
  · intro u hu
    cases hu

/-- The settings of the policy daemon. -/
def cfPd (n : Int) : PdSettings :=
  ⟨trimHTTPScheme "athenz.io/zts/v1".toList, [], 3 * hour, 30 * minute, hour, minute, if n = 0 then 2 else n, some .timeout30, true⟩

theorem cfPolicyd (n : Int) : (builtOf newFns (settingsOf (cfOpts n))).policyd = some (cfPd n) := rfl

def cfCodec : Codec := { marshalSigned := fun _ => none, marshalPolicy := fun _ => none, decode := fun _ => none }

/-- `k` failures, and the end. -/
def cfFails (k : Nat) : List FAct := .call true :: (List.replicate k [FAct.send 0, .answer 0 (.answer 500 [] [])]).flatten ++ [.giveUp 0]

/-- The state after `k` failures. -/
def cfEnd (n : Int) (k : Nat) : Option FState := fRun ((cfPd n).fetchCfg cfCodec) (fInit 0 fun _ _ => none) (cfFails k)

end Ex

/-- One cannot turn retries off: with `WithPolicyRetryAttempts(0)` a failed fetch sends three requests. -/
theorem C100_refuted : ¬ C100_statement := by
  intro h
  obtain ⟨s, hs, hp⟩ := Ex.exists_of_map (o := Ex.cfEnd 0 3)
    (p := fun s => decide (s.calls = [⟨true, .ret none (some .fetchPolicy)⟩]) && decide (requestsOf s 0 = 3)) (by decide +kernel)
  simp only [Bool.and_eq_true, decide_eq_true_eq] at hp
  have := (h Ex.newFns _ _ _ Ex.cfCodec (Ex.cfNew 0) (Ex.cfPolicyd 0) 0 rfl _ _ _ s hs 0 _ (by rw [hp.1]; rfl)).1
  rw [hp.2] at this
  omega

/-- With one retry the call gives up after two requests, though an earlier option said seven. -/
example : lastGiven policyAttemptsOf (Ex.cfOpts 1) = some ((1 : Nat) : Int) ∧ newAuthority Ex.newFns (Ex.cfOpts 1) = .ok (builtOf Ex.newFns (settingsOf (Ex.cfOpts 1))) ∧
    (builtOf Ex.newFns (settingsOf (Ex.cfOpts 1))).policyd = some (Ex.cfPd 1) ∧
    ∃ s, Ex.cfEnd 1 2 = some s ∧ s.calls = [⟨true, .ret none (some .fetchPolicy)⟩] ∧ requestsOf s 0 = 2 := by
  refine ⟨rfl, Ex.cfNew 1, Ex.cfPolicyd 1, ?_⟩
  obtain ⟨s, hs, hp⟩ := Ex.exists_of_map (o := Ex.cfEnd 1 2)
    (p := fun s => decide (s.calls = [⟨true, .ret none (some .fetchPolicy)⟩]) && decide (requestsOf s 0 = 2)) (by decide +kernel)
  simp only [Bool.and_eq_true, decide_eq_true_eq] at hp
  exact ⟨s, hs, hp⟩

/-- With −1 the call returns an error at once. -/
example : lastGiven policyAttemptsOf (Ex.cfOpts (-1)) = some (-1) ∧ (builtOf Ex.newFns (settingsOf (Ex.cfOpts (-1)))).policyd = some (Ex.cfPd (-1)) ∧
    .call false ∉ Ex.cfFails 0 ∧ ∃ s, Ex.cfEnd (-1) 0 = some s ∧ s.calls = [⟨true, .ret none (some (.other "retryAttempts"))⟩] := by
  refine ⟨rfl, Ex.cfPolicyd (-1), by simp [Ex.cfFails], ?_⟩
  obtain ⟨s, hs, hp⟩ := Ex.exists_of_map (o := Ex.cfEnd (-1) 0)
    (p := fun s => decide (s.calls = [⟨true, .ret none (some (.other "retryAttempts"))⟩])) (by decide +kernel)
  simp only [decide_eq_true_eq] at hp
  exact ⟨s, hs, hp⟩

/-- The margin is the default of three hours here, and there are requests. -/
example : lastSet policyMarginOf (Ex.cfOpts 1) [] = [] ∧
    ∃ s s', fRun ((Ex.cfPd 1).fetchCfg Ex.cfCodec) (fInit 0 fun _ _ => none) [.call true] = some s ∧
      fStep ((Ex.cfPd 1).fetchCfg Ex.cfCodec) s (.send 0) = some s' := ⟨rfl, _, _, rfl, rfl⟩

end Athenz
