import Verif.Proofs.Sweep
import Verif.Props.Stale

/-! # C98: the cache of results does not pile up -/

namespace Athenz
open Spec

/-- **C98**, age: whatever is in the cache, also what is not valid any more, was stored at most the lifetime and the time between sweeps ago. -/
theorem C98_age (cfg : AuthCfg) (now : Int) (h0 : 0 ≤ now) (keys : Option KeyProvider) (jwkp : Option JwkProvider) (acts : List AAct) (s : AState)
    (hr : aRun cfg (aInit now keys jwkp) acts = some s) (he : 0 < cfg.cacheExp) (ho : s.now + cfg.cacheExp < 2 ^ 63) (P : Int)
    (hP : SweptWithin P cfg (aInit now keys jwkp) acts s) (k : Str) (e : GEntry Principal) (hk : s.cache k = some e) :
    ∃ j t, .stored j t k e.val ∈ s.log ∧ s.now - (cfg.cacheExp + P) ≤ t := by
  obtain ⟨j, t, h1, h2⟩ := SweepP.young h0 keys jwkp hr he ho hP hk
  exact ⟨j, t, h1, by omega⟩

/-- **C98**, number: there are no more entries in the cache than calls that were granted by a check of their own in that time. -/
theorem C98_size (cfg : AuthCfg) (now : Int) (h0 : 0 ≤ now) (keys : Option KeyProvider) (jwkp : Option JwkProvider) (acts : List AAct) (s : AState)
    (hr : aRun cfg (aInit now keys jwkp) acts = some s) (he : 0 < cfg.cacheExp) (ho : s.now + cfg.cacheExp < 2 ^ 63) (P : Int)
    (hP : SweptWithin P cfg (aInit now keys jwkp) acts s) (ks : List Str) (hnd : ks.Nodup) (hks : ∀ k ∈ ks, s.cache k ≠ none) :
    ks.length ≤ s.log.countP (storedSince (s.now - (cfg.cacheExp + P))) := by
  rw [← SweepP.length_keySince]
  refine hnd.length_le_of_subset fun k hk => ?_
  cases hc : s.cache k with
  | none => exact absurd hc (hks k hk)
  | some e =>
    obtain ⟨j, t, h1, h2⟩ := C98_age cfg now h0 keys jwkp acts s hr he ho P hP k e hc
    exact List.mem_filterMap.mpr ⟨_, h1, if_pos h2⟩

namespace Ex

/-- A full check, a sweep 50 seconds later, which leaves the entry, and the same request again 80 seconds later, when the entry is not valid any
more but still there. -/
def swRun : List AAct := auFull 0 auReq ++ [.tick 50000000000, .sweep fun _ => true, .tick 30000000000]

/-- The same with a sweep at the end. -/
def swRun' : List AAct := swRun ++ [.sweep fun _ => true]

end Ex

/-- The hypotheses of `C98_age` hold with an entry that is not valid any more: it is 80 seconds old, the lifetime is 60 seconds and the time
between sweeps 30. -/
example : ∃ s e, aRun Ex.auCfg Ex.auInit Ex.swRun = some s ∧ SweptWithin 30000000000 Ex.auCfg Ex.auInit Ex.swRun s ∧
    s.now + Ex.auCfg.cacheExp < 2 ^ 63 ∧ s.cache (cacheKey Ex.auCfg Ex.auReq) = some e ∧ Gache.valid s.now e = false := by
  obtain ⟨s, hs, hp⟩ := Ex.exists_of_map (o := aRun Ex.auCfg Ex.auInit Ex.swRun)
    (p := fun s => decide (s.now = Ex.auT 1580) && match s.cache (cacheKey Ex.auCfg Ex.auReq) with | some e => !Gache.valid s.now e | none => false)
    (by decide +kernel)
  obtain ⟨s1, hs1, hp1⟩ := Ex.exists_of_map (o := aRun Ex.auCfg Ex.auInit (Ex.auFull 0 Ex.auReq ++ [.tick 50000000000]))
    (p := fun s => decide (s.now = Ex.auT 1550)) (by decide +kernel)
  simp only [Bool.and_eq_true, decide_eq_true_eq] at hp hp1
  obtain ⟨h1, h2⟩ := hp
  split at h2
  · rename_i e he
    refine ⟨s, e, hs, fun k => .inr ⟨_, _, [.tick 30000000000], s1, rfl, hs1, rfl, ?_⟩, by rw [h1]; decide, he, by simpa using h2⟩
    rw [h1, hp1]
    decide
  · simp at h2

/-- The next sweep removes it. -/
example : (aRun Ex.auCfg Ex.auInit Ex.swRun').map (fun s => (s.cache (cacheKey Ex.auCfg Ex.auReq)).isSome) = some false := by decide +kernel

/-- Without sweeps, that is if `Start` was not called or its context is cancelled, entries stay for ever. -/
theorem C98_unswept (d : Nat) : ∃ s e, aRun Ex.auCfg Ex.auInit (Ex.auFull 0 Ex.auReq ++ [.tick d]) = some s ∧ s.now = Ex.auT 1500 + d ∧
    s.cache (cacheKey Ex.auCfg Ex.auReq) = some e := by
  obtain ⟨s, hs, hp⟩ := Ex.exists_of_map (o := aRun Ex.auCfg Ex.auInit (Ex.auFull 0 Ex.auReq))
    (p := fun s => decide (s.now = Ex.auT 1500) && (s.cache (cacheKey Ex.auCfg Ex.auReq)).isSome) (by decide +kernel)
  simp only [Bool.and_eq_true, decide_eq_true_eq, Option.isSome_iff_exists] at hp
  obtain ⟨h1, e, he⟩ := hp
  exact ⟨{ s with now := s.now + d }, e, aRun_append.mpr ⟨s, hs, rfl⟩, by show s.now + d = _; rw [h1], he⟩

end Athenz
