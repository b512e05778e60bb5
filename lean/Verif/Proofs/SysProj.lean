import Verif.Proofs.SysInv
import Verif.Proofs.PolicydVer

/-! Every component of the system runs as its own model says. -/

namespace Athenz
open Spec

/-- The state of every component is reached by a run of the component alone. -/
structure SysRuns (cfg : SysCfg) (now : Int) (s : Sys) : Prop where
  auth : ∃ acts, aRun cfg.auth (aInit now (some (pkInit now).provider) (some (getKey cfg.jwk jwkInit))) acts = some s.auth
  pk : ∃ acts, pkRun cfg.pk (pkInit now) acts = some s.pk
  jwk : ∃ acts, jwkRun cfg.jwk jwkInit acts = some s.jwk
  pd : ∃ acts, pdRun cfg.auth.U (pdInit now cfg.domains) acts = some s.pd
  fs : ∀ dom, ∃ acts, fRun cfg.fetch (fInit now (pkInit now).provider) acts = some (s.fs dom)

theorem aRun_next {cfg : AuthCfg} {s0 s s' : AState} {a : AAct} (h : ∃ acts, aRun cfg s0 acts = some s) (hs : aStep cfg s a = some s') :
    ∃ acts, aRun cfg s0 acts = some s' := by
  obtain ⟨l, hl⟩ := h
  exact ⟨l ++ [a], aRun_append.mpr ⟨s, hl, by simp only [aRun, hs]⟩⟩

theorem pkRun_next {cfg : PkCfg} {s0 s s' : PkState} {a : PkAct} (h : ∃ acts, pkRun cfg s0 acts = some s) (hs : pkStep cfg s a = some s') :
    ∃ acts, pkRun cfg s0 acts = some s' := by
  obtain ⟨l, hl⟩ := h
  exact ⟨l ++ [a], by rw [pkRun_append, hl]; simp only [Option.bind_some, pkRun, hs]⟩

theorem jwkRun_next {cfg : JwkCfg} {s0 s s' : JwkState} {a : JwkAct} (h : ∃ acts, jwkRun cfg s0 acts = some s)
    (hs : jwkStep cfg s a = some s') : ∃ acts, jwkRun cfg s0 acts = some s' := by
  obtain ⟨l, hl⟩ := h
  refine ⟨l ++ [a], ?_⟩
  induction l generalizing s0 with
  | nil => simp only [jwkRun, Option.some.injEq] at hl; subst hl; simp [jwkRun, hs]
  | cons b l ih =>
    simp only [jwkRun, List.cons_append] at hl ⊢
    split at hl
    · exact ih hl
    · simp at hl

theorem pdRun_next {U : CaseFns} {s0 s s' : PdState} {a : PdAct} (h : ∃ acts, pdRun U s0 acts = some s) (hs : pdStep U s a = some s') :
    ∃ acts, pdRun U s0 acts = some s' := by
  obtain ⟨l, hl⟩ := h
  exact ⟨l ++ [a], by rw [pdRun_append, hl]; simp only [Option.bind_some, pdRun, hs]⟩

theorem fRun_next {cfg : FetchCfg} {s0 s s' : FState} {a : FAct} (h : ∃ acts, fRun cfg s0 acts = some s) (hs : fStep cfg s a = some s') :
    ∃ acts, fRun cfg s0 acts = some s' := by
  obtain ⟨l, hl⟩ := h
  exact ⟨l ++ [a], by rw [fRun_snoc hl]; exact hs⟩

theorem SysRuns.step {cfg : SysCfg} {now : Int} {h : List SysAct} {s s' : Sys} {a : SysAct} (hb : SysBase cfg now h s)
    (hp : SysRuns cfg now s) (hs : sysStep cfg s a = some s') : SysRuns cfg now s' := by
  obtain ⟨hdead, he⟩ := sysStep_effect hs
  obtain ⟨hpkc, hpdc, hfc⟩ := hb.alive hdead
  cases he with
  | tick d =>
    refine ⟨aRun_next (a := .tick d) hp.auth rfl, pkRun_next (a := .tick d) hp.pk (by simp [pkStep, hpkc]), hp.jwk,
      pdRun_next (a := .tick d) hp.pd (by simp [pdStep, hpdc]), fun dom => fRun_next (a := .tick d) (hp.fs dom) (by simp [fStep, hfc])⟩
  | pk a pk' ha h1 =>
    exact ⟨aRun_next (a := .setKeys _) hp.auth rfl, pkRun_next hp.pk h1, hp.jwk, hp.pd,
      fun dom => fRun_next (a := .setKeys pk'.provider) (hp.fs dom) (by simp [fStep, hfc, Sys.withKeys])⟩
  | jwk a jwk' h1 => exact ⟨aRun_next (a := .setJwkp _) hp.auth rfl, hp.pk, jwkRun_next hp.jwk h1, hp.pd, hp.fs⟩
  | fetcher dom a f ha h1 =>
    refine ⟨hp.auth, hp.pk, hp.jwk, hp.pd, fun x => ?_⟩
    simp only
    split
    · exact fRun_next (hp.fs dom) h1
    · exact hp.fs x
  | pd a pd' D F W ha h1 hD hF hbr =>
    refine ⟨hp.auth, hp.pk, hp.jwk, pdRun_next hp.pd h1, fun x => ?_⟩
    simp only
    rcases hF with rfl | ⟨dom, f, hf, rfl⟩
    · exact hp.fs x
    · simp only
      split
      · exact fRun_next (hp.fs dom) hf
      · exact hp.fs x
  | nilPolicy i j => exact ⟨hp.auth, hp.pk, hp.jwk, hp.pd, hp.fs⟩
  | beginCheck i q p act res pd' hc hn h1 => exact ⟨hp.auth, hp.pk, hp.jwk, pdRun_next hp.pd h1, hp.fs⟩
  | endCheck i view sched k c r auth' hk hc hl hr hv h1 => exact ⟨aRun_next hp.auth h1, hp.pk, hp.jwk, hp.pd, hp.fs⟩
  | auth a auth' ha h1 => exact ⟨aRun_next hp.auth h1, hp.pk, hp.jwk, hp.pd, hp.fs⟩

theorem sysRuns_run {cfg : SysCfg} {now : Int} {h : List SysAct} {s : Sys} (hr : sysRun cfg (sysInit cfg now) h = some s) :
    SysBase cfg now h s ∧ SysRuns cfg now s :=
  sysRun_ind (fun h s => SysBase cfg now h s ∧ SysRuns cfg now s)
    ⟨sysInit_base cfg now, ⟨[], rfl⟩, ⟨[], rfl⟩, ⟨[], rfl⟩, ⟨[], rfl⟩, fun _ => ⟨[], rfl⟩⟩
    (fun _ _ _ _ hp _ hs => ⟨hp.1.step hs, hp.2.step hp.1 hs⟩) h s hr

end Athenz
