import Verif.Spec.System
import Verif.Proofs.PolicydGood
import Verif.Proofs.Authority
import Verif.Proofs.Pubkeyd
import Verif.Proofs.Jwkd
import Verif.Proofs.Fetcher
import Verif.Props.Check

/-! Lemmas about the components put together. -/

namespace Athenz
open Spec

/-- The actions of the authorization calls that a system step may contain as such. -/
def AAct.own : AAct → Bool
  | .check _ _ _ => false
  | .tick _ => false
  | .setKeys _ => false
  | .setJwkp _ => false
  | _ => true

/-- The actions of a fetcher that a system step may contain as such. -/
def FAct.own : FAct → Bool
  | .tick _ => false
  | .setKeys _ => false
  | .call _ => false
  | _ => true

/-- What a step does. -/
inductive SysEffect (cfg : SysCfg) (s : Sys) : SysAct → Sys → Prop
  | tick (d : Nat) : SysEffect cfg s (.tick d) { s with
      auth := { s.auth with now := s.auth.now + d }, pk := { s.pk with now := s.pk.now + d }, pd := { s.pd with now := s.pd.now + d }
      fs := fun x => { s.fs x with now := (s.fs x).now + d } }
  | pk (a : PkAct) (pk' : PkState) (ha : ∀ d, a ≠ .tick d) (h : pkStep cfg.pk s.pk a = some pk') : SysEffect cfg s (.pk a) (s.withKeys pk')
  | jwk (a : JwkAct) (jwk' : JwkState) (h : jwkStep cfg.jwk s.jwk a = some jwk') :
      SysEffect cfg s (.jwk a) { s with jwk := jwk', auth := { s.auth with jwkp := some (getKey cfg.jwk jwk') } }
  | fetcher (dom : Str) (a : FAct) (f : FState) (ha : a.own = true) (h : fStep cfg.fetch (s.fs dom) a = some f) :
      SysEffect cfg s (.fetcher dom a) { s with fs := fun x => if x = dom then f else s.fs x, dead := f.crashed }
  | pd (a : PdAct) (pd' : PdState) (D : List (List Str)) (F : Str → FState) (W : Nat → Nat → Option Nat) (ha : ∀ d, a ≠ .tick d)
      (h : pdStep cfg.auth.U s.pd a = some pd')
      (hD : D = s.doms ∨ ∃ ds, D = s.doms ++ [ds] ∧ (ds = cfg.domains ∨ ∃ x ∈ s.pd.domains, ds = [x]))
      (hF : F = s.fs ∨ ∃ dom f, fStep cfg.fetch (s.fs dom) (.call true) = some f ∧ F = fun x => if x = dom then f else s.fs x)
      (hb : ∀ d, a.Brings s.pd d → ∃ (i j : Nat) (dom : Str) (n : Nat) (retry : Bool) (sp : SignedPolicy) (e : Option Err), s.domOf i j = some dom ∧
        (s.fs dom).calls[n]? = some ⟨retry, .ret (some sp) e⟩ ∧ Spec.PolicySays sp d) :
      SysEffect cfg s (.pd a) { s with pd := pd', dead := pd'.crashed, doms := D, fs := F, waits := W }
  | nilPolicy (i j : Nat) : SysEffect cfg s (.nilPolicy i j) { s with dead := true }
  | beginCheck (i : Nat) (q : AReq) (p : Principal) (act res : Str) (pd' : PdState)
      (hc : s.auth.calls i = some ⟨q, .translated p act res⟩) (hn : s.checkOf i = none)
      (h : pdStep cfg.auth.U s.pd (.check ⟨p.domain, p.roles, act, cfg.auth.resourcePrefix ++ res⟩) = some pd') :
      SysEffect cfg s (.beginCheck i) { s with
        pd := pd', checkOf := fun i' => if i' = i then some s.pd.checks.length else s.checkOf i' }
  | endCheck (i : Nat) (view : PolicyView) (sched : List CheckAct) (k : Nat) (c : Chk) (r : Res (List Str)) (auth' : AState)
      (hk : s.checkOf i = some k) (hc : s.pd.checks[k]? = some c) (hl : c.loaded.isSome) (hr : c.cs.coll = .ret r)
      (hv : checkResult cfg.auth.U c.q view sched = some r) (h : aStep cfg.auth s.auth (.check i view sched) = some auth') :
      SysEffect cfg s (.endCheck i view sched) { s with auth := auth' }
  | auth (a : AAct) (auth' : AState) (ha : a.own = true) (h : aStep cfg.auth s.auth a = some auth') :
      SysEffect cfg s (.auth a) { s with auth := auth' }

theorem callFetcher_some {cfg : SysCfg} {s s' : Sys} {i j : Nat} {dom : Str} (h : s.callFetcher cfg i j dom = some s') :
    ∃ f W, fStep cfg.fetch (s.fs dom) (.call true) = some f ∧
      s' = { s with fs := fun x => if x = dom then f else s.fs x, waits := W } := by
  unfold Sys.callFetcher at h
  split at h
  · simp at h
  · rename_i f hf
    simp only [Option.some.injEq] at h
    exact ⟨f, _, hf, h.symm⟩

theorem fetchResult_some {s : Sys} {i j : Nat} {r : Option SignedPolicy} (h : s.fetchResult i j = some r) :
    ∃ (dom : Str) (n : Nat) (retry : Bool) (e : Option Err), s.domOf i j = some dom ∧ (s.fs dom).calls[n]? = some ⟨retry, .ret r e⟩ := by
  unfold Sys.fetchResult at h
  split at h
  · rename_i dom n hd hn
    split at h
    · rename_i retry sp e hc
      simp only [Option.some.injEq] at h
      subst h
      exact ⟨dom, n, _, _, hd, hc⟩
    · simp at h
  · simp at h

theorem sysPd_effect {cfg : SysCfg} {s s' : Sys} {a : PdAct} (h : sysPd cfg s a = some s') : SysEffect cfg s (.pd a) s' := by
  unfold sysPd at h
  split at h
  · simp at h
  rename_i pd' hpd
  -- a step that brings nothing and starts no fetch
  have plain : ∀ (_ : ∀ d, a ≠ .tick d) (_ : ∀ d, ¬ a.Brings s.pd d), SysEffect cfg s (.pd a) { s with pd := pd', dead := pd'.crashed } :=
    fun h1 h2 => .pd a pd' s.doms s.fs s.waits h1 hpd (.inl rfl) (.inl rfl) (fun d hd => absurd hd (h2 d))
  cases a with
  | tick d => simp at h
  | update fetch =>
    simp only at h
    split at h
    · simp only [Option.some.injEq] at h
      subst h
      refine .pd _ pd' _ s.fs s.waits (by simp) hpd (.inr ⟨_, rfl, .inl rfl⟩) (.inl rfl) ?_
      rintro d ⟨i, j, o, t, ha, _⟩
      simp at ha
    · simp at h
  | hook j fetch =>
    simp only at h
    split at h
    · simp at h
    · rename_i k hk
      split at h
      · simp only [Option.some.injEq] at h
        subst h
        refine plain (by simp) ?_
        rintro d ⟨i, j, o, t, ha, _⟩
        simp at ha
      · rename_i hcr
        obtain ⟨f, W, hf, rfl⟩ := callFetcher_some h
        have hdom : hookDomain k ∈ s.pd.domains := by
          unfold pdStep at hpd
          split at hpd
          · simp at hpd
          · simp only [hk] at hpd
            split at hpd
            · assumption
            · simp only [Option.some.injEq] at hpd
              subst hpd
              simp at hcr
        refine .pd _ pd' _ _ W (by simp) hpd (.inr ⟨_, rfl, .inr ⟨_, hdom, rfl⟩⟩) (.inr ⟨_, f, hf, rfl⟩) ?_
        rintro d ⟨i, j, o, t, ha, _⟩
        simp at ha
  | task i u =>
    cases u with
    | job j o =>
      simp only at h
      split at h
      · simp at h
      · rename_i t ht
        have hbr : ∀ d, (PdAct.task i (.job j o)).Brings s.pd d → t.jobs[j]? = some (.fetching (some d)) := by
          rintro d ⟨i', j', o', t', ha, ht', hj'⟩
          simp only [PdAct.task.injEq, UpdAct.job.injEq] at ha
          obtain ⟨rfl, rfl, rfl⟩ := ha
          rw [ht] at ht'
          simp only [Option.some.injEq] at ht'
          subst ht'
          exact hj'
        split at h
        · rename_i f hj
          split at h
          · simp only [Option.some.injEq] at h
            subst h
            refine plain (by simp) fun d hd => ?_
            have := hbr d hd
            rw [hj] at this; simp at this
          · split at h
            · rename_i dom hdom
              obtain ⟨f', W, hf, rfl⟩ := callFetcher_some h
              refine .pd _ pd' s.doms _ W (by simp) hpd (.inl rfl) (.inr ⟨dom, f', hf, rfl⟩) fun d hd => ?_
              have := hbr d hd
              rw [hj] at this; simp at this
            · simp at h
        · rename_i f hj
          split at h
          · rename_i r hr
            split at h
            · rename_i hm
              simp only [Option.some.injEq] at h
              subst h
              refine .pd _ pd' s.doms s.fs s.waits (by simp) hpd (.inl rfl) (.inl rfl) fun d hd => ?_
              have := hbr d hd
              rw [hj] at this
              simp only [Option.some.injEq, Job.fetching.injEq] at this
              subst this
              obtain ⟨dom, n, retry, e, hdom, hn⟩ := fetchResult_some hr
              cases r with
              | none => simp [fetchMatches] at hm
              | some sp => exact ⟨i, j, dom, n, retry, sp, e, hdom, hn, docOf_iff.mp hm⟩
            · simp at h
          · simp at h
        · rename_i hns hnf
          simp only [Option.some.injEq] at h
          subst h
          exact plain (by simp) fun d hd => hnf _ (hbr d hd)
    | _ =>
      simp only [Option.some.injEq] at h
      subst h
      refine plain (by simp) ?_
      rintro d ⟨i, j, o, t, ha, _⟩
      simp at ha
  | _ =>
    simp only [Option.some.injEq] at h
    subst h
    refine plain (by simp) ?_
    rintro d ⟨i, j, o, t, ha, _⟩
    simp at ha

theorem sysStep_effect {cfg : SysCfg} {s s' : Sys} {a : SysAct} (h : sysStep cfg s a = some s') :
    s.dead = false ∧ SysEffect cfg s a s' := by
  unfold sysStep at h
  split at h
  · simp at h
  rename_i hdead
  refine ⟨by simpa using hdead, ?_⟩
  cases a with
  | tick d => simp only [Option.some.injEq] at h; subst h; exact .tick d
  | pk a =>
    cases a with
    | tick d => simp at h
    | _ =>
      simp only at h
      split at h
      · simp at h
      · rename_i pk' hpk
        simp only [Option.some.injEq] at h
        subst h
        exact .pk _ pk' (by simp) hpk
  | jwk a =>
    simp only at h
    split at h
    · simp at h
    · rename_i jwk' hj
      simp only [Option.some.injEq] at h
      subst h
      exact .jwk a jwk' hj
  | fetcher dom a =>
    cases a with
    | tick d => simp at h
    | setKeys ks => simp at h
    | call r => simp at h
    | _ =>
      simp only at h
      split at h
      · simp at h
      · rename_i f hf
        simp only [Option.some.injEq] at h
        subst h
        exact .fetcher dom _ f rfl hf
  | pd a => exact sysPd_effect h
  | nilPolicy i j =>
    simp only at h
    split at h
    · split at h
      · simp only [Option.some.injEq] at h
        subst h
        exact .nilPolicy i j
      · simp at h
    · simp at h
  | beginCheck i =>
    simp only at h
    split at h
    · rename_i q p act res hc hn
      split at h
      · simp at h
      · rename_i pd' hpd
        simp only [Option.some.injEq] at h
        subst h
        exact .beginCheck i _ p act res pd' hc hn hpd
    · simp at h
  | endCheck i view sched =>
    simp only at h
    split at h
    · simp at h
    · rename_i k hk
      split at h
      · simp at h
      · rename_i c hc
        split at h
        · rename_i hl
          split at h
          · simp at h
          · rename_i r hr
            split at h
            · rename_i hv
              split at h
              · simp at h
              · rename_i auth' hs
                simp only [Option.some.injEq] at h
                subst h
                exact .endCheck i view sched k c r auth' hk hc hl hr hv hs
            · simp at h
        · simp at h
  | auth a =>
    cases a with
    | check i v sc => simp at h
    | tick d => simp at h
    | setKeys ks => simp at h
    | setJwkp ks => simp at h
    | _ =>
      simp only at h
      split at h
      · simp at h
      · rename_i auth' hs
        simp only [Option.some.injEq] at h
        subst h
        exact .auth _ auth' rfl hs

theorem sysRun_append {cfg : SysCfg} {s : Sys} {l l' : List SysAct} :
    sysRun cfg s (l ++ l') = (sysRun cfg s l).bind fun s1 => sysRun cfg s1 l' := by
  induction l generalizing s with
  | nil => simp [sysRun]
  | cons a l ih =>
    simp only [List.cons_append, sysRun]
    split
    · simp
    · exact ih

theorem sysRun_snoc {cfg : SysCfg} {s s1 s2 : Sys} {h : List SysAct} {a : SysAct} (hr : sysRun cfg s h = some s1)
    (hs : sysStep cfg s1 a = some s2) : sysRun cfg s (h ++ [a]) = some s2 := by
  rw [sysRun_append, hr]
  simp [sysRun, hs]

theorem sysRun_ind {cfg : SysCfg} {s0 : Sys} (P : List SysAct → Sys → Prop) (h0 : P [] s0)
    (hstep : ∀ h s a s', P h s → sysRun cfg s0 h = some s → sysStep cfg s a = some s' → P (h ++ [a]) s') :
    ∀ h s, sysRun cfg s0 h = some s → P h s := by
  have key : ∀ (h2 h1 : List SysAct) (s1 s : Sys), P h1 s1 → sysRun cfg s0 h1 = some s1 → sysRun cfg s1 h2 = some s → P (h1 ++ h2) s := by
    intro h2
    induction h2 with
    | nil => intro h1 s1 s hp _ hr; simp only [sysRun, Option.some.injEq] at hr; subst hr; simpa using hp
    | cons a h2 ih =>
      intro h1 s1 s hp h1r hr
      simp only [sysRun] at hr
      split at hr
      · simp at hr
      · rename_i s2 hs
        have := ih (h1 ++ [a]) s2 s (hstep h1 s1 a s2 hp h1r hs) (sysRun_snoc h1r hs) hr
        simpa using this
  intro h s hr
  simpa using key h [] s0 s h0 rfl hr

end Athenz
