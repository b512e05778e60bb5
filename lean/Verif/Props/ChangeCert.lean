import Verif.Spec.ChangeCert
import Verif.Props.SystemCert
import Verif.Props.Change
import Verif.Props.SysGrant

/-! # C83: policies that changed at the servers decide about role certificates -/

namespace Athenz

open Spec

theorem cStep_sees {cfg : SysCfg} {s s' : CSys} {a : CAct} (h : cStep cfg s a = some s') :
    ∃ b, CActSees s a b ∧ sysStep cfg s.sys b = some s'.sys ∧ s'.trace = s.trace ++ [b] := by
  have halive := cStep_alive h
  unfold cStep at h
  cases a with
  | sys a =>
    simp only at h
    split at h
    · simp at h
    · rename_i sys hs
      simp only [Option.some.injEq] at h; subst h
      exact ⟨a, rfl, hs, rfl⟩
  | call certs act res order =>
    simp only at h
    split at h
    · simp only [Option.some.injEq] at h; subst h
      exact ⟨.tick 0, rfl, sysStep_tick0 halive, rfl⟩
    · simp at h
  | next i =>
    simp only at h
    split at h
    · simp at h
    rename_i c hc
    split at h
    · rename_i d rs hpc hd
      split at h
      · simp at h
      rename_i sys hs
      simp only [Option.some.injEq] at h; subst h
      exact ⟨_, ⟨c, d, rs, hc, hd, rfl⟩, hs, rfl⟩
    · simp at h
  | ret i =>
    simp only at h
    split at h
    · simp at h
    split at h
    · simp at h
    split at h
    · split at h
      · simp at h
      simp only [Option.some.injEq] at h; subst h
      exact ⟨.tick 0, rfl, sysStep_tick0 halive, rfl⟩
    · simp at h

theorem CActSees.unique {s : CSys} {a : CAct} {b b' : SysAct} (h : CActSees s a b) (h' : CActSees s a b') : b = b' := by
  cases a with
  | sys a => exact Eq.trans h (Eq.symm h')
  | call certs act res order => exact Eq.trans h (Eq.symm h')
  | ret i => exact Eq.trans h (Eq.symm h')
  | next i =>
    obtain ⟨c, d, rs, h1, h2, rfl⟩ := h
    obtain ⟨c', d', rs', h1', h2', rfl⟩ := h'
    rw [h1] at h1'
    obtain rfl := Option.some.inj h1'
    rw [h2] at h2'
    simp only [Option.some.injEq, Prod.mk.injEq] at h2'
    rw [h2'.1, h2'.2]

/-- Every execution has such a rest, so that what is said about it below is about something. -/
theorem CExec.rest_exists {cfg : SysCfg} {now : Int} (x : CExec cfg now) : ∃ y, x.Rest y := by
  have h := fun n => cStep_sees (x.next n)
  exact ⟨⟨fun n => (x.state n).sys, fun n => (h n).choose, by rw [x.init]; rfl, fun n => (h n).choose_spec.2.1⟩, fun _ => rfl, fun n => (h n).choose_spec.1⟩

theorem Spec.CExec.Rest.hist {cfg : SysCfg} {now : Int} {x : CExec cfg now} {y : SysExec cfg now} (h : x.Rest y) (n : Nat) :
    y.hist n = (x.state n).trace := by
  induction n with
  | zero => rw [x.init]; rfl
  | succ n ih =>
    obtain ⟨b, h1, _, h3⟩ := cStep_sees (x.next n)
    rw [h3, ← ih, ← CActSees.unique (h.act n) h1]
    simp [SysExec.hist, List.range_succ]

/-- What has happened, as a schedule. -/
theorem CExec.run {cfg : SysCfg} {now : Int} (x : CExec cfg now) (n : Nat) : ∃ as, cRun cfg (cInit cfg now) as = some (x.state n) := by
  refine ⟨(List.range n).map x.act, ?_⟩
  have key : ∀ (as : List CAct) (s s1 : CSys) (a : CAct), cRun cfg s as = some s1 → cRun cfg s (as ++ [a]) = cStep cfg s1 a := by
    intro as
    induction as with
    | nil => intro s s1 a h; simp only [cRun, Option.some.injEq] at h; subst h; simp only [List.nil_append, cRun]; cases cStep cfg s a <;> rfl
    | cons b as ih =>
      intro s s1 a h
      simp only [cRun, List.cons_append] at h ⊢
      cases hb : cStep cfg s b with
      | none => rw [hb] at h; simp at h
      | some s2 => rw [hb] at h; exact ih s2 s1 a h
  induction n with
  | zero => simp [cRun, x.init]
  | succ n ih => rw [List.range_succ, List.map_append, List.map_singleton, key _ _ _ _ ih, x.next n]

/-- The decision of a call of `VerifyRoleCert` that began when policies `D` that changed at the moment `N` had come into force. -/
theorem cert_decides {cfg : SysCfg} {now : Int} (hnow : 0 ≤ now) (hpol : cfg.auth.disablePolicyd = false) {x : CExec cfg now} {y : SysExec cfg now}
    (hy : x.Rest y) {N : Nat} {D : List PolicyDoc} (hD : Yields y N D) {M : Nat}
    (hin : ∀ m, M ≤ m → (∀ docs, InForce cfg (sysInit cfg now) (y.hist m) (y.state m) docs → docs = D.map some) ∧
      ∃ i, LastUpdate (y.hist m) (y.state m) i ∧ (y.state N).pd.tasks.length ≤ i)
    {m i : Nat} {c : CertCall} {r : Res Unit} (hc : (x.state m).certs[i]? = some c) (hdone : c.pc = .done r) (hb : M ≤ c.begun)
    (hn : NoClash cfg.auth.roleCertURIPrefix c.certs) (hcancel : ∀ k ∈ c.checks, ∀ p, p < m → y.act p ≠ .pd (.chk k .cancel))
    (hreg : ∀ d x', NamesRole cfg.auth.roleCertURIPrefix c.certs d x' →
      RegularAt cfg.auth.U (D.map some) now (x.state m).sys.auth.now (x.state m).sys.auth.now (d ++ ":role.".toList ++ x')) :
    r = .ok () ↔ CertAllowed cfg.auth.U (allAssertions (D.map some)) cfg.auth.roleCertURIPrefix c.certs c.act c.res := by
  obtain ⟨as, has⟩ := CExec.run x m
  have hht := hy.hist m
  have split : ∀ h1 h2 : List SysAct, (x.state m).trace = h1 ++ h2 → h1 = y.hist h1.length ∧ h1.length ≤ m := by
    intro h1 h2 hh
    rw [← hht] at hh
    have hlen : h1.length ≤ m := by
      have := congrArg List.length hh
      simp [SysExec.hist] at this
      omega
    refine ⟨?_, hlen⟩
    have h3 := SysExec.hist_add y h1.length (m - h1.length)
    rw [show h1.length + (m - h1.length) = m by omega, hh] at h3
    exact (List.append_inj h3 (by simp [SysExec.hist])).1
  refine C70_exact_partial cfg now hnow hpol as _ has i c r (D.map some) ?_ hc hn hdone ?_ ?_ hreg
  · intro h1 h2 s1 hh hle hr1
    obtain ⟨e1, _⟩ := split h1 h2 hh
    rw [e1, SysExec.run y] at hr1
    obtain rfl := Option.some.inj hr1
    have := yields_alike hD (m := m) (hin h1.length (by omega)).2 (K := fun k => ∃ d x', NamesRole cfg.auth.roleCertURIPrefix c.certs d x' ∧
      k = d ++ ":role.".toList ++ x') (t0 := now) (T := (x.state m).sys.auth.now) (by rintro _ ⟨d, x', hr, rfl⟩; exact hreg d x' hr)
    rw [hy.state m] at this
    rw [e1, ← hht]
    simp only [SysExec.hist, List.length_map, List.length_range] at this ⊢
    exact Spec.RefreshedWith.imp this fun d' h d x' hr => h _ ⟨d, x', hr, rfl⟩
  · intro k hk hmem
    rw [← hht] at hmem
    obtain ⟨p, hp, he⟩ := List.mem_map.mp hmem
    exact hcancel k hk p (List.mem_range.mp hp) he
  · intro h1 h2 s1 docs' hh hle hr1 hdocs
    obtain ⟨e1, _⟩ := split h1 h2 hh
    rw [e1, SysExec.run y] at hr1
    obtain rfl := Option.some.inj hr1
    rw [e1] at hdocs
    simp only [SysExec.hist, List.length_map, List.length_range] at hdocs
    exact (hin h1.length (by omega)).1 docs' hdocs

/-- The full statement of C83: the servers give the documents `D` from the moment `N` on; the updates called earlier have returned by the moment
`n`, and one called later has returned by the moment `M`.  Then a call of `VerifyRoleCert` that begins after `M`, and is not cancelled, grants
exactly if `D` allow the request to the certificates, if they have not expired. -/
def C83_statement : Prop :=
  ∀ (cfg : SysCfg) (now : Int) (x : CExec cfg now) (y : SysExec cfg now) (N : Nat) (D : List PolicyDoc) (n M k : Nat) (t : Task),
    0 ≤ now → cfg.auth.disablePolicyd = false → 0 ≤ cfg.fetch.retryAttempts → x.Rest y → NewPolicies y N D → N ≤ n → n ≤ M →
    (∀ (i : Nat) (t : Task), i < (y.state N).pd.tasks.length → (y.state n).pd.tasks[i]? = some t → t.isUpdate = true → t.ret ≠ none) →
    (y.state n).pd.tasks.length ≤ k → (y.state M).pd.tasks[k]? = some t → t.ret ≠ none →
    ∀ (m i : Nat) (c : CertCall) (r : Res Unit), M ≤ c.begun → (x.state m).certs[i]? = some c → c.pc = .done r →
      (∀ k ∈ c.checks, ∀ p, p < m → y.act p ≠ .pd (.chk k .cancel)) →
      (∀ d ∈ D, (x.state m).sys.auth.now < d.expires ∧ d.expires + (x.state m).sys.auth.now < 2 ^ 63) →
      (r = .ok () ↔ CertAllowed cfg.auth.U (allAssertions (D.map some)) cfg.auth.roleCertURIPrefix c.certs c.act c.res)

/-- **C83**.  Once an update called after the change has returned, and those called before had returned when it was called, calls of
`VerifyRoleCert` that begin grant exactly what the new policies allow.  Missing: certificates with roles that clash, and policies that are not
regular for the roles of the certificates (`C83_refuted`). -/
theorem C83_exact_partial (cfg : SysCfg) (now : Int) (hnow : 0 ≤ now) (hpol : cfg.auth.disablePolicyd = false) (hR : 0 ≤ cfg.fetch.retryAttempts)
    (x : CExec cfg now) (y : SysExec cfg now) (hy : x.Rest y) (N : Nat) (D : List PolicyDoc) (hD : NewPolicies y N D) (n M k : Nat) (t : Task)
    (hn : N ≤ n) (hM : n ≤ M)
    (hold : ∀ (i : Nat) (t : Task), i < (y.state N).pd.tasks.length → (y.state n).pd.tasks[i]? = some t → t.isUpdate = true → t.ret ≠ none)
    (hk : (y.state n).pd.tasks.length ≤ k) (ht : (y.state M).pd.tasks[k]? = some t) (hret : t.ret ≠ none)
    (m i : Nat) (c : CertCall) (r : Res Unit) (hb : M ≤ c.begun) (hc : (x.state m).certs[i]? = some c) (hdone : c.pc = .done r)
    (hcancel : ∀ k ∈ c.checks, ∀ p, p < m → y.act p ≠ .pd (.chk k .cancel)) (hcl : NoClash cfg.auth.roleCertURIPrefix c.certs)
    (hreg : ∀ d role, NamesRole cfg.auth.roleCertURIPrefix c.certs d role →
      RegularAt cfg.auth.U (D.map some) now (x.state m).sys.auth.now (x.state m).sys.auth.now (d ++ ":role.".toList ++ role)) :
    r = .ok () ↔ CertAllowed cfg.auth.U (allAssertions (D.map some)) cfg.auth.roleCertURIPrefix c.certs c.act c.res :=
  cert_decides hnow hpol hy (hD.yields hR) (fun m hm =>
    have h := yields_in_force_at cfg now y N D (hD.yields hR) n hn hold M k t hM hk ht hret m hm
    ⟨h.1.2, h.2.2⟩) hc hdone hb hcl hcancel hreg

/-- A call began when there were as many steps before. -/
theorem begun_at {cfg : SysCfg} {now : Int} (x : CExec cfg now) {i : Nat} {c : CertCall} {n m : Nat}
    (hn : (x.state n).certs.length ≤ i) (hc : (x.state m).certs[i]? = some c) : n ≤ c.begun := by
  induction m generalizing c with
  | zero => rw [x.init] at hc; simp [cInit] at hc
  | succ m ih =>
    have hlen : (x.state m).trace.length = m := by
      clear ih hc
      induction m with
      | zero => rw [x.init]; rfl
      | succ m ih => obtain ⟨b, _, _, h3⟩ := cStep_sees (x.next m); rw [h3, List.length_append, ih]; rfl
    have hmono : ∀ p q, p ≤ q → (x.state p).certs.length ≤ (x.state q).certs.length := by
      intro p q hpq
      induction hpq with
      | refl => exact Nat.le_refl _
      | @step q _ ih =>
        refine Nat.le_trans ih ?_
        have h := x.next q
        unfold cStep at h
        repeat' split at h
        all_goals first | (simp at h; done) | (simp only [Option.some.injEq] at h; rw [Nat.succ_eq_add_one, ← h]; simp)
    have hst := x.next m
    unfold cStep at hst
    cases ha : x.act m with
    | sys a =>
      rw [ha] at hst
      simp only at hst
      split at hst
      · simp at hst
      · simp only [Option.some.injEq] at hst; rw [← hst] at hc; exact ih hc
    | call certs act res order =>
      rw [ha] at hst
      simp only at hst
      split at hst
      · simp only [Option.some.injEq] at hst
        rw [← hst] at hc
        rcases getElem?_append_cases hc with hc | ⟨hi, rfl⟩
        · exact ih hc
        · show n ≤ (x.state m).trace.length
          rw [hlen]
          refine Classical.byContradiction fun hlt => ?_
          have h1 := hmono (m + 1) n (by omega)
          rw [← hst] at h1
          simp only [List.length_append, List.length_singleton] at h1
          omega
      · simp at hst
    | next j =>
      rw [ha] at hst
      simp only at hst
      split at hst
      · simp at hst
      rename_i c0 hc0
      split at hst
      · split at hst
        · simp at hst
        simp only [Option.some.injEq] at hst
        rw [← hst] at hc
        rcases getElem?_set_cases' hc with ⟨hij, rfl⟩ | ⟨_, hc⟩
        · subst hij; exact ih (c := c0) hc0
        · exact ih hc
      · simp at hst
    | ret j =>
      rw [ha] at hst
      simp only at hst
      split at hst
      · simp at hst
      split at hst
      · simp at hst
      rename_i c0 hc0
      split at hst
      · split at hst
        · simp at hst
        simp only [Option.some.injEq] at hst
        rw [← hst] at hc
        rcases getElem?_set_cases' hc with ⟨hij, rfl⟩ | ⟨_, hc⟩
        · subst hij; exact ih (c := c0) hc0
        · exact ih hc
      · simp at hst

/-- **C83**.  If `Update` is called again and again, then there is a moment from which on calls of `VerifyRoleCert` that begin return, and they grant
exactly what the new policies allow.  Missing: as above. -/
theorem C83_takes_effect_partial (cfg : SysCfg) (now : Int) (hnow : 0 ≤ now) (hpol : cfg.auth.disablePolicyd = false)
    (hR : 0 ≤ cfg.fetch.retryAttempts) (x : CExec cfg now) (y : SysExec cfg now) (hy : x.Rest y) (hcf : CertFair x) (hf : UpdFair y)
    (hfore : Foretold y) (N : Nat) (D : List PolicyDoc) (hD : NewPolicies y N D) (hagain : ∀ n, ∃ m fetch, n ≤ m ∧ y.act m = .pd (.update fetch)) :
    ∃ M, N ≤ M ∧ ∀ n i c, (x.state M).certs.length ≤ i → (x.state n).certs[i]? = some c →
      ∃ m c' r, n ≤ m ∧ (x.state m).certs[i]? = some c' ∧ c'.certs = c.certs ∧ c'.act = c.act ∧ c'.res = c.res ∧ c'.pc = .done r ∧
        ((∀ k ∈ c'.checks, ∀ p, p < m → y.act p ≠ .pd (.chk k .cancel)) → NoClash cfg.auth.roleCertURIPrefix c.certs →
          (∀ d role, NamesRole cfg.auth.roleCertURIPrefix c.certs d role →
            RegularAt cfg.auth.U (D.map some) now (x.state m).sys.auth.now (x.state m).sys.auth.now (d ++ ":role.".toList ++ role)) →
          (r = .ok () ↔ CertAllowed cfg.auth.U (allAssertions (D.map some)) cfg.auth.roleCertURIPrefix c.certs c.act c.res)) := by
  obtain ⟨M, hM, hin⟩ := yields_takes_effect cfg now y hf hfore N D (hD.yields hR) hagain
  refine ⟨M, hM, fun n i c hi hc => ?_⟩
  obtain ⟨m, c', r, hm, h1, h2, h3, h4, h5⟩ := C70_returns cfg now hpol x hcf n i c hc
  refine ⟨m, c', r, hm, h1, h2, h3, h4, h5, fun hcancel hcl hreg => ?_⟩
  rw [← h2] at hcl hreg ⊢
  rw [← h3, ← h4]
  exact cert_decides hnow hpol hy (hD.yields hR) (fun m hm => ⟨(hin m hm).1.2, (hin m hm).2.2⟩) h1 h5 (begun_at x hi h1) hcl hcancel hreg

namespace Ex

/-- The schedule, and then nothing but the passing of no time. -/
def ccAct (acts : List CAct) (n : Nat) : CAct := (acts[n]?).getD (.sys (.tick 0))

def ccStates (cfg : SysCfg) (acts : List CAct) : Nat → CSys
  | 0 => cInit cfg (auT 1500)
  | n + 1 => (cStep cfg (ccStates cfg acts n) (ccAct acts n)).getD (ccStates cfg acts n)

/-- What is checked of a schedule by evaluation. -/
structure CcOk (cfg : SysCfg) (acts : List CAct) : Prop where
  steps : ∀ n, n < acts.length → (cStep cfg (ccStates cfg acts n) (ccAct acts n)).isSome = true
  alive : (ccStates cfg acts acts.length).sys.dead = false

variable {cfg : SysCfg} {acts : List CAct}

theorem ccAct_end (n : Nat) : ccAct acts (acts.length + n) = .sys (.tick 0) := by simp [ccAct]

theorem ccAlive (h : CcOk cfg acts) (n : Nat) : (ccStates cfg acts (acts.length + n)).sys.dead = false := by
  induction n with
  | zero => exact h.alive
  | succ n ih =>
    show ((cStep cfg (ccStates cfg acts (acts.length + n)) (ccAct acts (acts.length + n))).getD _).sys.dead = false
    rw [ccAct_end]
    simp only [cStep, sysStep_tick0 ih]
    exact ih

def ccExec (h : CcOk cfg acts) : CExec cfg (auT 1500) where
  state := ccStates cfg acts
  act := ccAct acts
  init := rfl
  next := by
    intro n
    show cStep cfg (ccStates cfg acts n) (ccAct acts n) = some ((cStep cfg (ccStates cfg acts n) (ccAct acts n)).getD (ccStates cfg acts n))
    have hsome : (cStep cfg (ccStates cfg acts n) (ccAct acts n)).isSome = true := by
      by_cases hn : n < acts.length
      · exact h.steps n hn
      · obtain ⟨k, rfl⟩ : ∃ k, n = acts.length + k := ⟨n - acts.length, by omega⟩
        rw [ccAct_end]
        simp only [cStep, sysStep_tick0 (ccAlive h k), Option.isSome_some]
    obtain ⟨s, hs⟩ := Option.isSome_iff_exists.mp hsome
    rw [hs]; rfl

/-- Steps of fetchers, of updates and of checks are not steps of calls of `VerifyRoleCert`. -/
theorem sees_sys {s : CSys} {a : CAct} {b : SysAct} (h : CActSees s a b) (h0 : b ≠ .tick 0) (h1 : ∀ q, b ≠ .pd (.check q)) : a = .sys b := by
  cases a with
  | sys a => exact congrArg CAct.sys (Eq.symm h)
  | call certs act res order => exact absurd h h0
  | ret i => exact absurd h h0
  | next i =>
    obtain ⟨c, d, rs, _, _, h⟩ := h
    exact absurd h (h1 _)

/-- What is true of all steps of the schedule. -/
theorem ccActs (P : Nat → CAct → Bool) (h1 : ∀ n, P n (.sys (.tick 0)) = true) (h2 : ∀ n, n < acts.length → P n (ccAct acts n) = true) (n : Nat) :
    P n (ccAct acts n) = true := by
  by_cases hn : n < acts.length
  · exact h2 n hn
  · obtain ⟨k, rfl⟩ : ∃ k, n = acts.length + k := ⟨n - acts.length, by omega⟩
    rw [ccAct_end]
    exact h1 _

end Ex

namespace Ex

/-- The answer gives the policy `sp`. -/
def ccGives (cfg : SysCfg) (s : CSys) (sp : SignedPolicy) : CAct → Bool
  | .sys (.fetcher dom (.answer j (.answer st _ b))) => decide (st = 200) &&
    (match (s.sys.fs dom).calls[j]? with | some c => (match c.pc with | .sent _ _ => true | _ => false) | none => false) &&
    decide (cfg.fetch.codec.decode b = some (some sp)) && decide (verifyPolicy cfg.fetch.codec (s.sys.fs dom).keys (s.sys.fs dom).now (some sp) = .ok ())
  | .sys (.fetcher _ (.answer _ _)) => false
  | .sys (.pd (.task _ .cancel)) => false
  | .sys (.pd (.chk _ .cancel)) => false
  | _ => true

theorem ccNew (h : CcOk cfg acts) {y : SysExec cfg (auT 1500)} (hy : (ccExec h).Rest y) {dom : Str} (hdom : cfg.domains = [dom]) {N : Nat}
    {sp : SignedPolicy} {d : PolicyDoc} (hd : docOf sp = .ok d) (hgood : ∀ a ∈ d.policies.flatten, ':' ∈ a.resource)
    (hg : ∀ n, n < acts.length → (n < N || ccGives cfg (ccStates cfg acts n) sp (ccAct acts n)) = true) : NewPolicies y N [d] := by
  have hall : ∀ n, N ≤ n → ccGives cfg (ccStates cfg acts n) sp (ccAct acts n) = true := by
    intro n hn
    have := ccActs (P := fun n a => n < N || ccGives cfg (ccStates cfg acts n) sp a) (acts := acts) (fun n => by simp [ccGives]) hg n
    simpa [Nat.not_lt.mpr hn] using this
  refine ⟨by rw [hdom]; rfl, ?_, ?_, ?_⟩
  · intro j dom' d' hj hd' n hn i r hact
    obtain rfl : d = d' := by
      cases j with
      | zero => simpa using hd'
      | succ j => simp at hd'
    have hx : ccAct acts n = .sys (.fetcher dom' (.answer i r)) := by
      have := hy.act n
      rw [hact] at this
      exact sees_sys this (by simp) (by simp)
    have hs : y.state n = (ccStates cfg acts n).sys := hy.state n
    have hb := hall n hn
    rw [hx] at hb
    cases r with
    | fail e => simp [ccGives] at hb
    | answer st e b =>
      simp only [ccGives, Bool.and_eq_true, decide_eq_true_eq] at hb
      obtain ⟨⟨⟨rfl, hb1⟩, hb2⟩, hb3⟩ := hb
      rw [hs]
      split at hb1
      · rename_i c hc
        split at hb1
        · rename_i a tp hpc
          exact ⟨sp, .inl ⟨e, i, b, rfl, ⟨c, a, tp, hc, hpc⟩, hb2, verifyPolicy_ok.mp hb3⟩, docOf_iff.mp hd⟩
        · simp at hb1
      · simp at hb1
  · intro d' hd' a ha
    rw [List.mem_singleton.mp hd'] at ha
    exact hgood a ha
  · intro n i hn hact
    have hx : ccAct acts n = .sys (.pd (.task i .cancel)) := by
      have := hy.act n
      rw [hact] at this
      exact sees_sys this (by simp) (by simp)
    have hb := hall n hn
    rw [hx] at hb
    simp [ccGives] at hb

/-- Nothing is cancelled. -/
theorem ccNoCancel (h : CcOk cfg acts) {y : SysExec cfg (auT 1500)} (hy : (ccExec h).Rest y)
    (hg : acts.all (fun a => match a with | .sys (.pd (.chk _ .cancel)) => false | _ => true) = true) (k n : Nat) :
    y.act n ≠ .pd (.chk k .cancel) := by
  intro hact
  have hx : ccAct acts n = .sys (.pd (.chk k .cancel)) := by
    have := hy.act n
    rw [hact] at this
    exact sees_sys this (by simp) (by simp)
  unfold ccAct at hx
  cases hn : acts[n]? with
  | none => rw [hn] at hx; simp at hx
  | some a =>
    rw [hn] at hx
    simp only [Option.getD_some] at hx
    subst hx
    have := List.all_eq_true.mp hg _ (List.mem_of_getElem? hn)
    simp at this

/-- The clashing certificate of C43, as in `C70_refuted`. -/
abbrev ccClash : List CAct := ceActs [clashCert] [("ab".toList, ["x".toList]), ("a".toList, ["bc".toList])]

theorem ccClashOk : CcOk ceCfg ccClash := ⟨by decide +kernel, by decide +kernel⟩

end Ex

/-- **C83** is false for the code, because of certificates with roles that clash (C43, C70): the call is granted although the only policies that the
servers ever gave deny the request to "ab:c". -/
theorem C83_refuted : ¬ C83_statement := by
  intro hst
  obtain ⟨y, hy⟩ := CExec.rest_exists (Ex.ccExec Ex.ccClashOk)
  have hnew : NewPolicies y 0 [Ex.ceDoc] := Ex.ccNew Ex.ccClashOk hy rfl (by decide +kernel : docOf Ex.cePolicy = .ok Ex.ceDoc) (by decide)
    (by decide +kernel)
  obtain ⟨t, ht, hp⟩ := Ex.exists_of_map (o := (Ex.ccStates Ex.ceCfg Ex.ccClash 27).sys.pd.tasks[0]?) (p := fun t : Task => decide (t.ret ≠ none))
    (by decide +kernel)
  have hsys : ∀ n, y.state n = (Ex.ccStates Ex.ceCfg Ex.ccClash n).sys := hy.state
  have hlen : (y.state 0).pd.tasks.length = 0 := by rw [hsys 0]; rfl
  have hcall : (Ex.ccStates Ex.ceCfg Ex.ccClash Ex.ccClash.length).certs[0]? =
      some (Ex.ceCall [Ex.clashCert] [("ab".toList, ["x".toList]), ("a".toList, ["bc".toList])] (.ok ())) := by decide +kernel
  obtain ⟨d, ⟨x, hx, a, ha, happ, hnd⟩, hno⟩ := (hst Ex.ceCfg (Ex.auT 1500) (Ex.ccExec Ex.ccClashOk) y 0 [Ex.ceDoc] 0 27 0 t (by decide) rfl (by decide)
    hy hnew (Nat.le_refl 0) (by omega) (by intro i t hi; omega) (by omega) (by rw [hsys 27]; exact ht) (by simpa using hp)
    Ex.ccClash.length 0 _ (.ok ()) (by decide) hcall rfl (fun k _ p _ => Ex.ccNoCancel Ex.ccClashOk hy (by decide +kernel) k p)
    (by
      intro d hd
      rw [List.mem_singleton.mp hd]
      have : ((Ex.ccExec Ex.ccClashOk).state Ex.ccClash.length).sys.auth.now = Ex.auT 1500 := by decide +kernel
      rw [this]
      decide)).mp rfl
  have hpairs : certPairs Ex.ceCfg.auth.roleCertURIPrefix [Ex.clashCert] =
      [("a".toList, "bc".toList), ("ab".toList, "x".toList), ("ab".toList, "c".toList)] := by decide +kernel
  have hc : NamesRole Ex.ceCfg.auth.roleCertURIPrefix [Ex.clashCert] "ab".toList "c".toList := mem_certPairs.mp (by rw [hpairs]; simp)
  have hd : d = "ab".toList := by
    have hin := mem_certPairs.mpr hx
    simp only [Ex.ceCall] at hin
    rw [hpairs] at hin
    simp only [List.mem_cons, Prod.mk.injEq, List.not_mem_nil, or_false] at hin
    rcases hin with ⟨rfl, rfl⟩ | ⟨rfl, _⟩ | ⟨rfl, _⟩
    · exfalso
      simp only [allAssertions, Ex.ceDoc, List.map_cons, List.map_nil, List.mem_flatMap, List.mem_singleton] at ha
      obtain ⟨o, rfl, ha⟩ := ha
      have hr := happ.1
      simp only [List.flatten_cons, List.flatten_nil, List.append_nil, List.mem_cons, List.not_mem_nil, or_false] at ha
      rcases ha with rfl | rfl
      · exact absurd hr (by decide +kernel)
      · exact absurd hr (by decide +kernel)
    · rfl
    · rfl
  subst hd
  exact hno ⟨_, hc, Ex.ceDeny, by simp [allAssertions, Ex.ceDoc], Ex.applies_of rfl (by decide +kernel), by decide +kernel⟩

namespace Ex

/-- The new policy allows "c" what the old one allowed "x". -/
def ccAllow : RawAssertion := ⟨"ab:role.c".toList, "read".toList, "ab:r".toList, "ALLOW".toList⟩

def ccPolicy : SignedPolicy :=
  { data := some { policyData := some ⟨"ab".toList, [some ⟨[some ccAllow]⟩]⟩, zmsSignature := "m".toList, zmsKeyId := "0".toList,
                   expires := some (auT 5000) },
    signature := "z".toList, keyId := "1".toList }

def ccDoc : PolicyDoc := ⟨[[ccAllow]], auT 5000⟩

def ccCfg : SysCfg :=
  { syCfg ["ab".toList] with
    fetch := { (syCfg ["ab".toList]).fetch with
      codec := { (syCfg ["ab".toList]).fetch.codec with
        decode := fun b => if b = "A".toList then some (some cePolicy) else if b = "B".toList then some (some ccPolicy) else none } } }

/-- Call number `i`, with one check. -/
def ccCall (i : Nat) (role : Str) (sched : List CheckAct) : List CAct :=
  [.call [ceCert role] "read".toList "r".toList [("ab".toList, [role])], .next i, .sys (.pd (.load i))] ++
  sched.map (fun a => .sys (.pd (.chk i a))) ++ [.ret i]

/-- The old policy is loaded, and a call for "x" is made; -/
def ccPre : List CAct := (syKeys ++ ceLoad).map .sys ++ ccCall 0 "x".toList schedR

/-- then the new one is loaded, -/
def ccLoad : List SysAct :=
  [.pd (.update [some ccDoc]), .pd (.task 1 (.job 0 [])), .fetcher "ab".toList (.send 1),
   .fetcher "ab".toList (.answer 1 (.answer 200 "u".toList "B".toList))] ++
  ([.task 1 (.job 0 []), .task 1 (.merge 0 0), .task 1 (.merge 0 0), .task 1 (.job 0 [ccAllow]),
    .task 1 (.job 0 []), .task 1 (.job 0 []), .task 1 (.job 0 []), .finish 1] : List PdAct).map .pd

/-- and calls for "x" and for "c" are made. -/
def ccAll : List CAct := ccPre ++ ccLoad.map .sys ++ ccCall 1 "x".toList [.worker 0, .close, .recv] ++ ccCall 2 "c".toList schedR

theorem ccOk : CcOk ccCfg ccAll := ⟨by decide +kernel, by decide +kernel⟩

theorem ccRegular (k : Str) : RegularAt asciiCase [some ccDoc] (auT 1500) (auT 1500) (auT 1500) k := by
  refine .inr ⟨0, ccDoc, ⟨rfl, ?_, .inr (by decide)⟩, ?_⟩
  · intro j d hj hd
    match j with
    | 0 => exact absurd rfl hj
    | n + 1 => simp at hd
  · intro a ha _
    have : a = ccAllow := by simpa [ccDoc] using ha
    subst this
    refine ⟨fun b hb _ => ?_, fun hd => absurd hd (by decide)⟩
    have : b = ccAllow := by simpa [ccDoc] using hb
    subst this
    exact ⟨rfl, rfl, rfl⟩

/-- The call number `i` with its result. -/
def ccDone (i b : Nat) (role : Str) (r : Res Unit) : CertCall :=
  ⟨[ceCert role], "read".toList, "r".toList, [("ab".toList, [role])], b, [i], .done r⟩

end Ex

/-- The hypotheses of `C83_exact_partial` are met: before the change a certificate for "x" is granted access; afterwards one for "x" is refused and
one for "c" is granted, by calls that begin when the new policy has been loaded. -/
example : ∃ y t, (Ex.ccExec Ex.ccOk).Rest y ∧ NewPolicies y 36 [Ex.ccDoc] ∧
    (∀ (i : Nat) (t : Task), i < (y.state 36).pd.tasks.length → (y.state 36).pd.tasks[i]? = some t → t.isUpdate = true → t.ret ≠ none) ∧
    (y.state 36).pd.tasks.length ≤ 1 ∧ (y.state 48).pd.tasks[1]? = some t ∧ t.ret ≠ none ∧
    ((Ex.ccExec Ex.ccOk).state Ex.ccAll.length).certs = [Ex.ccDone 0 27 "x".toList (.ok ()), Ex.ccDone 1 48 "x".toList (.err .noMatch),
      Ex.ccDone 2 55 "c".toList (.ok ())] ∧
    (∀ k p, y.act p ≠ .pd (.chk k .cancel)) ∧ NoClash Ex.ccCfg.auth.roleCertURIPrefix [Ex.ceCert "x".toList] ∧
    NoClash Ex.ccCfg.auth.roleCertURIPrefix [Ex.ceCert "c".toList] ∧
    ((Ex.ccExec Ex.ccOk).state Ex.ccAll.length).sys.auth.now = Ex.auT 1500 ∧
    ∀ k, RegularAt Ex.ccCfg.auth.U ([Ex.ccDoc].map some) (Ex.auT 1500) (Ex.auT 1500) (Ex.auT 1500) k := by
  obtain ⟨y, hy⟩ := CExec.rest_exists (Ex.ccExec Ex.ccOk)
  have hsys : ∀ n, y.state n = (Ex.ccStates Ex.ccCfg Ex.ccAll n).sys := hy.state
  obtain ⟨t, ht, hp⟩ := Ex.exists_of_map (o := (Ex.ccStates Ex.ccCfg Ex.ccAll 48).sys.pd.tasks[1]?) (p := fun t : Task => decide (t.ret ≠ none))
    (by decide +kernel)
  have hall : (Ex.ccStates Ex.ccCfg Ex.ccAll 36).sys.pd.tasks.all (fun t => decide (t.ret ≠ none)) = true := by decide +kernel
  refine ⟨y, t, hy, Ex.ccNew Ex.ccOk hy rfl (by decide +kernel : docOf Ex.ccPolicy = .ok Ex.ccDoc) (by decide) (by decide +kernel), ?_, ?_,
    by rw [hsys 48]; exact ht, by simpa using hp, by decide +kernel, Ex.ccNoCancel Ex.ccOk hy (by decide +kernel), Ex.ceNoClash _ (by decide +kernel),
    Ex.ceNoClash _ (by decide +kernel), by decide +kernel, Ex.ccRegular⟩
  · intro i t _ ht _
    rw [hsys 36] at ht
    simpa using List.all_eq_true.mp hall t (List.mem_of_getElem? ht)
  · rw [hsys 36]; decide +kernel

namespace Ex

variable {cfg : SysCfg} {now : Int}

/-- Every other step is one of `y`. -/
def csSys (y : SysExec cfg now) (hlive : ∀ n, (y.state n).dead = false) : SysExec cfg now where
  state n := y.state ((n + 1) / 2)
  act n := if n % 2 = 0 then y.act (n / 2) else .tick 0
  init := y.init
  next := by
    intro n
    by_cases h : n % 2 = 0
    · simp only [if_pos h]
      rw [show (n + 1) / 2 = n / 2 by omega, show (n + 1 + 1) / 2 = n / 2 + 1 by omega]
      exact y.next _
    · simp only [if_neg h]
      rw [show (n + 1 + 1) / 2 = (n + 1) / 2 by omega]
      exact sysStep_tick0 (hlive _)

/-- In between somebody calls `VerifyRoleCert` with a certificate that names no role. -/
def csAct (y : SysExec cfg now) (n : Nat) : CAct :=
  if n % 2 = 0 then .sys (y.act (n / 2)) else .call [ceNobody] "read".toList "r".toList []

def csStates (y : SysExec cfg now) : Nat → CSys
  | 0 => cInit cfg now
  | n + 1 => (cStep cfg (csStates y n) (csAct y n)).getD (csStates y n)

theorem csPerm : ([] : List (Str × List Str)).isPerm [] = true := rfl

theorem csInv (y : SysExec cfg now) (hlive : ∀ n, (y.state n).dead = false) (hpol : cfg.auth.disablePolicyd = false)
    (hno : (certRoles cfg.auth.roleCertURIPrefix [ceNobody]).roles = []) (n : Nat) :
    (csStates y n).sys = y.state ((n + 1) / 2) ∧ (∀ c ∈ (csStates y n).certs, c.pc = .done (.err (.other "invalid role certificate"))) ∧
    cStep cfg (csStates y n) (csAct y n) = some (csStates y (n + 1)) ∧ (csStates y n).certs.length = n / 2 := by
  have step : ∀ n, (csStates y n).sys = y.state ((n + 1) / 2) → cStep cfg (csStates y n) (csAct y n) = some (csStates y (n + 1)) := by
    intro n h
    show _ = some ((cStep cfg (csStates y n) (csAct y n)).getD (csStates y n))
    by_cases he : n % 2 = 0
    · have hst := y.next (n / 2)
      rw [show n / 2 = (n + 1) / 2 by omega, ← h] at hst
      simp only [csAct, if_pos he, cStep]
      rw [show n / 2 = (n + 1) / 2 by omega, hst]
      rfl
    · have hd : (csStates y n).sys.dead = false := by rw [h]; exact hlive _
      simp [csAct, he, cStep, hd, hno, csPerm]
  induction n with
  | zero => exact ⟨y.init.symm, by simp [csStates, cInit], step 0 y.init.symm, rfl⟩
  | succ n ih =>
    obtain ⟨h1, h2, h3, h4⟩ := ih
    have key : (csStates y (n + 1)).sys = y.state ((n + 1 + 1) / 2) ∧
        (∀ c ∈ (csStates y (n + 1)).certs, c.pc = .done (.err (.other "invalid role certificate"))) ∧ (csStates y (n + 1)).certs.length = (n + 1) / 2 := by
      by_cases he : n % 2 = 0
      · have hst := y.next (n / 2)
        rw [show n / 2 = (n + 1) / 2 by omega, ← h1] at hst
        simp only [csAct, if_pos he, cStep] at h3
        rw [show n / 2 = (n + 1) / 2 by omega, hst] at h3
        simp only [Option.some.injEq] at h3
        rw [← h3]
        exact ⟨by rw [show (n + 1 + 1) / 2 = (n + 1) / 2 + 1 by omega], h2, by simp only; omega⟩
      · have hd : (csStates y n).sys.dead = false := by rw [h1]; exact hlive _
        simp only [csAct, if_neg he, cStep, hd, hno] at h3
        simp only [csPerm, and_self, if_true, Option.some.injEq] at h3
        rw [← h3]
        refine ⟨by simp only; rw [h1, show (n + 1 + 1) / 2 = (n + 1) / 2 by omega], ?_, by simp only [List.length_append, List.length_singleton]; omega⟩
        intro c hc
        rcases List.mem_append.mp hc with hc | hc
        · exact h2 c hc
        · rw [List.mem_singleton.mp hc]
          simp [certBegin, hpol]
    exact ⟨key.1, key.2.1, step (n + 1) key.1, key.2.2⟩

theorem chLive (n : Nat) : (chExec.state n).dead = false := by
  cases h : (chExec.state n).dead with
  | false => rfl
  | true =>
    have := chExec.next n
    simp [sysStep, h] at this

theorem chNobody : (certRoles chCfg.auth.roleCertURIPrefix [ceNobody]).roles = [] := by decide +kernel

/-- The execution `chExec`, in which update follows update, with a call of `VerifyRoleCert` after every step. -/
def csExec : CExec chCfg (auT 1500) where
  state := csStates chExec
  act := csAct chExec
  init := rfl
  next n := (csInv chExec chLive rfl chNobody n).2.2.1

theorem csRest : csExec.Rest (csSys chExec chLive) := by
  refine ⟨fun n => (csInv chExec chLive rfl chNobody n).1.symm, fun n => ?_⟩
  show CActSees _ (csAct chExec n) (if n % 2 = 0 then chExec.act (n / 2) else .tick 0)
  unfold csAct
  split <;> exact rfl

theorem csCertFair : CertFair csExec := by
  intro i n h
  exfalso
  obtain ⟨a, ha, hs⟩ := h n (Nat.le_refl n)
  have hc := (csInv chExec chLive rfl chNobody n).2.1
  change OfCert (csStates chExec n) i a at ha
  change (cStep chCfg (csStates chExec n) a).isSome = true at hs
  generalize csStates chExec n = s at ha hs hc
  have hget : ∀ c, s.certs[i]? = some c → c.pc = .done (.err (.other "invalid role certificate")) := fun c hi => hc c (List.mem_of_getElem? hi)
  rcases ha with rfl | rfl | ⟨c, k, b, h1, h2, _⟩
  · simp only [cStep] at hs
    split at hs
    · simp at hs
    · rename_i c hi
      rw [hget c hi] at hs
      simp at hs
  · simp only [cStep] at hs
    split at hs
    · simp at hs
    · split at hs
      · simp at hs
      · rename_i c hi
        rw [hget c hi] at hs
        simp at hs
  · rw [hget c h1] at h2
    simp at h2

theorem csUpdFair : UpdFair (csSys chExec chLive) := by
  intro th n h
  obtain ⟨m, hm, hd⟩ := chFair th n (fun m hm => by
    have := h (2 * m) (by omega)
    change ∃ a, th.Does a ∧ (sysStep chCfg (chExec.state ((2 * m + 1) / 2)) a).isSome at this
    rwa [show (2 * m + 1) / 2 = m by omega] at this)
  refine ⟨2 * m, by omega, ?_⟩
  show th.Does (if 2 * m % 2 = 0 then chExec.act (2 * m / 2) else .tick 0)
  rw [if_pos (by omega), show 2 * m / 2 = m by omega]
  exact hd

theorem csForetold : Foretold (csSys chExec chLive) := fun n i j t f r ht hj hr => chForetold ((n + 1) / 2) i j t f r ht hj hr

theorem csNew : NewPolicies (csSys chExec chLive) (2 * chLen) [chDoc] := by
  refine ⟨chNew.len, ?_, chNew.good, ?_⟩
  · intro j dom d hj hd n hn i r hact
    change (if n % 2 = 0 then chExec.act (n / 2) else .tick 0) = _ at hact
    split at hact
    · obtain ⟨sp, h1, h2⟩ := chNew.serves j dom d hj hd (n / 2) (by omega) i r hact
      refine ⟨sp, ?_, h2⟩
      show FAct.succeeds _ ((chExec.state ((n + 1) / 2)).fs dom) _ _
      rwa [show (n + 1) / 2 = n / 2 by omega]
    · simp at hact
  · intro n i hn hact
    change (if n % 2 = 0 then chExec.act (n / 2) else .tick 0) = _ at hact
    split at hact
    · exact chNew.noCancel (n / 2) i (by omega) hact
    · simp at hact

theorem csAgain (n : Nat) : ∃ m fetch, n ≤ m ∧ (csSys chExec chLive).act m = .pd (.update fetch) := by
  obtain ⟨m, fetch, hm, h⟩ := chAgain n
  refine ⟨2 * m, fetch, by omega, ?_⟩
  show (if 2 * m % 2 = 0 then chExec.act (2 * m / 2) else .tick 0) = _
  rw [if_pos (by omega), show 2 * m / 2 = m by omega]
  exact h

end Ex

/-- The hypotheses of `C83_takes_effect_partial` are met by an execution in which calls of `VerifyRoleCert` are made at all times. -/
example : Ex.csExec.Rest (Ex.csSys Ex.chExec Ex.chLive) ∧ CertFair Ex.csExec ∧ UpdFair (Ex.csSys Ex.chExec Ex.chLive) ∧
    Foretold (Ex.csSys Ex.chExec Ex.chLive) ∧ NewPolicies (Ex.csSys Ex.chExec Ex.chLive) (2 * Ex.chLen) [Ex.chDoc] ∧
    (∀ n, ∃ m fetch, n ≤ m ∧ (Ex.csSys Ex.chExec Ex.chLive).act m = .pd (.update fetch)) ∧
    ∀ M, ∃ n i c, (Ex.csExec.state M).certs.length ≤ i ∧ (Ex.csExec.state n).certs[i]? = some c := by
  refine ⟨Ex.csRest, Ex.csCertFair, Ex.csUpdFair, Ex.csForetold, Ex.csNew, Ex.csAgain, fun M => ?_⟩
  obtain ⟨c, hc⟩ := getElem?_of_lt (l := (Ex.csExec.state (M + 2)).certs) (i := M / 2)
    (by have := (Ex.csInv Ex.chExec Ex.chLive rfl Ex.chNobody (M + 2)).2.2.2; change (Ex.csStates Ex.chExec (M + 2)).certs.length > _; omega)
  exact ⟨M + 2, M / 2, c, Nat.le_of_eq (Ex.csInv Ex.chExec Ex.chLive rfl Ex.chNobody M).2.2.2, hc⟩

end Athenz
