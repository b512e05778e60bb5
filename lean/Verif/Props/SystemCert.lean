import Verif.Proofs.SystemCert
import Verif.Props.InForce
import Verif.Props.RoleCert

/-!
# C70: role certificates in the assembled authorizer
-/

namespace Athenz
open Spec

/-- Since step number `n` of the history `h`, which ends in `s`, there was a moment with policies in force that satisfy `P`, if they are regular
for the roles named for the domain `d`, and the refreshes of expired entries that began while they were in force got nothing about these roles that
they do not say. -/
def AtSomeMoment (cfg : SysCfg) (now : Int) (h : List SysAct) (s : Sys) (n : Nat) (certs : List Cert) (d : Str)
    (P : List RawAssertion → Prop) : Prop :=
  ∃ h1 h2 s1 docs, h = h1 ++ h2 ∧ n ≤ h1.length ∧ sysRun cfg (sysInit cfg now) h1 = some s1 ∧ InForce cfg (sysInit cfg now) h1 s1 docs ∧
    ((∀ x, NamesRole cfg.auth.roleCertURIPrefix certs d x → RegularAt cfg.auth.U docs now s.auth.now s.auth.now (d ++ ":role.".toList ++ x)) →
      RefreshedWith cfg (sysInit cfg now) h1 s1 h s
        (fun d' => ∀ x, NamesRole cfg.auth.roleCertURIPrefix certs d x → SaysAlike docs now s.auth.now (d ++ ":role.".toList ++ x) d') →
      P (allAssertions docs))

/-- The assertions allow one of the roles named for `d` the request and deny it none of them. -/
def DomainAllows (cfg : SysCfg) (c : CertCall) (d : Str) (A : List RawAssertion) : Prop :=
  (∃ x, NamesRole cfg.auth.roleCertURIPrefix c.certs d x ∧ Allowed cfg.auth.U A d x c.act c.res) ∧
    ¬ ∃ x, NamesRole cfg.auth.roleCertURIPrefix c.certs d x ∧ Denied cfg.auth.U A d x c.act c.res

/-- What the check number `j` of a call was about. -/
theorem CertCallInv.turn {cfg : SysCfg} {now : Int} {h : List SysAct} {s : Sys} {c : CertCall} (hi : CertCallInv cfg now h s c)
    {d : Str × List Str} {j : Nat} (hd : c.order[j]? = some d) :
    d.2 ≠ [] ∧ d.2.Nodup ∧ ∀ x ∈ d.2, NamesRole cfg.auth.roleCertURIPrefix c.certs d.1 x := by
  obtain ⟨d1, d2⟩ := d
  exact certRoles_sound (hi.perm.mem_iff.mp (List.mem_of_getElem? hd))

/-- The moment at which a check of the call loaded the policies. -/
theorem CertCallInv.moment {cfg : SysCfg} {now : Int} (hnow : 0 ≤ now) {h : List SysAct} {s : Sys}
    {c : CertCall} (hi : CertCallInv cfg now h s c) (hr : sysRun cfg (sysInit cfg now) h = some s)
    {k : Nat} (hk : k ∈ c.checks) {q : CheckReq} {r : Res (List Str)} (hret : Returned s k q r) :
    ∃ h1 h2 s1 docs, h = h1 ++ h2 ∧ c.begun ≤ h1.length ∧ sysRun cfg (sysInit cfg now) h1 = some s1 ∧ InForce cfg (sysInit cfg now) h1 s1 docs ∧
      ((∀ role ∈ q.roles, RegularAt cfg.auth.U docs now s.auth.now s.auth.now (q.domain ++ ":role.".toList ++ role)) →
        RefreshedWith cfg (sysInit cfg now) h1 s1 h s (fun d => ∀ role ∈ q.roles, SaysAlike docs now s.auth.now (q.domain ++ ":role.".toList ++ role) d) →
        Decision cfg.auth.U (allAssertions docs) q r) := by
  obtain ⟨chk, hck, rfl, hco⟩ := hret
  obtain ⟨h1, h2, s1, docs, he, hr1, hf, _, hdec⟩ := C68_check_partial cfg now hnow h s hr k chk r hck hco
  refine ⟨h1, _, s1, docs, he, ?_, hr1, hf, hdec⟩
  refine Classical.byContradiction fun hlt => ?_
  have hk' := hi.fresh k hk h1 _ s1 he hr1 (by omega)
  rw [he, sysRun_append, hr1] at hr
  simp only [Option.bind_some, sysRun] at hr
  split at hr
  · simp at hr
  · rename_i s2 hs2
    obtain ⟨_, he2⟩ := sysStep_effect hs2
    cases he2 with
    | pd b pd' D F W ha hp hD hF hbr =>
      unfold pdStep at hp
      split at hp
      · simp at hp
      · simp only [List.getElem?_eq_none hk'] at hp
        simp at hp

/-- **C70**.  Every grant to a role certificate goes back to a policy that was received for a configured domain, unexpired, with valid
signatures, and allows the action on the resource to a role that the certificates name. -/
theorem C70_origin (cfg : SysCfg) (now : Int) (hpol : cfg.auth.disablePolicyd = false) (as : List CAct) (s : CSys)
    (hr : cRun cfg (cInit cfg now) as = some s) (i : Nat) (c : CertCall) (hc : s.certs[i]? = some c) (hok : c.pc = .done (.ok ())) :
    sysRun cfg (sysInit cfg now) s.trace = some s.sys ∧
    ∃ d x, NamesRole cfg.auth.roleCertURIPrefix c.certs d x ∧ ∃ dom ∈ cfg.domains, ∃ a, ReceivedAssertion cfg (sysInit cfg now) s.trace dom a ∧
      Applies cfg.auth.U a d x c.act c.res ∧ ¬ IsDeny cfg.auth.U a := by
  have hinv := certInv_run hpol hr
  have hi := hinv.calls i c hc
  refine ⟨hinv.run, ?_⟩
  have hpc := hi.pc
  simp only [hok] at hpc
  rcases hpc with ⟨_, h⟩ | ⟨k, d, r', hk, hd, ⟨chk, hck, hq, hret⟩, hr'⟩
  · simp at h
  · cases r' with
    | err e => simp at hr'
    | panic => simp at hr'
    | ok rs =>
      obtain ⟨A, hA, hg⟩ := (sysOrigin_run hinv.run).2.pd
      obtain ⟨h1, h2⟩ := hg.grant (List.mem_of_getElem? hck) (returned_loaded hinv.run hck hret) hret
      obtain ⟨x, hx⟩ := List.exists_mem_of_ne_nil rs h1
      obtain ⟨h3, a, ha, h4, h5⟩ := h2 x hx
      obtain ⟨dom, hdom, hrec⟩ := hA a ha
      rw [hq] at h3 h4
      exact ⟨d.1, x, (hi.turn hd).2.2 x h3, dom, hdom, a, hrec, h4, h5⟩

/-- **C70**.  A call that granted did so by policies in force at a moment during the call that allow the request to one of the roles which
the certificates name for some domain, and deny it to none of those.  Missing: certificates with clashing roles (C43), irregular documents
(C68), and policies that were refreshed in force (C13). -/
theorem C70_granted_partial (cfg : SysCfg) (now : Int) (hnow : 0 ≤ now) (hpol : cfg.auth.disablePolicyd = false) (as : List CAct) (s : CSys)
    (hr : cRun cfg (cInit cfg now) as = some s) (i : Nat) (c : CertCall)
    (hc : s.certs[i]? = some c) (hn : NoClash cfg.auth.roleCertURIPrefix c.certs) (hok : c.pc = .done (.ok ())) :
    ∃ d, AtSomeMoment cfg now s.trace s.sys c.begun c.certs d (DomainAllows cfg c d) := by
  have hinv := certInv_run hpol hr
  have hi := hinv.calls i c hc
  have hpc := hi.pc
  simp only [hok] at hpc
  rcases hpc with ⟨_, h⟩ | ⟨k, d, r', hk, hd, hret, hr'⟩
  · simp at h
  · cases r' with
    | err e => simp at hr'
    | panic => simp at hr'
    | ok rs =>
      obtain ⟨h1, h2, s1, docs, g1, g2, g3, g4, g5⟩ := hi.moment hnow hinv.run (List.mem_of_getLast? hk) hret
      refine ⟨d.1, h1, h2, s1, docs, g1, g2, g3, g4, fun hreg hrw => ?_⟩
      obtain ⟨_, _, hnames⟩ := certRoles_exact hn (hi.perm.mem_iff.mp (List.mem_of_getElem? hd) : (d.1, d.2) ∈ _)
      obtain ⟨⟨x, hx, hax⟩, hnd, _⟩ := g5 (fun x hx => hreg x ((hnames x).mp hx)) (hrw.imp fun _ h x hx => h x ((hnames x).mp hx))
      exact ⟨⟨x, (hnames x).mp hx, hax⟩, fun ⟨y, hy, hdy⟩ => hnd ⟨y, (hnames y).mpr hy, hdy⟩⟩

/-- **C70**.  If a call failed although none of its checks was cancelled, then for every domain there was a moment during the call at which
the policies in force did not allow the request to the roles which the certificates name for it.  Missing: as for `C70_granted_partial`. -/
theorem C70_refused_partial (cfg : SysCfg) (now : Int) (hnow : 0 ≤ now) (hpol : cfg.auth.disablePolicyd = false) (as : List CAct) (s : CSys)
    (hr : cRun cfg (cInit cfg now) as = some s) (i : Nat) (c : CertCall)
    (hc : s.certs[i]? = some c) (hn : NoClash cfg.auth.roleCertURIPrefix c.certs) (e : Err) (herr : c.pc = .done (.err e))
    (hcancel : ∀ k ∈ c.checks, .pd (.chk k .cancel) ∉ s.trace) (d x : Str) (hx : NamesRole cfg.auth.roleCertURIPrefix c.certs d x) :
    AtSomeMoment cfg now s.trace s.sys c.begun c.certs d (fun A => ¬ DomainAllows cfg c d A) := by
  have hinv := certInv_run hpol hr
  have hi := hinv.calls i c hc
  have hpc := hi.pc
  simp only [herr] at hpc
  obtain ⟨rs, hrs, _⟩ := certRoles_complete hn hx
  obtain ⟨j, hj⟩ := List.mem_iff_getElem?.mp (hi.perm.mem_iff.mpr hrs)
  rcases hpc with ⟨h, _⟩ | ⟨k, d', r', hk, hd, hret, hr'⟩
  · rw [h] at hj; simp at hj
  · cases r' with
    | ok rs => simp at hr'
    | panic => simp at hr'
    | err e' =>
      obtain ⟨_, hlen, hf⟩ := hr'
      have hjl : j < c.checks.length := by rw [hlen]; exact lt_of_getElem? hj
      obtain ⟨k', hk'⟩ : ∃ k', c.checks[j]? = some k' := ⟨_, List.getElem?_eq_getElem hjl⟩
      have hmem := List.mem_of_getElem? hk'
      obtain ⟨e'', hret'⟩ := hf j k' _ hjl hk' hj
      obtain ⟨h1, h2, s1, docs, g1, g2, g3, g4, g5⟩ := hi.moment hnow hinv.run hmem hret'
      refine ⟨h1, h2, s1, docs, g1, g2, g3, g4, fun hreg hrw => ?_⟩
      obtain ⟨_, _, hnames⟩ := certRoles_exact hn hrs
      rintro ⟨⟨y, hy, hay⟩, hnd⟩
      rcases g5 (fun x hx => hreg x ((hnames x).mp hx)) (hrw.imp fun _ h x hx => h x ((hnames x).mp hx)) with rfl | ⟨_, z, hz, hdz⟩ | ⟨_, hno⟩
      · obtain ⟨chk, hck, _, hco⟩ := hret'
        exact hcancel k' hmem (parent_history _ _ hinv.run k' chk hck (ctx_parent hinv.run hck hco))
      · exact hnd ⟨z, (hnames z).mp hz, hdz⟩
      · exact (hno y ((hnames y).mpr hy)).1 hay

/-- **C70**.  A call with certificates that name no role fails at once, without any check. -/
theorem C70_unnamed (cfg : SysCfg) (now : Int) (hpol : cfg.auth.disablePolicyd = false) (as : List CAct) (s : CSys)
    (hr : cRun cfg (cInit cfg now) as = some s) (i : Nat) (c : CertCall) (hc : s.certs[i]? = some c)
    (hno : ∀ d x, ¬ NamesRole cfg.auth.roleCertURIPrefix c.certs d x) :
    c.pc = .done (.err (.other "invalid role certificate")) ∧ c.checks = [] := by
  have hi := (certInv_run hpol hr).calls i c hc
  have hord : c.order = [] := by
    cases ho : c.order with
    | nil => rfl
    | cons d ds =>
      exfalso
      obtain ⟨h1, _, h3⟩ := hi.turn (d := d) (j := 0) (by rw [ho]; rfl)
      obtain ⟨x, hx⟩ := List.exists_mem_of_ne_nil _ h1
      exact hno _ _ (h3 x hx)
  have hch : c.checks = [] := by
    have := hi.len
    rw [hord] at this
    exact List.length_eq_zero_iff.mp (by simpa using this)
  refine ⟨?_, hch⟩
  have hpc := hi.pc
  cases hp : c.pc with
  | next => simp only [hp] at hpc; rw [hord] at hpc; simp at hpc
  | wait => simp only [hp] at hpc; exact absurd hch hpc.1
  | done r =>
    simp only [hp] at hpc
    rcases hpc with ⟨_, h⟩ | ⟨k, d, r', hk, hd, _⟩
    · rw [h]
    · rw [hord] at hd; simp at hd

/-- No call ends with a panic. -/
theorem C70_no_panic (cfg : SysCfg) (now : Int) (hpol : cfg.auth.disablePolicyd = false) (as : List CAct) (s : CSys)
    (hr : cRun cfg (cInit cfg now) as = some s) (i : Nat) (c : CertCall) (hc : s.certs[i]? = some c) : c.pc ≠ .done .panic := by
  intro hp
  have hinv := certInv_run hpol hr
  have hpc := (hinv.calls i c hc).pc
  simp only [hp] at hpc
  rcases hpc with ⟨_, h⟩ | ⟨k, d', r', hk, hd, ⟨chk, hck, _, hret⟩, hr'⟩
  · simp at h
  · cases r' with
    | ok rs => simp at hr'
    | err e => simp at hr'
    | panic =>
      obtain ⟨A, _, hg⟩ := (sysOrigin_run hinv.run).2.pd
      obtain ⟨v0, cs, hv0, hrun, hm⟩ := hg.checks chk (List.mem_of_getElem? hck) (returned_loaded hinv.run hck hret)
      have hI := (CheckReq.init_inv cfg.auth.U chk.q (SoundView cfg.auth.U A) v0 hv0).run (as := cs) (by
        intro a ha
        cases a with
        | mutate v => exact hm v ha
        | _ => trivial) hrun
      exact hI.ret _ hret

/-- The full statement of C70 about decisions, for executions without background refresh: if the same policies are in force during the
whole call, unexpired, and none of its checks is cancelled, then it grants exactly if they allow the request to the certificates. -/
def C70_statement : Prop :=
  ∀ (cfg : SysCfg) (now : Int) (as : List CAct) (s : CSys) (i : Nat) (c : CertCall) (r : Res Unit) (docs : List (Option PolicyDoc)), 0 ≤ now →
    cfg.auth.disablePolicyd = false → cRun cfg (cInit cfg now) as = some s → (∀ n f, .pd (.hook n f) ∉ s.trace) → s.certs[i]? = some c →
    c.pc = .done r → (∀ k ∈ c.checks, .pd (.chk k .cancel) ∉ s.trace) → OnlyInForce cfg (sysInit cfg now) s.trace c.begun docs →
    (∀ d, some d ∈ docs → s.sys.auth.now < d.expires ∧ d.expires + s.sys.auth.now < 2 ^ 63) →
    (r = .ok () ↔ CertAllowed cfg.auth.U (allAssertions docs) cfg.auth.roleCertURIPrefix c.certs c.act c.res)

/-- **C70**.  It holds if the policies are regular for the roles named, these do not clash, and the refreshes of expired entries that began while
they were in force got nothing about these roles that they do not say.  Missing: other policies and certificates, and policies refreshed with
others (C13). -/
theorem C70_exact_partial (cfg : SysCfg) (now : Int) (hnow : 0 ≤ now) (hpol : cfg.auth.disablePolicyd = false) (as : List CAct) (s : CSys)
    (hr : cRun cfg (cInit cfg now) as = some s) (i : Nat) (c : CertCall) (r : Res Unit) (docs : List (Option PolicyDoc))
    (hrw : RefreshedSince cfg (sysInit cfg now) s.trace s.sys c.begun
      (fun d' => ∀ d x, NamesRole cfg.auth.roleCertURIPrefix c.certs d x → SaysAlike docs now s.sys.auth.now (d ++ ":role.".toList ++ x) d'))
    (hc : s.certs[i]? = some c) (hn : NoClash cfg.auth.roleCertURIPrefix c.certs) (hdone : c.pc = .done r)
    (hcancel : ∀ k ∈ c.checks, .pd (.chk k .cancel) ∉ s.trace) (honly : OnlyInForce cfg (sysInit cfg now) s.trace c.begun docs)
    (hreg : ∀ d x, NamesRole cfg.auth.roleCertURIPrefix c.certs d x →
      RegularAt cfg.auth.U docs now s.sys.auth.now s.sys.auth.now (d ++ ":role.".toList ++ x)) :
    r = .ok () ↔ CertAllowed cfg.auth.U (allAssertions docs) cfg.auth.roleCertURIPrefix c.certs c.act c.res := by
  constructor
  · rintro rfl
    obtain ⟨d, h1, h2, s1, docs', g1, g2, g3, g4, g5⟩ := C70_granted_partial cfg now hnow hpol as s hr i c hc hn hdone
    obtain rfl := honly h1 h2 s1 docs' g1 g2 g3 g4
    exact ⟨d, g5 (hreg d) ((hrw h1 h2 s1 g1 g2 g3).imp fun _ h => h d)⟩
  · rintro ⟨d, hall⟩
    cases r with
    | ok x => rfl
    | panic => exact absurd hdone (C70_no_panic cfg now hpol as s hr i c hc)
    | err e =>
      obtain ⟨x, hx, _⟩ := hall.1
      obtain ⟨h1, h2, s1, docs', g1, g2, g3, g4, g5⟩ := C70_refused_partial cfg now hnow hpol as s hr i c hc hn e hdone hcancel d x hx
      obtain rfl := honly h1 h2 s1 docs' g1 g2 g3 g4
      exact absurd hall (g5 (hreg d) ((hrw h1 h2 s1 g1 g2 g3).imp fun _ h => h d))

/-! ### Calls return -/

/-- How much a call has left to do. -/
def CSys.certLeft (s : CSys) (i : Nat) : Nat × Nat × Nat × Nat × Nat :=
  match s.certs[i]? with
  | none => (0, 0, 0, 0, 0)
  | some c => (c.order.length - c.checks.length, match c.pc with
    | .wait => (1, match (c.checks.getLast?).bind (s.sys.pd.checks[·]?) with | some chk => chk.left | none => (0, 0, 0))
    | _ => (0, 0, 0, 0))

theorem lex5_wf : WellFounded (Prod.Lex (· < ·) Lex4 : Nat × Nat × Nat × Nat × Nat → Nat × Nat × Nat × Nat × Nat → Prop) :=
  (Prod.lex Nat.lt_wfRel ⟨_, lex4_wf⟩).wf

theorem CExec.inv {cfg : SysCfg} {now : Int} (hpol : cfg.auth.disablePolicyd = false) (x : CExec cfg now) (n : Nat) : CertInv cfg now (x.state n) := by
  induction n with
  | zero =>
    rw [x.init]
    exact ⟨rfl, by intro i c hc; simp [cInit] at hc⟩
  | succ n ih => exact ih.step hpol (x.next n)

theorem cStep_alive {cfg : SysCfg} {s s' : CSys} {a : CAct} (hs : cStep cfg s a = some s') : s.sys.dead = false := by
  cases hd : s.sys.dead with
  | false => rfl
  | true =>
    cases a with
    | sys a => simp [cStep, sysStep, hd] at hs
    | call certs act res order => simp [cStep, hd] at hs
    | next i =>
      simp only [cStep, sysStep, hd, if_true] at hs
      repeat' split at hs
      all_goals simp_all
    | ret i => simp [cStep, hd] at hs

theorem cert_ready {cfg : SysCfg} {now : Int} {s : CSys} (hi : CertInv cfg now s)
    (hd : s.sys.dead = false) {i : Nat} {c : CertCall} (hc : s.certs[i]? = some c) (hn : ∀ r, c.pc ≠ .done r) :
    ∃ a, OfCert s i a ∧ (cStep cfg s a).isSome := by
  have h0 := hi.calls i c hc
  have hpc := h0.pc
  cases hp : c.pc with
  | done r => exact absurd hp (hn r)
  | next =>
    simp only [hp] at hpc
    obtain ⟨⟨d, rs⟩, hd'⟩ : ∃ d, c.order[c.checks.length]? = some d := ⟨_, List.getElem?_eq_getElem hpc.1⟩
    refine ⟨.next i, .inl rfl, ?_⟩
    have hcr := ((sysOrigin_run hi.run).1.alive hd).2.1
    simp [cStep, hc, hp, hd', sysStep, hd, sysPd, pdStep, hcr]
  | wait =>
    simp only [hp] at hpc
    obtain ⟨k, hk⟩ : ∃ k, c.checks.getLast? = some k := by
      cases h : c.checks.getLast? with
      | none => exact absurd (List.getLast?_eq_none_iff.mp h) hpc.1
      | some k => exact ⟨k, rfl⟩
    obtain ⟨d, chk, _, hck, _⟩ := h0.asked (c.checks.length - 1) k (by rw [← List.getLast?_eq_getElem?]; exact hk)
    by_cases hret : ∃ r, chk.cs.coll = .ret r
    · obtain ⟨r, hret⟩ := hret
      exact ⟨.ret i, .inr (.inl rfl), by simp [cStep, hd, hc, hp, hk, hck, hret]⟩
    · obtain ⟨a, ha, hs⟩ := check_ready hi.run hd hck (.inr fun r hr => hret ⟨r, hr⟩)
      obtain ⟨s', hs⟩ := Option.isSome_iff_exists.mp hs
      exact ⟨.sys a, .inr (.inr ⟨c, k, a, hc, hp, hk, rfl, ha⟩), by simp [cStep, hs]⟩

theorem cStep_cert {cfg : SysCfg} {now : Int} {s s' : CSys} (hi : CertInv cfg now s) {a : CAct}
    (hs : cStep cfg s a = some s') {i : Nat} {c : CertCall} (hc : s.certs[i]? = some c) :
    ∃ c', s'.certs[i]? = some c' ∧ c'.certs = c.certs ∧ c'.act = c.act ∧ c'.res = c.res ∧
      (OfCert s i a → Prod.Lex (· < ·) Lex4 (s'.certLeft i) (s.certLeft i)) ∧ (¬ OfCert s i a → s'.certLeft i = s.certLeft i) := by
  have h0 := hi.calls i c hc
  -- a step of the rest
  have rest : ∀ (sys : Sys) (b : SysAct) (certs : List CertCall), sysStep cfg s.sys b = some sys → s'.sys = sys → s'.certs = certs →
      certs[i]? = some c → (OfCert s i a ↔ ∃ k, c.pc = .wait ∧ c.checks.getLast? = some k ∧ OfCheck k b) →
      ∃ c', s'.certs[i]? = some c' ∧ c'.certs = c.certs ∧ c'.act = c.act ∧ c'.res = c.res ∧
        (OfCert s i a → Prod.Lex (· < ·) Lex4 (s'.certLeft i) (s.certLeft i)) ∧ (¬ OfCert s i a → s'.certLeft i = s.certLeft i) := by
    rintro sys b certs hst rfl rfl hc' hiff
    refine ⟨c, hc', rfl, rfl, rfl, ?_⟩
    rw [hiff]
    simp only [CSys.certLeft, hc, hc']
    cases hp : c.pc with
    | next => simp
    | done r => simp
    | wait =>
      have hpc := h0.pc
      simp only [hp] at hpc
      obtain ⟨k, hk⟩ : ∃ k, c.checks.getLast? = some k := by
        cases h : c.checks.getLast? with
        | none => exact absurd (List.getLast?_eq_none_iff.mp h) hpc.1
        | some k => exact ⟨k, rfl⟩
      obtain ⟨d, chk, _, hck, _⟩ := h0.asked (c.checks.length - 1) k (by rw [← List.getLast?_eq_getElem?]; exact hk)
      obtain ⟨chk', hck', _, e1, e2, _⟩ := sysStep_chk hst hck
      simp only [hk, Option.bind_some, hck, hck']
      constructor
      · rintro ⟨k', _, hk', hof⟩
        simp only [Option.some.injEq] at hk'
        subst hk'
        exact .right _ (.right _ (e1 hof))
      · intro hno
        rw [(e2 fun h => hno ⟨k, trivial, rfl, h⟩).1]
  have hs0 := hs
  have halive := cStep_alive hs
  unfold cStep at hs
  cases a with
  | sys b =>
    simp only at hs
    split at hs
    · simp at hs
    · rename_i sys hsys
      simp only [Option.some.injEq] at hs; subst hs
      refine rest sys b _ hsys rfl rfl hc ?_
      simp only [OfCert, reduceCtorEq, false_or, CAct.sys.injEq]
      constructor
      · rintro ⟨c', k, b', h1, h2, h3, rfl, h4⟩
        rw [hc] at h1
        simp only [Option.some.injEq] at h1
        subst h1
        exact ⟨k, h2, h3, h4⟩
      · rintro ⟨k, h2, h3, h4⟩
        exact ⟨c, k, b, hc, h2, h3, rfl, h4⟩
  | call certs act res order =>
    simp only at hs
    split at hs
    · simp only [Option.some.injEq] at hs; subst hs
      refine rest s.sys (.tick 0) _ (sysStep_tick0 halive) rfl rfl ?_ ?_
      · rw [List.getElem?_append_left (lt_of_getElem? hc)]; exact hc
      · simp [OfCert, OfCheck]
    · simp at hs
  | next i' =>
    simp only at hs
    split at hs
    · simp at hs
    rename_i c0 hc0
    split at hs
    · rename_i d rs hpc hd
      split at hs
      · simp at hs
      rename_i sys hsys
      simp only [Option.some.injEq] at hs; subst hs
      by_cases hii : i' = i
      · subst hii
        rw [hc] at hc0
        simp only [Option.some.injEq] at hc0
        subst hc0
        have hget : (s.certs.set i' { c with checks := c.checks ++ [s.sys.pd.checks.length], pc := .wait })[i']? =
            some { c with checks := c.checks ++ [s.sys.pd.checks.length], pc := .wait } := by
          rw [List.getElem?_set_self (lt_of_getElem? hc)]
        refine ⟨_, hget, rfl, rfl, rfl, fun _ => ?_, fun h => absurd (.inl rfl) h⟩
        simp only [CSys.certLeft, hget, hc]
        have := lt_of_getElem? hd
        refine .left _ _ ?_
        simp only [List.length_append, List.length_singleton]
        omega
      · refine rest sys _ _ hsys rfl rfl ?_ ?_
        · rw [List.getElem?_set_ne hii]; exact hc
        · simp [OfCert, OfCheck, hii]
    · simp at hs
  | ret i' =>
    simp only at hs
    split at hs
    · simp at hs
    split at hs
    · simp at hs
    rename_i c0 hc0
    split at hs
    · rename_i chk hpc hchk
      split at hs
      · simp at hs
      rename_i r hret
      simp only [Option.some.injEq] at hs; subst hs
      by_cases hii : i' = i
      · subst hii
        rw [hc] at hc0
        simp only [Option.some.injEq] at hc0
        subst hc0
        have hget : (s.certs.set i' { c with pc := c.after r })[i']? = some { c with pc := c.after r } := by
          rw [List.getElem?_set_self (lt_of_getElem? hc)]
        refine ⟨_, hget, rfl, rfl, rfl, fun _ => ?_, fun h => absurd (.inr (.inl rfl)) h⟩
        simp only [CSys.certLeft, hget, hc, hpc]
        have : c.after r ≠ .wait := by cases r <;> simp [CertCall.after]; split <;> simp
        refine .right _ ?_
        cases ha : c.after r with
        | wait => exact absurd ha this
        | next => exact .left _ _ (by simp)
        | done r => exact .left _ _ (by simp)
      · refine rest s.sys (.tick 0) _ (sysStep_tick0 halive) rfl rfl ?_ ?_
        · rw [List.getElem?_set_ne hii]; exact hc
        · simp [OfCert, OfCheck, hii]
    · simp at hs

/-- **C70**.  Whatever else goes on, every call of `VerifyRoleCert` returns. -/
theorem C70_returns (cfg : SysCfg) (now : Int) (hpol : cfg.auth.disablePolicyd = false) (x : CExec cfg now) (hf : CertFair x)
    (n i : Nat) (c : CertCall) (hc : (x.state n).certs[i]? = some c) :
    ∃ m c' r, n ≤ m ∧ (x.state m).certs[i]? = some c' ∧ c'.certs = c.certs ∧ c'.act = c.act ∧ c'.res = c.res ∧ c'.pc = .done r := by
  obtain ⟨m, hm, c', r, h1, h2, h3, h4, h5⟩ := fair_reaches lex5_wf x.state x.act (fun s a => OfCert s i a)
    (fun s => ∃ a, OfCert s i a ∧ (cStep cfg s a).isSome)
    (fun s => ∃ c', s.certs[i]? = some c' ∧ c'.certs = c.certs ∧ c'.act = c.act ∧ c'.res = c.res)
    (fun s => ∃ c' r, s.certs[i]? = some c' ∧ c'.certs = c.certs ∧ c'.act = c.act ∧ c'.res = c.res ∧ c'.pc = .done r) (fun s => s.certLeft i)
    (fun n h => hf i n h)
    (by
      rintro m ⟨c', h1, h2, h3, h4⟩ hg
      exact cert_ready (CExec.inv hpol x m) (cStep_alive (x.next m)) h1 fun r hr => hg ⟨c', r, h1, h2, h3, h4, hr⟩)
    (by
      rintro m ⟨c', h1, h2, h3, h4⟩ _
      obtain ⟨c'', e1, e2, e3, e4, e5, e6⟩ := cStep_cert (CExec.inv hpol x m) (x.next m) h1
      exact ⟨⟨c'', e1, e2.trans h2, e3.trans h3, e4.trans h4⟩, e5, e6⟩)
    n ⟨c, hc, rfl, rfl, rfl⟩
  exact ⟨m, c', r, hm, h1, h2, h3, h4, h5⟩

/-! ### Examples -/

namespace Ex

/-- The domain "ab" allows its role "x" to read and denies its role "c" everything. -/
def ceAllow : RawAssertion := ⟨"ab:role.x".toList, "read".toList, "ab:r".toList, "ALLOW".toList⟩
def ceDeny : RawAssertion := ⟨"ab:role.c".toList, "*".toList, "ab:*".toList, "DENY".toList⟩

def cePolicy : SignedPolicy :=
  { data := some { policyData := some ⟨"ab".toList, [some ⟨[some ceAllow, some ceDeny]⟩]⟩, zmsSignature := "m".toList, zmsKeyId := "0".toList,
                   expires := some (auT 5000) },
    signature := "z".toList, keyId := "1".toList }

def ceDoc : PolicyDoc := ⟨[[ceAllow, ceDeny]], auT 5000⟩

def ceCfg : SysCfg :=
  { syCfg ["ab".toList] with
    fetch := { (syCfg ["ab".toList]).fetch with
      codec := { (syCfg ["ab".toList]).fetch.codec with
        decode := fun b => if b = "A".toList then some (some cePolicy) else none } } }

def ceLoad : List SysAct :=
  [.pd (.update [some ceDoc]), .pd (.task 0 (.job 0 [])), .fetcher "ab".toList (.send 0),
   .fetcher "ab".toList (.answer 0 (.answer 200 "t".toList "A".toList))] ++
  ([.task 0 (.job 0 []), .task 0 (.merge 0 0), .task 0 (.merge 0 0), .task 0 (.merge 0 0), .task 0 (.merge 0 0), .task 0 (.job 0 [ceAllow, ceDeny]),
    .task 0 (.job 0 []), .task 0 (.job 0 []), .task 0 (.job 0 []), .task 0 (.job 0 []), .task 0 (.job 0 []), .finish 0] : List PdAct).map .pd

/-- The keys and the policy arrive, then somebody calls `VerifyRoleCert`, and the first check decides. -/
def ceActs (certs : List Cert) (order : List (Str × List Str)) (sched : List CheckAct := schedR) : List CAct :=
  (syKeys ++ ceLoad).map .sys ++ [.call certs "read".toList "r".toList order, .next 0, .sys (.pd (.load 0))] ++
  sched.map (fun a => .sys (.pd (.chk 0 a))) ++ [.ret 0]

/-- The call with what it returns. -/
def ceCall (certs : List Cert) (order : List (Str × List Str)) (r : Res Unit) : CertCall :=
  ⟨certs, "read".toList, "r".toList, order, 27, [0], .done r⟩

/-- No hook, no cancellation, the call has returned, and at every moment since it began the one update has returned nil with the policy. -/
def ceOk (c : CertCall) (s : CSys) : Bool :=
  s.trace.all (fun a => match a with | .pd (.hook _ _) => false | .pd (.chk _ .cancel) => false | _ => true) && decide (s.certs = [c]) &&
  decide (s.sys.auth.now = auT 1500) &&
  (List.range (s.trace.length + 1)).all fun n => decide (n < 27) ||
    match sysRun ceCfg (sysInit ceCfg (auT 1500)) (s.trace.take n) with
    | none => true
    | some s1 => decide (s1.pd.tasks.map (·.ret) = [some true]) && decide (s1.fetchResult 0 0 = some (some cePolicy))

theorem ceOk_docs {s1 : Sys} {h1 : List SysAct} {docs : List (Option PolicyDoc)} (hret : s1.pd.tasks.map (·.ret) = [some true])
    (hfr : s1.fetchResult 0 0 = some (some cePolicy)) (hin : InForce ceCfg (sysInit ceCfg (auT 1500)) h1 s1 docs) : docs = [some ceDoc] := by
  rcases hin with ⟨_, hn⟩ | ⟨i, ⟨⟨t, ht, _⟩, _⟩, hlen, hf⟩
  · have : some true ∈ s1.pd.tasks.map (·.ret) := by rw [hret]; simp
    obtain ⟨t, ht, hr⟩ := List.mem_map.mp this
    exact absurd hr (hn t ht)
  · have h0 : i = 0 := by
      have h1 := lt_of_getElem? ht
      have h2 : s1.pd.tasks.length = 1 := by simpa using congrArg List.length hret
      omega
    subst h0
    obtain ⟨sp, d, _, h1, h2, h3, _⟩ := hf 0 "ab".toList rfl
    rw [hfr] at h1
    simp only [Option.some.injEq] at h1
    subst h1
    have : docOf cePolicy = .ok ceDoc := by decide +kernel
    rw [← docOf_iff, this] at h2
    simp only [Res.ok.injEq] at h2
    subst h2
    match docs, hlen, h3 with
    | [x], _, h3 => simpa using h3
    | [], _, h3 => simp at h3
    | _ :: _ :: _, hlen, _ => simp [ceCfg, syCfg] at hlen

theorem ceOk_spec {c : CertCall} {s : CSys} (h : ceOk c s = true) (hb : c.begun = 27) :
    (∀ n f, .pd (.hook n f) ∉ s.trace) ∧ s.certs[0]? = some c ∧ (∀ k ∈ c.checks, .pd (.chk k .cancel) ∉ s.trace) ∧
    OnlyInForce ceCfg (sysInit ceCfg (auT 1500)) s.trace c.begun [some ceDoc] ∧ s.sys.auth.now = auT 1500 := by
  simp only [ceOk, Bool.and_eq_true, decide_eq_true_eq, List.all_eq_true] at h
  obtain ⟨⟨⟨h1, h2⟩, h3⟩, h4⟩ := h
  refine ⟨fun n f hm => absurd (h1 _ hm) (by simp), by rw [h2]; rfl, fun k _ hm => absurd (h1 _ hm) (by simp), ?_, h3⟩
  intro p q s1 docs hp hlen hr hin
  have hle : p.length < s.trace.length + 1 := by rw [hp, List.length_append]; omega
  have ht : s.trace.take p.length = p := by rw [hp]; simp
  have := h4 _ (List.mem_range.mpr hle)
  rw [ht, hr] at this
  simp only [Bool.or_eq_true, decide_eq_true_eq, Bool.and_eq_true] at this
  rcases this with h | ⟨g1, g2⟩
  · omega
  · exact ceOk_docs g1 g2 hin

theorem ceRegular (k : Str) : RegularAt asciiCase [some ceDoc] (auT 1500) (auT 1500) (auT 1500) k := by
  refine .inr ⟨0, ceDoc, ⟨rfl, ?_, .inr (by decide)⟩, ?_⟩
  · intro j d hj hd
    match j with
    | 0 => exact absurd rfl hj
    | n + 1 => simp at hd
  · intro a ha _
    simp only [ceDoc, List.flatten_cons, List.flatten_nil, List.append_nil, List.mem_cons, List.not_mem_nil, or_false] at ha
    constructor
    · intro b hb hk
      simp only [ceDoc, List.flatten_cons, List.flatten_nil, List.append_nil, List.mem_cons, List.not_mem_nil, or_false] at hb
      rcases ha with rfl | rfl <;> rcases hb with rfl | rfl
      · exact ⟨rfl, rfl, rfl⟩
      · exact absurd hk (by decide +kernel)
      · exact absurd hk (by decide +kernel)
      · exact ⟨rfl, rfl, rfl⟩
    · intro hd
      rcases ha with rfl | rfl
      · exact absurd hd (by decide +kernel)
      · intro p hp _
        simp only [ceDoc, List.mem_singleton] at hp
        subst hp
        exact ⟨ceDeny, by simp, ⟨rfl, rfl, rfl⟩, by decide +kernel⟩

/-- A certificate that names the role `x` of "ab". -/
def ceCert (x : Str) : Cert :=
  { raw := [], subjectCN := "ab:role.".toList ++ x, issuerCN := [], notBefore := ⟨unixToInternal, 0⟩, uris := [] }

end Ex

/-- **C70** is false for the code: the roles "a:bc" and "ab:c" of a certificate clash (C43), and the call is granted although the policy in
force denies the request to "ab:c". -/
theorem C70_refuted : ¬ C70_statement := by
  intro hst
  obtain ⟨s, hs, hp⟩ := Ex.exists_of_map (o := cRun Ex.ceCfg (cInit Ex.ceCfg (Ex.auT 1500))
      (Ex.ceActs [Ex.clashCert] [("ab".toList, ["x".toList]), ("a".toList, ["bc".toList])]))
    (p := Ex.ceOk (Ex.ceCall [Ex.clashCert] [("ab".toList, ["x".toList]), ("a".toList, ["bc".toList])] (.ok ()))) (by decide +kernel)
  obtain ⟨h1, h2, h3, h4, h5⟩ := Ex.ceOk_spec hp rfl
  obtain ⟨d, ⟨x, hx, a, ha, happ, hnd⟩, hno⟩ := (hst Ex.ceCfg (Ex.auT 1500) _ s 0 _ (.ok ()) [some Ex.ceDoc] (by decide) rfl hs h1 h2 rfl h3 h4 (by
    intro d hd
    simp only [List.mem_singleton, Option.some.injEq] at hd
    subst hd
    rw [h5]
    decide)).mp rfl
  have hpairs : certPairs Ex.ceCfg.auth.roleCertURIPrefix [Ex.clashCert] =
      [("a".toList, "bc".toList), ("ab".toList, "x".toList), ("ab".toList, "c".toList)] := by decide +kernel
  have hc : NamesRole Ex.ceCfg.auth.roleCertURIPrefix [Ex.clashCert] "ab".toList "c".toList := mem_certPairs.mp (by rw [hpairs]; simp)
  have hd : d = "ab".toList := by
    have hin := mem_certPairs.mpr hx
    simp only [Ex.ceCall] at hin
    rw [hpairs] at hin
    simp only [List.mem_cons, Prod.mk.injEq, List.not_mem_nil, or_false] at hin
    rcases hin with ⟨rfl, rfl⟩ | ⟨rfl, _⟩ | ⟨rfl, _⟩
    · exfalso
      simp only [allAssertions, Ex.ceDoc, List.mem_flatMap, List.mem_singleton] at ha
      obtain ⟨o, rfl, ha⟩ := ha
      have hr := happ.1
      simp only [List.flatten_cons, List.flatten_nil, List.append_nil, List.mem_cons, List.not_mem_nil, or_false] at ha
      rcases ha with rfl | rfl
      · exact absurd hr (by decide +kernel)
      · exact absurd hr (by decide +kernel)
    · rfl
    · rfl
  subst hd
  exact hno ⟨_, hc, Ex.ceDeny, by simp [allAssertions, Ex.ceDoc], Ex.applies_of rfl (by decide +kernel), by decide +kernel⟩

namespace Ex

theorem ceNoClash (x : Str) (hp : certPairs ceCfg.auth.roleCertURIPrefix [ceCert x] = [("ab".toList, x)]) :
    NoClash ceCfg.auth.roleCertURIPrefix [ceCert x] := by
  intro d r d' r' h h' _
  have h1 := mem_certPairs.mpr h
  have h2 := mem_certPairs.mpr h'
  rw [hp, List.mem_singleton, Prod.mk.injEq] at h1 h2
  rw [h1.1, h1.2, h2.1, h2.2]
  exact ⟨rfl, rfl⟩

end Ex

/-- A certificate that names the role "x" is granted, and the hypotheses of `C70_origin`, `C70_granted_partial` and `C70_exact_partial` are met. -/
example : ∃ s, cRun Ex.ceCfg (cInit Ex.ceCfg (Ex.auT 1500)) (Ex.ceActs [Ex.ceCert "x".toList] [("ab".toList, ["x".toList])]) = some s ∧
    s.certs[0]? = some (Ex.ceCall [Ex.ceCert "x".toList] [("ab".toList, ["x".toList])] (.ok ())) ∧ (∀ n f, .pd (.hook n f) ∉ s.trace) ∧
    NoClash Ex.ceCfg.auth.roleCertURIPrefix [Ex.ceCert "x".toList] ∧ (∀ k ∈ [0], .pd (.chk k .cancel) ∉ s.trace) ∧
    OnlyInForce Ex.ceCfg (sysInit Ex.ceCfg (Ex.auT 1500)) s.trace 27 [some Ex.ceDoc] ∧
    ∀ k, RegularAt Ex.ceCfg.auth.U [some Ex.ceDoc] (Ex.auT 1500) s.sys.auth.now s.sys.auth.now k := by
  obtain ⟨s, hs, hp⟩ := Ex.exists_of_map (o := cRun Ex.ceCfg (cInit Ex.ceCfg (Ex.auT 1500)) (Ex.ceActs [Ex.ceCert "x".toList] [("ab".toList, ["x".toList])]))
    (p := Ex.ceOk (Ex.ceCall [Ex.ceCert "x".toList] [("ab".toList, ["x".toList])] (.ok ()))) (by decide +kernel)
  obtain ⟨h1, h2, h3, h4, h5⟩ := Ex.ceOk_spec hp rfl
  exact ⟨s, hs, h2, h1, Ex.ceNoClash _ (by decide +kernel), h3, h4, by rw [h5]; exact Ex.ceRegular⟩

/-- A certificate that names no role. -/
def Ex.ceNobody : Cert := { Ex.ceCert [] with subjectCN := "nobody".toList }

/-- A certificate that names no role, as `C70_unnamed` has it. -/
example : ∃ s c, cRun Ex.ceCfg (cInit Ex.ceCfg (Ex.auT 1500)) [.call [Ex.ceNobody] "read".toList "r".toList []] = some s ∧ s.certs[0]? = some c ∧
    c.certs = [Ex.ceNobody] ∧ ∀ d x, ¬ NamesRole Ex.ceCfg.auth.roleCertURIPrefix [Ex.ceNobody] d x := by
  obtain ⟨s, hs, hp⟩ := Ex.exists_of_map (o := cRun Ex.ceCfg (cInit Ex.ceCfg (Ex.auT 1500)) [.call [Ex.ceNobody] "read".toList "r".toList []])
    (p := fun s => decide (s.certs.map CertCall.certs = [[Ex.ceNobody]])) (by decide +kernel)
  simp only [decide_eq_true_eq] at hp
  obtain ⟨c, hc⟩ : ∃ c, s.certs[0]? = some c := by
    cases h : s.certs with
    | nil => simp [h] at hp
    | cons c cs => exact ⟨c, rfl⟩
  have hcc : c.certs = [Ex.ceNobody] := by
    have := List.mem_map_of_mem (f := CertCall.certs) (List.mem_of_getElem? hc)
    rw [hp] at this
    simpa using this
  refine ⟨s, c, hs, hc, hcc, fun d x h => ?_⟩
  have hpairs : certPairs Ex.ceCfg.auth.roleCertURIPrefix [Ex.ceNobody] = [] := by decide +kernel
  have := mem_certPairs.mpr h
  rw [hpairs] at this
  simp at this

/-- A certificate that names the role "c" is refused, and the hypotheses of `C70_refused_partial` are met. -/
example : ∃ s, cRun Ex.ceCfg (cInit Ex.ceCfg (Ex.auT 1500)) (Ex.ceActs [Ex.ceCert "c".toList] [("ab".toList, ["c".toList])] (Ex.schedR.take 4)) = some s ∧
    s.certs[0]? = some (Ex.ceCall [Ex.ceCert "c".toList] [("ab".toList, ["c".toList])] (.err .denyByPolicy)) ∧ (∀ n f, .pd (.hook n f) ∉ s.trace) ∧
    NoClash Ex.ceCfg.auth.roleCertURIPrefix [Ex.ceCert "c".toList] ∧ (∀ k ∈ [0], .pd (.chk k .cancel) ∉ s.trace) ∧
    NamesRole Ex.ceCfg.auth.roleCertURIPrefix [Ex.ceCert "c".toList] "ab".toList "c".toList := by
  obtain ⟨s, hs, hp⟩ := Ex.exists_of_map (o := cRun Ex.ceCfg (cInit Ex.ceCfg (Ex.auT 1500)) (Ex.ceActs [Ex.ceCert "c".toList] [("ab".toList, ["c".toList])] (Ex.schedR.take 4)))
    (p := Ex.ceOk (Ex.ceCall [Ex.ceCert "c".toList] [("ab".toList, ["c".toList])] (.err .denyByPolicy))) (by decide +kernel)
  obtain ⟨h1, h2, h3, h4, h5⟩ := Ex.ceOk_spec hp rfl
  have hpairs : certPairs Ex.ceCfg.auth.roleCertURIPrefix [Ex.ceCert "c".toList] = [("ab".toList, "c".toList)] := by decide +kernel
  exact ⟨s, hs, h2, h1, Ex.ceNoClash _ hpairs, h3, mem_certPairs.mp (by rw [hpairs]; simp)⟩

namespace Ex

abbrev ceAll : List CAct := ceActs [ceCert "x".toList] [("ab".toList, ["x".toList])]

/-- The schedule, and then nothing but the passing of no time. -/
def ceAct (n : Nat) : CAct := (ceAll[n]?).getD (.sys (.tick 0))

def ceStates : Nat → CSys
  | 0 => cInit ceCfg (auT 1500)
  | n + 1 => (cStep ceCfg (ceStates n) (ceAct n)).getD (ceStates n)

theorem ceStates_end (n : Nat) : (ceStates (ceAll.length + n)).sys.dead = false ∧
    (ceStates (ceAll.length + n)).certs = [ceCall [ceCert "x".toList] [("ab".toList, ["x".toList])] (.ok ())] := by
  induction n with
  | zero => decide +kernel
  | succ n ih =>
    show ((cStep ceCfg (ceStates (ceAll.length + n)) (ceAct (ceAll.length + n))).getD _).sys.dead = false ∧
      ((cStep ceCfg (ceStates (ceAll.length + n)) (ceAct (ceAll.length + n))).getD _).certs = _
    rw [show ceAct (ceAll.length + n) = .sys (.tick 0) by simp [ceAct]]
    simp only [cStep, sysStep_tick0 ih.1]
    exact ih

theorem ceSteps : ∀ n, n < ceAll.length → (cStep ceCfg (ceStates n) (ceAct n)).isSome = true := by decide +kernel

def ceExec : CExec ceCfg (auT 1500) where
  state := ceStates
  act := ceAct
  init := rfl
  next := by
    intro n
    show cStep ceCfg (ceStates n) (ceAct n) = some ((cStep ceCfg (ceStates n) (ceAct n)).getD (ceStates n))
    have hsome : (cStep ceCfg (ceStates n) (ceAct n)).isSome = true := by
      by_cases hn : n < ceAll.length
      · exact ceSteps n hn
      · obtain ⟨k, rfl⟩ : ∃ k, n = ceAll.length + k := ⟨n - ceAll.length, by omega⟩
        rw [show ceAct (ceAll.length + k) = .sys (.tick 0) by simp [ceAct]]
        simp only [cStep, sysStep_tick0 (ceStates_end k).1, Option.isSome_some]
    obtain ⟨s, hs⟩ := Option.isSome_iff_exists.mp hsome
    rw [hs]; rfl

theorem ceFair : CertFair ceExec := by
  intro i n h
  exfalso
  obtain ⟨a, ha, hs⟩ := h (ceAll.length + n) (by omega)
  have hc : (ceExec.state (ceAll.length + n)).certs = _ := (ceStates_end n).2
  generalize ceExec.state (ceAll.length + n) = s at ha hs hc
  have hget : ∀ c, s.certs[i]? = some c → c.pc = .done (.ok ()) := by
    intro c hi
    rw [hc] at hi
    have := List.mem_of_getElem? hi
    simp only [List.mem_singleton] at this
    subst this
    rfl
  rcases ha with rfl | rfl | ⟨c, k, b, h1, h2, _⟩
  · simp only [cStep] at hs
    split at hs
    · simp at hs
    · rename_i c hi
      rw [hget c hi] at hs
      simp at hs
  · simp only [cStep] at hs
    split at hs
    · simp at hs
    · split at hs
      · simp at hs
      · rename_i c hi
        rw [hget c hi] at hs
        simp at hs
  · rw [hget c h1] at h2
    simp at h2

end Ex

/-- The hypotheses of `C70_returns` are met by an execution in which the call has not returned yet. -/
example : Ex.ceCfg.auth.disablePolicyd = false ∧ CertFair Ex.ceExec ∧
    ∃ n c, (Ex.ceExec.state n).certs[0]? = some c ∧ c.pc = .next := by
  refine ⟨rfl, Ex.ceFair, 28, ?_⟩
  have h : ((Ex.ceStates 28).certs[0]?).map (fun c => decide (c.pc = .next)) = some true := by decide +kernel
  obtain ⟨c, hc, hp⟩ := Ex.exists_of_map h
  exact ⟨c, hc, by simpa using hp⟩

end Athenz
