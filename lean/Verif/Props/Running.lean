import Verif.Proofs.Running
import Verif.Props.Revoke

/-! # C79: a started authorizer follows its servers by itself -/

namespace Athenz
open Spec

variable {cfg : SysCfg} {ce : Str} {now : Int} {on : LKind → Bool}

/-! ## Calls of `Update` return -/

/-- There is a call of `Update` with the number `i`. -/
def CallExists (s : Sys) (i : Nat) : LKind → Prop
  | .policyd => ∃ t, s.pd.tasks[i]? = some t ∧ t.isUpdate = true
  | .pubkeyd => i + 1 < s.pk.jobs.length
  | .jwkd => ∃ b, s.jwk.jobs[i]? = some b

theorem callExists_new {s s' : Sys} {k : LKind} {fetch : List (Option PolicyDoc)} (h : sysStep cfg s (k.update fetch) = some s') :
    CallExists s' (s.nextUpdate k) k := by
  cases k with
  | policyd => exact sysUpdate_task h
  | pubkeyd =>
    obtain ⟨_, he⟩ := sysStep_effect h
    cases he with
    | pk a pk' ha hp =>
      cases pkStep_effect hp with
      | update => simp [CallExists, Sys.nextUpdate, Sys.withKeys]
  | jwkd =>
    obtain ⟨_, he⟩ := sysStep_effect h
    cases he with
    | jwk a jwk' hp =>
      simp only [jwkStep, Option.some.injEq] at hp
      subst hp
      exact ⟨⟨cfg.jwk.targets, none, []⟩, by simp [Sys.nextUpdate]⟩

theorem callExists_step (x : SysExec cfg now) {n i : Nat} {k : LKind} (h : CallExists (x.state n) i k) : CallExists (x.state (n + 1)) i k := by
  cases k with
  | policyd =>
    obtain ⟨t, h1, h2⟩ := h
    obtain ⟨t', g1, g2, _⟩ := sysStep_task (x.next n) h1
    exact ⟨t', g1, g2.trans h2⟩
  | pubkeyd =>
    have := (pkExecOf x).jobs_mono (show n ≤ n + 1 by omega)
    change (x.state n).pk.jobs.length ≤ (x.state (n + 1)).pk.jobs.length at this
    simp only [CallExists] at h ⊢
    omega
  | jwkd =>
    obtain ⟨b, hb⟩ := h
    rcases (jwkExecOf x).step n with ⟨_, h⟩ | ⟨a, _, h⟩
    · exact ⟨b, (congrArg (fun s : JwkState => s.jobs[i]?) h).trans hb⟩
    · obtain ⟨b2, h3, _⟩ := jwkJob_step h hb
      exact ⟨b2, h3⟩

/-- The goroutine of a child is in a call of `Update` that there is. -/
theorem rs_call (x : RsExec cfg ce now on) (k : LKind) (n i : Nat) : (x.state n).cur k = some i → CallExists (x.state n).sys i k := by
  induction n with
  | zero => rw [x.init]; simp [rsInit]
  | succ n ih =>
    intro hi
    have keep : (x.state n).cur k = some i → CallExists (x.state (n + 1)).sys i k := fun h => callExists_step x.sys (n := n) (ih h)
    have he := (rsStep_effect (x.next n)).2
    revert he hi keep
    generalize x.act n = a
    generalize x.state (n + 1) = s'
    intro hi keep he
    cases he with
    | sys => exact keep hi
    | fwd => exact keep hi
    | call k' retry fetch f sys' hf hs =>
      simp only at hi
      split at hi
      · rename_i hk
        subst hk
        obtain rfl := Option.some.inj hi
        exact callExists_new hs
      · exact keep hi
    | ret k' e i' ok f hi' hr hf =>
      simp only at hi
      split at hi
      · simp at hi
      · exact keep hi

/-- What must go on in an update of the kind: of the policy daemon, fetches and goroutines; of the key daemons, goroutines and requests. -/
def Works (x : SysExec cfg now) : LKind → Prop
  | .policyd => UpdFair x ∧ Foretold x
  | .pubkeyd => KeyFair x
  | .jwkd => KeyFair x

theorem rs_returns (x : RsExec cfg ce now on) (k : LKind) (hw : Works x.sys k) : CallsReturn x k := by
  intro n i hi
  have hex := rs_call x k n i hi
  cases k with
  | policyd =>
    obtain ⟨t, ht, hu⟩ := hex
    obtain ⟨m, t', hm, ht', hu', _, hret⟩ := C72_update_returns cfg now x.sys hw.1 hw.2 n i t ht
    refine ⟨m, hm, fun m' hm' => ?_⟩
    obtain ⟨t2, g1, _, g2⟩ := ret_stays x.sys hm' ht'
    have hret := hret (hu'.trans hu)
    change (x.state m').sys.pd.tasks[i]? = some t2 at g1
    simp only [Sys.updateRet, g1, Option.bind_some]
    rw [g2 hret]
    exact hret
  | pubkeyd =>
    have hl : i + 1 < ((pkExecOf x.sys).state n).jobs.length := hex
    obtain ⟨m1, b1, h1, g1, _, d1⟩ := job_ends (pkExecOf x.sys) (pkFairOf hw) i n _ (List.getElem?_eq_getElem (by omega))
    obtain ⟨m2, b2, h2, g2, _, d2⟩ := job_ends (pkExecOf x.sys) (pkFairOf hw) (i + 1) n _ (List.getElem?_eq_getElem hl)
    refine ⟨max m1 m2, by omega, fun m' hm' => ?_⟩
    have e1 := done_from (pkExecOf x.sys) g1 d1 (show m1 ≤ m' by omega)
    have e2 := done_from (pkExecOf x.sys) g2 d2 (show m2 ≤ m' by omega)
    change (x.state m').sys.pk.jobs[i]? = some b1 at e1
    change (x.state m').sys.pk.jobs[i + 1]? = some b2 at e2
    obtain ⟨v1, pc1⟩ := b1
    obtain ⟨v2, pc2⟩ := b2
    obtain ⟨r1, rfl⟩ := d1
    obtain ⟨r2, rfl⟩ := d2
    simp [Sys.updateRet, e1, e2]
  | jwkd =>
    obtain ⟨b, hb⟩ := hex
    obtain ⟨m, b', h1, g1, d1⟩ := jwkJob_ends (jwkExecOf x.sys) (jwkFairOf hw) i n b hb
    refine ⟨m, h1, fun m' hm' => ?_⟩
    have e1 := jwk_nil_from (jwkExecOf x.sys) g1 d1 hm'
    change (x.state m').sys.jwk.jobs[i]? = some b' at e1
    simp [Sys.updateRet, e1, JwkJob.result, d1]

/-! ## `Update` is called again and again -/

/-- How far the goroutine is from its `select`. -/
def LPc.rest (k : LKind) : LPc → Nat
  | .sleeping _ _ => if k = .jwkd then 3 else 2
  | .report _ _ => if k = .jwkd then 2 else 3
  | pc => pc.far

/-- **C79**.  Every daemon that is enabled calls `Update` again and again.  That somebody reads the errors is needed for the policy daemon and
the public key daemon only. -/
theorem C79_again (cfg : SysCfg) (ce : Str) (now : Int) (on : LKind → Bool) (x : RsExec cfg ce now on) (k : LKind) (hon : on k = true)
    (hl : ChildFair x k) (hrd : k ≠ .jwkd → ErrorsRead x) (hns : Uncancelled x) (hw : Works x.sys k) (n : Nat) :
    ∃ m retry fetch, n ≤ m ∧ x.act m = .call k retry fetch := by
  refine Classical.byContradiction fun hno => ?_
  have hno : ∀ m, n ≤ m → ∀ r f, x.act m ≠ .call k r f := fun m hm r f h => hno ⟨m, r, f, hm, h⟩
  have down : ∀ m, n ≤ m → (x.loop k (m + 1)).pc.rest k ≤ (x.loop k m).pc.rest k ∧
      (OfChild k (x.act m) → (x.loop k (m + 1)).pc.rest k < (x.loop k m).pc.rest k) := by
    intro m hm
    obtain ⟨_, hi, he⟩ := rs_loop x hon m
    have hd := hno m hm
    have hcan := rs_notCancelled x hns hon m
    have hlive := hi.live hcan
    revert he hd
    generalize x.act m = a
    generalize x.loop k (m + 1) = c'
    generalize x.state (m + 1) = s'
    intro he hd
    cases he with
    | idle a h1 h2 h0 h3 h4 => rw [h3]; exact ⟨Nat.le_refl _, fun h => absurd h h1⟩
    | own a h1 h2 h3 h4 h5 =>
      have hle := lStep_effect h4
      clear h4
      cases hle <;> simp_all [OfChild, LAct.own, LPc.rest, LPc.far]
    | cancel h1 h2 => simp only [lStep, Option.some.injEq] at h1; subst h1; exact ⟨Nat.le_refl _, fun h => h.elim⟩
    | take h1 h2 => have hle := lStep_effect h1; clear h1; cases hle; exact ⟨Nat.le_refl _, fun h => h.elim⟩
    | closed h1 h3 h4 => rw [h3]; exact ⟨Nat.le_refl _, fun h => h.elim⟩
    | call => exact absurd rfl (hd _ _)
    | ret e i ok h1 h2 h3 h4 =>
      have hle := lStep_effect h3
      clear h3
      cases ok with
      | true => simp only [if_true] at hle; cases hle; simp_all [LPc.rest, LPc.far]
      | false => simp only [Bool.false_eq_true, if_false] at hle; cases hle <;> simp_all [LPc.rest, LPc.far]
  have downs : ∀ m, n ≤ m → ∀ m', m ≤ m' → (x.loop k m').pc.rest k ≤ (x.loop k m).pc.rest k := by
    intro m hm
    refine from_ind (Nat.le_refl _) ?_
    intro m' hm' ih
    exact Nat.le_trans (down m' (by omega)).1 ih
  have : ∀ v m, n ≤ m → (x.loop k m).pc.rest k = v → False := by
    intro v
    induction v using Nat.strongRecOn with
    | _ v ih =>
      intro m hm hv
      obtain ⟨m', hm', ho⟩ := rs_moves x hon hl hrd hns (rs_returns x k hw) m
      have h1 := (down m' (by omega)).2 ho
      have h2 := downs m hm m' hm'
      exact ih _ (by omega) (m' + 1) (by omega) rfl
  exact this _ n (Nat.le_refl n) rfl

theorem rs_updates {x : RsExec cfg ce now on} {k : LKind} (h : ∀ n, ∃ m retry fetch, n ≤ m ∧ x.act m = .call k retry fetch) (n : Nat) :
    ∃ m fetch, n ≤ m ∧ x.sys.act m = k.update fetch := by
  obtain ⟨m, retry, fetch, hm, ha⟩ := h n
  refine ⟨m, fetch, hm, ?_⟩
  change (x.act m).proj = _
  rw [ha]; rfl

/-! ## Updates of the public keys do not overlap -/

theorem pk_length {cfg : PkCfg} {s s' : PkState} {a : PkAct} (h : pkStep cfg s a = some s') (ha : a ≠ .update) : s'.jobs.length = s.jobs.length := by
  cases pkStep_effect h with
  | update => exact absurd rfl ha
  | _ => first | rfl | simp | (simp only [PkState.setKeys]; split <;> simp)

/-- All goroutines of the public key daemon's updates but those of the last one are over. -/
def LastOnly (s : PkState) : Prop := ∀ (j : Nat) (b : PkJob), s.jobs[j]? = some b → j + 2 < s.jobs.length → ∃ r, b.pc = .done r

theorem lastOnly_step {cfg : PkCfg} {s s' : PkState} {a : PkAct} (h : pkStep cfg s a = some s') (hc : s'.crashed = false)
    (hu : a = .update → KeysIdle s) (hl : LastOnly s) : LastOnly s' := by
  intro j b' hj hlt
  have old : ∀ b, s.jobs[j]? = some b → (∃ r, b.pc = .done r) → ∃ r, b'.pc = .done r := by
    intro b hb ⟨r, hd⟩
    obtain ⟨b2, g1, _, g3⟩ := job_step h hc hb
    rw [hj] at g1
    obtain rfl := Option.some.inj g1
    rcases g3 with ⟨_, rfl⟩ | ⟨_, hr⟩
    · exact ⟨r, hd⟩
    · rw [hd] at hr
      simp [rankLt, Prod.lex_def, PkPc.rank] at hr
  by_cases ha : a = .update
  · have hj' : j < s.jobs.length := by
      subst ha
      revert hlt
      cases pkStep_effect h with
      | update => simp
    exact old _ (List.getElem?_eq_getElem hj') (hu ha _ _ (List.getElem?_eq_getElem hj'))
  · have hlen := pk_length h ha
    have hj' : j < s.jobs.length := by omega
    exact old _ (List.getElem?_eq_getElem hj') (hl _ _ (List.getElem?_eq_getElem hj') (by omega))

theorem keysIdle_step {cfg : PkCfg} {s s' : PkState} {a : PkAct} (h : pkStep cfg s a = some s') (hc : s'.crashed = false)
    (hu : a ≠ .update) (hl : KeysIdle s) : KeysIdle s' := by
  intro j b' hj
  have hlen := pk_length h hu
  have hj' : j < s.jobs.length := by have := lt_of_getElem? hj; omega
  obtain ⟨b2, g1, _, g3⟩ := job_step h hc (List.getElem?_eq_getElem hj')
  obtain ⟨r, hd⟩ := hl _ _ (List.getElem?_eq_getElem hj')
  rw [hj] at g1
  obtain rfl := Option.some.inj g1
  rcases g3 with ⟨_, rfl⟩ | ⟨_, hr⟩
  · exact ⟨r, hd⟩
  · rw [hd] at hr
    simp [rankLt, Prod.lex_def, PkPc.rank] at hr

theorem rs_updateAct (x : RsExec cfg ce now on) {n : Nat} (h : (pkExecOf x.sys).act n = .update) :
    x.act n = .sys (.pk .update) ∨ ∃ r f, x.act n = .call .pubkeyd r f := by
  change pkActOf (x.act n).proj = _ at h
  revert h
  generalize x.act n = a
  intro h
  cases a with
  | sys a => cases a <;> simp_all [RAct.proj, pkActOf]
  | fwd => simp [RAct.proj, pkActOf] at h
  | call k r f => cases k <;> simp_all [RAct.proj, pkActOf, LKind.update]
  | ret => simp [RAct.proj, pkActOf] at h

structure SerialInv (n0 n : Nat) (s : RSys) : Prop where
  last : LastOnly s.sys.pk
  early : n ≤ n0 → s.cur .pubkeyd = none
  idle : n0 ≤ n → s.cur .pubkeyd = none → KeysIdle s.sys.pk
  busy : ∀ i, s.cur .pubkeyd = some i → i + 2 = s.sys.pk.jobs.length

theorem serialInv (x : RsExec cfg ce now on) (hon : on .pubkeyd = true) {n0 : Nat} (hf : InitFirst x n0) (n : Nat) : SerialInv n0 n (x.state n) := by
  induction n with
  | zero =>
    have h0 : (x.state 0).sys.pk.jobs = [] := by rw [x.init]; rfl
    have h1 : (x.state 0).cur .pubkeyd = none := by rw [x.init]; rfl
    refine ⟨fun j b hj => ?_, fun _ => h1, fun hn _ => ?_, fun i hi => ?_⟩
    · rw [h0] at hj; simp at hj
    · have : n0 = 0 := by omega
      subst this
      exact hf.over
    · rw [h1] at hi; simp at hi
  | succ n ih =>
    have hs := (pkExecOf x.sys).next n
    have hc := (pkExecOf x.sys).alive (n + 1)
    change pkStep cfg.pk (x.state n).sys.pk _ = some (x.state (n + 1)).sys.pk at hs
    change (x.state (n + 1)).sys.pk.crashed = false at hc
    have hcall : ∀ r f, x.act n = .call .pubkeyd r f → (x.state n).cur .pubkeyd = none := by
      intro r f ha
      obtain ⟨_, hi, he⟩ := rs_loop x hon n
      rw [ha] at he
      generalize x.loop .pubkeyd (n + 1) = c' at he
      generalize x.state (n + 1) = s' at he
      cases he with
      | idle a h1 => exact absurd rfl h1
      | call r f h1 h2 =>
        cases hcur : (x.state n).cur .pubkeyd with
        | none => rfl
        | some i =>
          obtain ⟨r', hr'⟩ := hi.cur i hcur
          rw [(lStep_sel h1).1] at hr'
          simp at hr'
    have hidle : (pkExecOf x.sys).act n = .update → KeysIdle (x.state n).sys.pk := by
      intro ha
      rcases rs_updateAct x ha with h | ⟨r, f, h⟩
      · by_cases hn : n < n0
        · exact hf.serial n hn h
        · exact absurd h (hf.after n (by omega))
      · by_cases hn : n < n0
        · exact absurd h (hf.before n hn r f)
        · exact ih.idle (by omega) (hcall r f h)
    have hlast := lastOnly_step hs hc hidle ih.last
    have hother : (∀ r f, x.act n ≠ .call .pubkeyd r f) → (∀ e, x.act n ≠ .ret .pubkeyd e) → (x.state (n + 1)).cur .pubkeyd = (x.state n).cur .pubkeyd := by
      intro h1 h2
      have he := (rs_loop x hon n).2.2
      revert he h1 h2
      generalize x.act n = a
      generalize x.loop .pubkeyd (n + 1) = c'
      generalize x.state (n + 1) = s'
      intro h1 h2 he
      cases he with
      | idle _ _ _ _ _ h => exact h
      | own _ _ _ _ _ h => exact h
      | cancel _ h => exact h
      | take _ h => exact h
      | closed _ _ h => exact h
      | call r f => exact absurd rfl (h1 r f)
      | ret e => exact absurd rfl (h2 e)
    by_cases h1 : ∃ r f, x.act n = .call .pubkeyd r f
    · obtain ⟨r, f, ha⟩ := h1
      have hcur : (x.state (n + 1)).cur .pubkeyd = some (x.state n).sys.pk.jobs.length := by
        have he := (rsStep_effect (x.next n)).2
        rw [ha] at he
        generalize x.state (n + 1) = s' at he
        cases he
        simp [Sys.nextUpdate]
      have hn : n0 ≤ n := Nat.le_of_not_lt fun hn => hf.before n hn r f ha
      refine ⟨hlast, fun h => by omega, fun _ h => (by rw [hcur] at h; simp at h), fun i hi => ?_⟩
      rw [hcur] at hi
      obtain rfl := Option.some.inj hi
      have hu : (pkExecOf x.sys).act n = .update := by
        change pkActOf (x.act n).proj = _
        rw [ha]; rfl
      rw [hu] at hs
      generalize (x.state (n + 1)).sys.pk = p at hs
      cases pkStep_effect hs with
      | update => simp
    · have h1 : ∀ r f, x.act n ≠ .call .pubkeyd r f := fun r f h => h1 ⟨r, f, h⟩
      by_cases h2 : ∃ e, x.act n = .ret .pubkeyd e
      · obtain ⟨e, ha⟩ := h2
        have he := (rsStep_effect (x.next n)).2
        rw [ha] at he
        have hb := ih.busy
        have hll := ih.last
        have hee := ih.early
        revert he hlast
        generalize x.state (n + 1) = s'
        intro hlast he
        cases he with
        | ret k e i ok f hi hr hf' =>
          refine ⟨hlast, fun _ => by simp, fun hn0 _ => ?_, fun i hi => by simp at hi⟩
          have hlen := hb i hi
          intro j b hj
          change (x.state n).sys.pk.jobs[j]? = some b at hj
          have hjl := lt_of_getElem? hj
          by_cases hj2 : j + 2 < (x.state n).sys.pk.jobs.length
          · exact hll j b hj hj2
          · simp only [Sys.updateRet] at hr
            split at hr
            · rename_i v1 a1 v2 a2 e1 e2
              have : j = i ∨ j = i + 1 := by omega
              rcases this with rfl | rfl
              · rw [hj] at e1; obtain rfl := Option.some.inj e1; exact ⟨_, rfl⟩
              · rw [hj] at e2; obtain rfl := Option.some.inj e2; exact ⟨_, rfl⟩
            · simp at hr
      · have h2 : ∀ e, x.act n ≠ .ret .pubkeyd e := fun e h => h2 ⟨e, h⟩
        have hcur := hother h1 h2
        have hne : n0 ≤ n → (pkExecOf x.sys).act n ≠ .update := by
          intro hn ha
          rcases rs_updateAct x ha with h | ⟨r, f, h⟩
          · exact hf.after n hn h
          · exact h1 r f h
        refine ⟨hlast, fun hn => hcur.trans (ih.early (by omega)), fun hn hi => ?_, fun i hi => ?_⟩
        · by_cases hn' : n + 1 = n0
          · rw [hn']; exact hf.over
          · exact keysIdle_step hs hc (hne (by omega)) (ih.idle (by omega) (hcur.symm.trans hi))
        · rw [hcur] at hi
          have hn : n0 < n := Nat.lt_of_not_le fun hn => by rw [ih.early hn] at hi; simp at hi
          rw [pk_length hs (hne (by omega))]
          exact ih.busy i hi

/-- **C79**.  With `Init` before `Start` updates of the public keys do not overlap. -/
theorem C79_serial (cfg : SysCfg) (ce : Str) (now : Int) (on : LKind → Bool) (x : RsExec cfg ce now on) (hon : on .pubkeyd = true) (n0 : Nat)
    (hf : InitFirst x n0) (e : Env) : OneAtATime (pkExecOf x.sys) e := by
  intro n j ha hje i b hb hbe hij
  have hi := (serialInv x hon hf n).last
  right
  have hs := (pkExecOf x.sys).next n
  rw [ha] at hs
  have hstart : ∃ v, (x.state n).sys.pk.jobs[j]? = some ⟨v, .start⟩ := by
    change pkStep cfg.pk (x.state n).sys.pk _ = _ at hs
    generalize (pkExecOf x.sys).state (n + 1) = p at hs
    cases pkStep_effect hs with
    | send _ e h => exact ⟨e, h⟩
  obtain ⟨v, hv⟩ := hstart
  have hpar := (jobs_env ((pkExecOf x.sys).run n)).1
  change (x.state n).sys.pk.jobs.length % 2 = 0 at hpar
  have hjl : ¬ j + 2 < (x.state n).sys.pk.jobs.length := by
    intro h
    obtain ⟨r, hr⟩ := hi j _ hv h
    simp at hr
  have hjl' := lt_of_getElem? hv
  have hil := lt_of_getElem? hb
  change i < (x.state n).sys.pk.jobs.length at hil
  have hie : jobEnv i = e := ((pkExecOf x.sys).env n i b hb).symm.trans hbe
  have hpe : i % 2 = j % 2 := by
    rw [← hje] at hie
    unfold jobEnv at hie
    split at hie <;> split at hie <;> first | omega | simp at hie
  exact hi i b hb (by omega)

/-! ## What the servers say comes into use -/

/-- **C79**, policies.  With new policies on the servers these are in force some time later, and stay so. -/
theorem C79_policies (cfg : SysCfg) (ce : Str) (now : Int) (on : LKind → Bool) (hon : on .policyd = true)
    (hR : 0 ≤ cfg.fetch.retryAttempts) (x : RsExec cfg ce now on) (hl : ChildFair x .policyd) (hrd : ErrorsRead x) (hns : Uncancelled x)
    (hf : UpdFair x.sys) (hfore : Foretold x.sys) (N : Nat) (D : List PolicyDoc) (hD : NewPolicies x.sys N D) :
    ∃ M, N ≤ M ∧ ∀ m, M ≤ m → InForce cfg (sysInit cfg now) (x.sys.hist m) (x.state m).sys (D.map some) ∧
      ∀ docs, InForce cfg (sysInit cfg now) (x.sys.hist m) (x.state m).sys docs → docs = D.map some := by
  refine C72_takes_effect cfg now hR x.sys hf hfore N D hD ?_
  exact rs_updates (C79_again cfg ce now on x .policyd hon hl (fun _ => hrd) hns ⟨hf, hfore⟩)

theorem rs_reached (x : RsExec cfg ce now on) (hon : on .pubkeyd = true) (hl : ChildFair x .pubkeyd) (hrd : ErrorsRead x) (hns : Uncancelled x)
    (hkf : KeyFair x.sys) {N : Nat} {e : Env}
    (hans : ∀ n, N ≤ n → ∀ j r o, (pkExecOf x.sys).act n = .answer j r o → jobEnv j = e → ∃ st tag b, r = .answer st tag b ∧ (st = 200 ∨ st = 304)) :
    Reached (pkExecOf x.sys) e := by
  refine C76_reached (pkExecOf x.sys) (pkFairOf hkf) e N (fun n => ?_) hans
  obtain ⟨m, fetch, hm, ha⟩ := rs_updates (C79_again cfg ce now on x .pubkeyd hon hl (fun _ => hrd) hns hkf) n
  exact ⟨m, hm, by show pkActOf (x.sys.act m) = _; rw [ha]; rfl⟩

/-- **C79**, public keys.  `Init` comes before `Start`, and from some moment on the server of `e` has the keys `K` and answers with `200` or `304`:
then these keys are in use some time later, and stay so. -/
theorem C79_keys (cfg : SysCfg) (ce : Str) (now : Int) (on : LKind → Bool) (hon : on .pubkeyd = true) (x : RsExec cfg ce now on)
    (hl : ChildFair x .pubkeyd) (hrd : ErrorsRead x) (hns : Uncancelled x) (hkf : KeyFair x.sys) (n0 : Nat) (hfirst : InitFirst x n0) (N : Nat) (e : Env)
    (T : Str) (K : Str → Option SigVerifier) (hk : ServesKeys (pkExecOf x.sys) N e T K) (hv : Versioned (pkExecOf x.sys) e T K)
    (hans : ∀ n, N ≤ n → ∀ j r o, (pkExecOf x.sys).act n = .answer j r o → jobEnv j = e → ∃ st tag b, r = .answer st tag b ∧ (st = 200 ∨ st = 304)) :
    ∃ m, ∀ k, m ≤ k → InUse (x.state k).sys.pk e K :=
  C76_serial_partial (pkExecOf x.sys) N e T K (pkFairOf hkf) hk (rs_reached x hon hl hrd hns hkf hans) hv (C79_serial cfg ce now on x hon n0 hfirst e)

theorem rs_reachedJwk (x : RsExec cfg ce now on) (hon : on .jwkd = true) (hl : ChildFair x .jwkd) (hns : Uncancelled x) (hkf : KeyFair x.sys) {N : Nat}
    {url : Str} (hurl : ConfiguredURL cfg.jwk url)
    (hans : ∀ n, N ≤ n → ∀ j out, (jwkExecOf x.sys).act n = some (.fetch j out) → WorksOn (x.state n).sys.jwk j url → out.isSome) :
    ReachedJwk (jwkExecOf x.sys) url := by
  refine C77_reached (jwkExecOf x.sys) (jwkFairOf hkf) url hurl N (fun n => ?_) hans
  obtain ⟨m, fetch, hm, ha⟩ := rs_updates (C79_again cfg ce now on x .jwkd hon hl (fun h => absurd rfl h) hns hkf) n
  exact ⟨m, hm, by show jwkActOf (x.sys.act m) = _; rw [ha]; rfl⟩

/-- **C79**, JSON web keys.  From some moment on requests to a configured URL bring the set: then this set is in use some time later, and stays
so.  Nobody has to read the errors. -/
theorem C79_jwk (cfg : SysCfg) (ce : Str) (now : Int) (on : LKind → Bool) (hon : on .jwkd = true) (x : RsExec cfg ce now on)
    (hl : ChildFair x .jwkd) (hns : Uncancelled x) (hkf : KeyFair x.sys) (N : Nat) (url : Str) (hurl : ConfiguredURL cfg.jwk url) (set : JwkSet)
    (hs : ServesSet (jwkExecOf x.sys) N url set)
    (hans : ∀ n, N ≤ n → ∀ j out, (jwkExecOf x.sys).act n = some (.fetch j out) → WorksOn (x.state n).sys.jwk j url → out.isSome) :
    ∃ m, ∀ k, m ≤ k → InUseJwk cfg.jwk (x.state k).sys.jwk url set :=
  C77_in_use (jwkExecOf x.sys) (jwkFairOf hkf) N url set hs (rs_reachedJwk x hon hl hns hkf hurl hans)

/-- **C79**, role tokens.  A key that the server has withdrawn stops being good for grants by itself: some time after the change, and once grants
from before that have expired, what is granted is signed with a key that the server has. -/
theorem C79_role (cfg : SysCfg) (ce : Str) (now : Int) (h0 : 0 ≤ now) (on : LKind → Bool) (hon : on .pubkeyd = true)
    (hexp : 0 < cfg.auth.cacheExp) (x : RsExec cfg ce now on) (hl : ChildFair x .pubkeyd) (hrd : ErrorsRead x)
    (hns : Uncancelled x) (hsf : SysFair x.sys) (hkf : KeyFair x.sys) (n0 : Nat) (hfirst : InitFirst x n0) (N : Nat) (T : Str)
    (K : Str → Option SigVerifier) (hk : ServesKeys (pkExecOf x.sys) N .zts T K) (hv : Versioned (pkExecOf x.sys) .zts T K)
    (hans : ∀ n, N ≤ n → ∀ j r o, (pkExecOf x.sys).act n = .answer j r o → jobEnv j = .zts → ∃ st tag b, r = .answer st tag b ∧ (st = 200 ∨ st = 304)) :
    ∃ M, ∀ n m i q p, M ≤ n → n ≤ m → (x.state M).sys.auth.now + cfg.auth.cacheExp < (x.state n).sys.auth.now →
      (x.state n).sys.auth.calls i = none → (x.state m).sys.auth.calls i = some ⟨q, .done (.ok p)⟩ →
      (x.state m).sys.auth.now + cfg.auth.cacheExp < 2 ^ 63 →
      ∃ q', cacheKey cfg.auth q' = cacheKey cfg.auth q ∧ SignedBy cfg (fun id ver => K id = some ver) (fun _ _ _ => True) q' :=
  C78_role_partial cfg now h0 hexp x.sys hsf hkf N T K hk (rs_reached x hon hl hrd hns hkf hans) hv (C79_serial cfg ce now on x hon n0 hfirst .zts)

/-- **C79**, access tokens.  The same for the sets of JSON web keys. -/
theorem C79_access (cfg : SysCfg) (ce : Str) (now : Int) (h0 : 0 ≤ now) (on : LKind → Bool) (hon : on .jwkd = true)
    (hexp : 0 < cfg.auth.cacheExp) (x : RsExec cfg ce now on) (hl : ChildFair x .jwkd)
    (hns : Uncancelled x) (hsf : SysFair x.sys) (hkf : KeyFair x.sys) (N : Nat) (S : Str → JwkSet)
    (hs : ∀ url, ConfiguredURL cfg.jwk url → ServesSet (jwkExecOf x.sys) N url (S url))
    (hans : ∀ url, ConfiguredURL cfg.jwk url → ∀ n, N ≤ n → ∀ j out, (jwkExecOf x.sys).act n = some (.fetch j out) → WorksOn (x.state n).sys.jwk j url → out.isSome) :
    ∃ M, ∀ n m i q p, M ≤ n → n ≤ m → (x.state M).sys.auth.now + cfg.auth.cacheExp < (x.state n).sys.auth.now →
      (x.state n).sys.auth.calls i = none → (x.state m).sys.auth.calls i = some ⟨q, .done (.ok p)⟩ →
      (x.state m).sys.auth.now + cfg.auth.cacheExp < 2 ^ 63 →
      ∃ q', cacheKey cfg.auth q' = cacheKey cfg.auth q ∧
        SignedBy cfg (fun _ _ => True) (fun url kid k => ConfiguredURL cfg.jwk url ∧ KeyIn (S url) kid k) q' :=
  C78_access cfg now h0 hexp x.sys hsf hkf N S fun url hurl => ⟨hs url hurl, rs_reachedJwk x hon hl hns hkf hurl (hans url hurl)⟩

/-! ## Executions that go on for ever -/

theorem rsRun_append {s : RSys} {as bs : List RAct} : rsRun cfg ce s (as ++ bs) = (rsRun cfg ce s as).bind fun s' => rsRun cfg ce s' bs := by
  induction as generalizing s with
  | nil => rfl
  | cons a as ih =>
    simp only [List.cons_append, rsRun]
    cases rsStep cfg ce s a with
    | none => rfl
    | some s' => exact ih

namespace Ex

/-- The execution of a schedule that never gets stuck. -/
def rsExec (cfg : SysCfg) (ce : Str) (now : Int) (on : LKind → Bool) (act : Nat → RAct)
    (h : ∀ n, ∃ m, n ≤ m ∧ (rsRun cfg ce (rsInit (sysInit cfg now) on) ((List.range m).map act)).isSome) : RsExec cfg ce now on where
  state n := (rsRun cfg ce (rsInit (sysInit cfg now) on) ((List.range n).map act)).getD (rsInit (sysInit cfg now) on)
  act := act
  init := rfl
  next := by
    intro n
    obtain ⟨m, hm, hs⟩ := h (n + 1)
    obtain ⟨d, rfl⟩ : ∃ d, m = (n + 1) + d := ⟨m - (n + 1), by omega⟩
    obtain ⟨s2, hs2⟩ := Option.isSome_iff_exists.mp hs
    rw [List.range_add, List.map_append, rsRun_append] at hs2
    cases h1 : rsRun cfg ce (rsInit (sysInit cfg now) on) ((List.range (n + 1)).map act) with
    | none => rw [h1] at hs2; simp at hs2
    | some s1 =>
      have h1' := h1
      rw [List.range_succ, List.map_append, rsRun_append] at h1'
      obtain ⟨s0, h0, hst⟩ := Option.bind_eq_some_iff.mp h1'
      rw [h0]
      simp only [List.map_cons, List.map_nil, rsRun] at hst
      show rsStep cfg ce s0 (act n) = some s1
      split at hst
      · simp at hst
      · rename_i s3 h3; rw [h3]; exact hst

/-- A schedule that begins with `pre` and goes on with rounds of `T` steps. -/
def rsAct (T : Nat) (pre : List RAct) (round : Nat → Nat → RAct) (n : Nat) : RAct :=
  if h : n < pre.length then pre[n] else round ((n - pre.length) / T) ((n - pre.length) % T)

variable {T : Nat} {pre : List RAct} {round : Nat → Nat → RAct}

theorem rsAct_late (q r : Nat) (hr : r < T) : rsAct T pre round (pre.length + (T * q + r)) = round q r := by
  have h1 : ¬ (pre.length + (T * q + r) < pre.length) := by omega
  have h2 : (pre.length + (T * q + r) - pre.length) / T = q := by
    rw [show pre.length + (T * q + r) - pre.length = r + T * q by omega, Nat.add_mul_div_left _ _ (by omega), Nat.div_eq_of_lt hr, Nat.zero_add]
  have h3 : (pre.length + (T * q + r) - pre.length) % T = r := by
    rw [show pre.length + (T * q + r) - pre.length = r + T * q by omega, Nat.add_mul_mod_self_left, Nat.mod_eq_of_lt hr]
  simp only [rsAct, h1, dite_false, h2, h3]

theorem rsAct_early {n : Nat} (hn : n < pre.length) : rsAct T pre round n = pre[n] := by
  simp only [rsAct, hn, dite_true]

theorem rsAct_pre : (List.range pre.length).map (rsAct T pre round) = pre := by
  apply List.ext_getElem
  · simp
  · intro i h1 h2
    simp only [List.getElem_map, List.getElem_range, rsAct, h2, dite_true]

theorem rs_late {p n : Nat} (hT : 0 < T) (hn : p ≤ n) : ∃ q r, r < T ∧ n = p + (T * q + r) :=
  ⟨(n - p) / T, (n - p) % T, Nat.mod_lt _ hT, by rw [Nat.div_add_mod]; omega⟩

/-- Rounds that can be made are made: `at q r` is the state before step `r` of round `q`. -/
theorem rs_rounds {cfg : SysCfg} {ce : Str} {now : Int} {on : LKind → Bool} {st : Nat → Nat → RSys}
    (hp : rsRun cfg ce (rsInit (sysInit cfg now) on) pre = some (st 0 0))
    (hstep : ∀ q r, r < T → rsStep cfg ce (st q r) (round q r) = some (st q (r + 1))) (hnext : ∀ q, st q T = st (q + 1) 0) :
    ∀ q r, r ≤ T → rsRun cfg ce (rsInit (sysInit cfg now) on) ((List.range (pre.length + (T * q + r))).map (rsAct T pre round)) = some (st q r) := by
  have hr : ∀ q, rsRun cfg ce (rsInit (sysInit cfg now) on) ((List.range (pre.length + (T * q + 0))).map (rsAct T pre round)) = some (st q 0) →
      ∀ r, r ≤ T → rsRun cfg ce (rsInit (sysInit cfg now) on) ((List.range (pre.length + (T * q + r))).map (rsAct T pre round)) = some (st q r) := by
    intro q h0 r
    induction r with
    | zero => exact fun _ => h0
    | succ r ih =>
      intro hr
      have := ih (by omega)
      rw [show pre.length + (T * q + (r + 1)) = pre.length + (T * q + r) + 1 by omega, List.range_succ, List.map_append, rsRun_append, this]
      have hlt : r < T := hr
      simp only [Option.bind_some, List.map_cons, List.map_nil, rsRun, rsAct_late q r hlt, hstep q r hlt]
  intro q
  induction q with
  | zero => exact hr 0 (by simp only [Nat.mul_zero, Nat.add_zero, rsAct_pre]; exact hp)
  | succ q ih =>
    refine hr (q + 1) ?_
    have := ih T (Nat.le_refl T)
    rw [hnext q] at this
    rw [show T * (q + 1) + 0 = T * q + T by rw [Nat.mul_add]; omega]
    exact this

/-- The execution with these rounds. -/
def rsRounds {cfg : SysCfg} {ce : Str} {now : Int} {on : LKind → Bool} {st : Nat → Nat → RSys} (hT : 0 < T)
    (hp : rsRun cfg ce (rsInit (sysInit cfg now) on) pre = some (st 0 0))
    (hstep : ∀ q r, r < T → rsStep cfg ce (st q r) (round q r) = some (st q (r + 1))) (hnext : ∀ q, st q T = st (q + 1) 0) : RsExec cfg ce now on :=
  rsExec cfg ce now on (rsAct T pre round) fun n => ⟨pre.length + (T * n + 0),
    by have : n ≤ T * n := Nat.le_mul_of_pos_left n hT
       omega, by rw [rs_rounds hp hstep hnext n 0 (by omega)]; rfl⟩

section
variable {cfg : SysCfg} {ce : Str} {now : Int} {on : LKind → Bool} {st : Nat → Nat → RSys} (hT : 0 < T)
    (hp : rsRun cfg ce (rsInit (sysInit cfg now) on) pre = some (st 0 0))
    (hstep : ∀ q r, r < T → rsStep cfg ce (st q r) (round q r) = some (st q (r + 1))) (hnext : ∀ q, st q T = st (q + 1) 0)

theorem rsRounds_state (q r : Nat) (hr : r ≤ T) : (rsRounds hT hp hstep hnext).state (pre.length + (T * q + r)) = st q r := by
  simp only [rsRounds, rsExec, rs_rounds hp hstep hnext q r hr, Option.getD_some]

theorem rsRounds_act (q r : Nat) (hr : r < T) : (rsRounds hT hp hstep hnext).act (pre.length + (T * q + r)) = round q r := rsAct_late q r hr

theorem rsRounds_early {n : Nat} (hn : n < pre.length) : (rsRounds hT hp hstep hnext).act n = pre[n] := rsAct_early hn

theorem rsRounds_again (r : Nat) (hr : r < T) (a : RAct) (h : ∀ q, round q r = a) (n : Nat) : ∃ m, n ≤ m ∧ (rsRounds hT hp hstep hnext).act m = a :=
  ⟨pre.length + (T * n + r), by have : n ≤ T * n := Nat.le_mul_of_pos_left n hT
                                omega, by rw [rsRounds_act hT hp hstep hnext n r hr]; exact h n⟩

end

/-! ### Public keys -/

def rkCfg : SysCfg := { chCfg with pk := rtCfg }
def rkOn (k : LKind) : Bool := decide (k = .pubkeyd)
def rkCe : Str := "context canceled".toList
def rkErr : Str := "unreachable".toList

/-- `Update` has returned an error to the goroutine; it is passed on and read. -/
def rkFail : List RAct := [.ret .pubkeyd rkErr, .fwd (.child .pubkeyd .send), .fwd (.child .pubkeyd .offer), .fwd (.take .pubkeyd), .fwd .send, .fwd .recv]

/-- `Init` loads list `A`; the goroutine of `Start` replaces it by list `B`; ZMS cannot be reached. -/
def rkPre : List RAct := (loadA ++ ([.send 1, .answer 1 (.fail (.other "unreachable")) []] : List PkAct)).map (fun a => .sys (.pk a)) ++
  [.fwd (.child .pubkeyd .tick), .call .pubkeyd false []] ++
  (loadB.tail ++ ([.send 3, .answer 3 (.fail (.other "unreachable")) []] : List PkAct)).map (fun a => .sys (.pk a)) ++ rkFail

/-- A round: time passes, the goroutine calls `Update`, ZTS answers "not modified", ZMS cannot be reached. -/
def rkRound (q : Nat) : Nat → RAct
  | 0 => .sys (.tick 1)
  | 1 => .fwd (.child .pubkeyd .tick)
  | 2 => .call .pubkeyd false []
  | 3 => .sys (.pk (.send (4 + 2 * q)))
  | 4 => .sys (.pk (.answer (4 + 2 * q) (.answer 304 [] []) []))
  | 5 => .sys (.pk (.send (4 + 2 * q + 1)))
  | 6 => .sys (.pk (.answer (4 + 2 * q + 1) (.fail (.other "unreachable")) []))
  | 7 => .ret .pubkeyd rkErr
  | 8 => .fwd (.child .pubkeyd .send)
  | 9 => .fwd (.child .pubkeyd .offer)
  | 10 => .fwd (.take .pubkeyd)
  | 11 => .fwd .send
  | _ => .fwd .recv

def rsFwd (k : LKind) (c : LState) (pc : FPc) (ech rd : List Str) : SState :=
  { child := fun k' => if k' = k then some c else none, pc := pc, ech := ech, read := rd, cancelled := false }

def rsCur (k : LKind) (o : Option Nat) : LKind → Option Nat := fun k' => if k' = k then o else none

theorem rsFwd_set {k : LKind} {c c' : LState} {pc : FPc} {ech rd : List Str} : (rsFwd k c pc ech rd).setChild k c' = rsFwd k c' pc ech rd := by
  simp only [rsFwd, SState.setChild, SState.mk.injEq, and_true]
  funext k'
  split <;> rfl

theorem rsCur_set {k : LKind} {o o' : Option Nat} : (fun k' => if k' = k then o' else rsCur k o k') = rsCur k o' := by
  funext k'
  simp only [rsCur]
  split <;> rfl

theorem rsFwd_child {k : LKind} {c : LState} {pc : FPc} {ech rd : List Str} : (rsFwd k c pc ech rd).child k = some c := by simp [rsFwd]


/-! Steps of an authorizer that does nothing but look after its keys. -/

theorem rs_tick {cfg : SysCfg} {ce : Str} {pk : PkState} {jwk : JwkState} {f : SState} {cur : LKind → Option Nat} {d : Nat} :
    rsStep cfg ce ⟨rvSys cfg pk jwk, f, cur⟩ (.sys (.tick d)) = some ⟨rvSys cfg { pk with now := pk.now + d } jwk, f, cur⟩ := by
  simp only [rsStep, rvSys_tick]
  rfl

theorem rs_pk {cfg : SysCfg} {ce : Str} {pk pk' : PkState} {jwk : JwkState} {f : SState} {cur : LKind → Option Nat} {a : PkAct} (ha : ∀ d, a ≠ .tick d)
    (h : pkStep cfg.pk pk a = some pk') (hc : pk'.crashed = false) :
    rsStep cfg ce ⟨rvSys cfg pk jwk, f, cur⟩ (.sys (.pk a)) = some ⟨rvSys cfg pk' jwk, f, cur⟩ := by
  simp only [rsStep, rvSys_pk ha h hc]
  rfl

theorem rs_jwk {cfg : SysCfg} {ce : Str} {pk : PkState} {jwk jwk' : JwkState} {f : SState} {cur : LKind → Option Nat} {a : JwkAct}
    (h : jwkStep cfg.jwk jwk a = some jwk') :
    rsStep cfg ce ⟨rvSys cfg pk jwk, f, cur⟩ (.sys (.jwk a)) = some ⟨rvSys cfg pk jwk', f, cur⟩ := by
  simp only [rsStep, rvSys_jwk h]
  rfl

theorem rs_own {cfg : SysCfg} {ce : Str} {pk : PkState} {jwk : JwkState} {f f' : SState} {cur : LKind → Option Nat} {a : SAct} (ha : a.own = true)
    (h : sStep ce f a = some f') : rsStep cfg ce ⟨rvSys cfg pk jwk, f, cur⟩ (.fwd a) = some ⟨rvSys cfg pk jwk, f', cur⟩ := by
  simp only [rsStep, ha, h, if_true]
  rfl

/-- The states of a round. -/
def rkLoop (rd : List Str) : Nat → LState
  | 0 => { lInit with fch := 1, read := rd }
  | 1 => { lInit with fch := 1, read := rd }
  | 2 => { lInit with fch := 1, read := rd, tick := true }
  | 8 => { lInit with fch := 1, read := rd, pc := .report false rkErr }
  | 9 => { lInit with fch := 1, read := rd, pc := .offer, ech := [wrapMsg LKind.pubkeyd.msg rkErr] }
  | 10 => { lInit with fch := 1, read := rd, ech := [wrapMsg LKind.pubkeyd.msg rkErr] }
  | 11 => { lInit with fch := 1, read := rd ++ [wrapMsg LKind.pubkeyd.msg rkErr] }
  | 12 => { lInit with fch := 1, read := rd ++ [wrapMsg LKind.pubkeyd.msg rkErr] }
  | 13 => { lInit with fch := 1, read := rd ++ [wrapMsg LKind.pubkeyd.msg rkErr] }
  | _ => { lInit with fch := 1, read := rd, pc := .updating false }

def rkMsg : Str := wrapMsg LKind.pubkeyd.fwdMsg (wrapMsg LKind.pubkeyd.msg rkErr)

def rkFwd (rd rd' : List Str) (r : Nat) : SState :=
  rsFwd .pubkeyd (rkLoop rd r) (if r = 11 then .holding .pubkeyd (wrapMsg LKind.pubkeyd.msg rkErr) else .select) (if r = 12 then [rkMsg] else [])
    (if r = 13 then rd' ++ [rkMsg] else rd')

def rkPk (pk : PkState) : Nat → PkState
  | 0 => pk
  | 1 => { pk with now := pk.now + (1 : Nat) }
  | 2 => { pk with now := pk.now + (1 : Nat) }
  | 3 => { pk with now := pk.now + (1 : Nat), jobs := pk.jobs ++ [⟨.zts, .start⟩, ⟨.zms, .start⟩] }
  | 4 => { pk with now := pk.now + (1 : Nat), jobs := pk.jobs ++ [⟨.zts, .sent (some "tb".toList)⟩, ⟨.zms, .start⟩] }
  | 5 => { pk with now := pk.now + (1 : Nat), jobs := pk.jobs ++ [⟨.zts, .done none⟩, ⟨.zms, .start⟩] }
  | 6 => { pk with now := pk.now + (1 : Nat), jobs := pk.jobs ++ [⟨.zts, .done none⟩, ⟨.zms, .sent (pk.eTags.get (pk.now + (1 : Nat)) Env.zms.name)⟩] }
  | _ => { pk with now := pk.now + (1 : Nat), jobs := pk.jobs ++ [⟨.zts, .done none⟩, ⟨.zms, .done (some (.other "unreachable"))⟩] }

def rkState (pk : PkState) (rd rd' : List Str) (q r : Nat) : RSys :=
  ⟨rvSys rkCfg (rkPk pk r) jwkInit, rkFwd rd rd' r, rsCur .pubkeyd (if 3 ≤ r ∧ r ≤ 7 then some (4 + 2 * q) else none)⟩

theorem rk_step {pk : PkState} {rd rd' : List Str} {q : Nat} (hok : RtOk 1 pk "tb".toList) (hl : pk.jobs.length = 4 + 2 * q) (r : Nat) (hr : r < 13) :
    rsStep rkCfg rkCe (rkState pk rd rd' q r) (rkRound q r) = some (rkState pk rd rd' q (r + 1)) := by
  have hc := hok.alive
  obtain ⟨ent, ht, hv, he⟩ := hok.tag
  have hg : pk.eTags.get (pk.now + (1 : Nat)) Env.zts.name = some "tb".toList := by
    simp [Gache.get, ht, Gache.valid, hv]
    omega
  match r, hr with
  | 0, _ => exact rs_tick
  | 1, _ =>
    refine rs_own rfl ?_
    simp [sStep, rkFwd, rsFwd_child, lStep, rkLoop, rsFwd_set]
  | 2, _ =>
    have hpk : pkStep rkCfg.pk (rkPk pk 2) .update = some (rkPk pk 3) := by simp [pkStep, rkPk, hc]
    have hs := rvSys_pk (cfg := rkCfg) (jwk := jwkInit) (by simp) hpk hc
    have hf : sStep rkCe (rkFwd rd rd' 2) (.child .pubkeyd .selTick) = some (rkFwd rd rd' 3) := by
      simp [sStep, rkFwd, rsFwd_child, lStep, rkLoop, rsFwd_set, lInit]
    have hn : (rvSys rkCfg (rkPk pk 2) jwkInit).nextUpdate .pubkeyd = 4 + 2 * q := hl
    simp only [rsStep, rkState, rkRound, LKind.update, Bool.false_eq_true, if_false, hs, hf, hn, rsCur_set]
    rfl
  | 3, _ =>
    refine rs_pk (by simp) ?_ hc
    simp only [rkPk, ← hl, pkStep, hc, Bool.false_eq_true, if_false, rt_get0, rt_set0, hg]
  | 4, _ =>
    refine rs_pk (by simp) ?_ hc
    simp only [rkPk, ← hl, pkStep, hc, Bool.false_eq_true, if_false, rt_get0, rt_set0, if_true]
  | 5, _ =>
    refine rs_pk (by simp) ?_ hc
    simp only [rkPk, ← hl, pkStep, hc, Bool.false_eq_true, if_false, rt_get1, rt_set1]
  | 6, _ =>
    refine rs_pk (by simp) ?_ hc
    simp only [rkPk, ← hl, pkStep, hc, Bool.false_eq_true, if_false, rt_get1, rt_set1]
  | 7, _ =>
    have hf : sStep rkCe (rkFwd rd rd' 7) (.child .pubkeyd (.updFail rkErr)) = some (rkFwd rd rd' 8) := by
      simp [sStep, rkFwd, rsFwd_child, lStep, rkLoop, rsFwd_set, lInit]
    have hu : (rvSys rkCfg (rkPk pk 7) jwkInit).updateRet (4 + 2 * q) .pubkeyd = some false := by
      show (match (rkPk pk 7).jobs[4 + 2 * q]?, (rkPk pk 7).jobs[4 + 2 * q + 1]? with
        | some ⟨_, .done a⟩, some ⟨_, .done b⟩ => some (a.isNone && b.isNone)
        | _, _ => none) = some false
      simp only [rkPk, ← hl, rt_get0, rt_get1]
      rfl
    have hcur : rsCur .pubkeyd (some (4 + 2 * q)) .pubkeyd = some (4 + 2 * q) := rfl
    simp only [rsStep, rkState, rkRound, show (3 ≤ 7 ∧ 7 ≤ 7) = True by simp, if_true, hcur, Option.bind_some, hu, Bool.false_eq_true, if_false, hf, rsCur_set]
    rfl
  | 8, _ =>
    refine rs_own rfl ?_
    simp [sStep, rkFwd, rsFwd_child, lStep, rkLoop, rsFwd_set, lInit, echCap]
  | 9, _ =>
    refine rs_own rfl ?_
    simp [sStep, rkFwd, rsFwd_child, lStep, rkLoop, rsFwd_set, lInit]
  | 10, _ =>
    refine rs_own rfl ?_
    have hp : (rkFwd rd rd' 10).pc = .select := rfl
    have hch : (rkFwd rd rd' 10).child .pubkeyd = some (rkLoop rd 10) := rsFwd_child
    simp only [sStep, hp, if_true, hch]
    simp only [rkLoop, rkFwd, rsFwd_set, lInit]
    rfl
  | 11, _ =>
    refine rs_own rfl ?_
    simp [sStep, rkFwd, rsFwd, rkLoop, fwdCap, rkMsg]
  | 12, _ =>
    refine rs_own rfl ?_
    simp [sStep, rkFwd, rsFwd, rkLoop]

/-! The beginning: `Init` and the first `Update` of the goroutine. -/

theorem rs_pks {cfg : SysCfg} {ce : Str} {jwk : JwkState} {f : SState} {cur : LKind → Option Nat} {as : List PkAct} {pk pk' : PkState}
    (ha : ∀ a ∈ as, ∀ d, a ≠ .tick d) (h : pkRun cfg.pk pk as = some pk') (hc : pk'.crashed = false) :
    rsRun cfg ce ⟨rvSys cfg pk jwk, f, cur⟩ (as.map fun a => .sys (.pk a)) = some ⟨rvSys cfg pk' jwk, f, cur⟩ := by
  induction as generalizing pk with
  | nil =>
    simp only [pkRun, Option.some.injEq] at h
    subst h
    rfl
  | cons a as ih =>
    simp only [pkRun] at h
    cases hs : pkStep cfg.pk pk a with
    | none => rw [hs] at h; simp at h
    | some pk1 =>
      rw [hs] at h
      have hc1 : pk1.crashed = false := by
        cases as with
        | nil =>
          simp only [pkRun, Option.some.injEq] at h
          rw [h]; exact hc
        | cons b bs =>
          simp only [pkRun] at h
          cases hb : pkStep cfg.pk pk1 b with
          | none => rw [hb] at h; simp at h
          | some pk2 =>
            unfold pkStep at hb
            split at hb
            · simp at hb
            · rename_i hn; simpa using hn
      simp only [List.map_cons, rsRun, rs_pk (ha a (by simp)) hs hc1]
      exact ih (fun b hb => ha b (by simp [hb])) h

def rkA : List PkAct := loadA ++ [.send 1, .answer 1 (.fail (.other "unreachable")) []]
def rkB : List PkAct := loadB.tail ++ [.send 3, .answer 3 (.fail (.other "unreachable")) []]

theorem rkA_run : ∃ s, pkRun rtCfg (pkInit 0) rkA = some s ∧ (!s.crashed && decide (s.jobs.length = 2) &&
    (s.jobs.all fun b => match b.pc with | .done _ => true | _ => false) && (s.provider .zts "0".toList).isSome) = true :=
  exists_of_map (by decide +kernel)

theorem rkB_run : ∃ s, pkRun rtCfg (pkInit 0) (rkA ++ (.update :: rkB)) = some s ∧ (rtOkB 1 s "tb".toList && decide (s.jobs.length = 4) &&
    decide ((rvSys rkCfg s jwkInit).updateRet 2 .pubkeyd = some false)) = true :=
  exists_of_map (by decide +kernel)

/-- The states at the rounds. -/
def rkAt (s0 : PkState) (q r : Nat) : RSys :=
  rkState (rtBase 1 s0 q) (List.replicate (q + 1) (wrapMsg LKind.pubkeyd.msg rkErr)) (List.replicate (q + 1) rkMsg) q r

theorem rkAt_next (s0 : PkState) (q : Nat) : rkAt s0 q 13 = rkAt s0 (q + 1) 0 := by
  unfold rkAt
  rw [List.replicate_succ' (n := q + 1), List.replicate_succ' (n := q + 1)]
  rfl

/-- An error is passed on and read. -/
theorem rk_fail {pk : PkState} {rd rd' : List Str} {o fch : Nat} (hfch : fch ≤ 1)
    (hu : (rvSys rkCfg pk jwkInit).updateRet o .pubkeyd = some false) :
    rsRun rkCfg rkCe ⟨rvSys rkCfg pk jwkInit, rsFwd .pubkeyd { lInit with fch := fch, read := rd, pc := .updating false } .select [] rd', rsCur .pubkeyd (some o)⟩ rkFail =
      some ⟨rvSys rkCfg pk jwkInit, rsFwd .pubkeyd { lInit with fch := 1, read := rd ++ [wrapMsg LKind.pubkeyd.msg rkErr] } .select [] (rd' ++ [rkMsg]), rsCur .pubkeyd none⟩ := by
  have hf : sStep rkCe (rsFwd .pubkeyd { lInit with fch := fch, read := rd, pc := .updating false } .select [] rd') (.child .pubkeyd (.updFail rkErr)) =
      some (rsFwd .pubkeyd { lInit with fch := fch, read := rd, pc := .report false rkErr } .select [] rd') := by
    simp [sStep, rsFwd_child, lStep, rsFwd_set, lInit]
  have hcur : rsCur .pubkeyd (some o) .pubkeyd = some o := rfl
  have h1 : rsStep rkCfg rkCe ⟨rvSys rkCfg pk jwkInit, rsFwd .pubkeyd { lInit with fch := fch, read := rd, pc := .updating false } .select [] rd', rsCur .pubkeyd (some o)⟩
      (.ret .pubkeyd rkErr) =
      some ⟨rvSys rkCfg pk jwkInit, rsFwd .pubkeyd { lInit with fch := fch, read := rd, pc := .report false rkErr } .select [] rd', rsCur .pubkeyd none⟩ := by
    simp only [rsStep, hcur, Option.bind_some, hu, Bool.false_eq_true, if_false, hf, rsCur_set]
    rfl
  have h2 : sStep rkCe (rsFwd .pubkeyd { lInit with fch := fch, read := rd, pc := .report false rkErr } .select [] rd') (.child .pubkeyd .send) =
      some (rsFwd .pubkeyd { lInit with fch := fch, read := rd, pc := .offer, ech := [wrapMsg LKind.pubkeyd.msg rkErr] } .select [] rd') := by
    simp [sStep, rsFwd_child, lStep, rsFwd_set, lInit, echCap]
  have h3 : sStep rkCe (rsFwd .pubkeyd { lInit with fch := fch, read := rd, pc := .offer, ech := [wrapMsg LKind.pubkeyd.msg rkErr] } .select [] rd')
      (.child .pubkeyd .offer) = some (rsFwd .pubkeyd { lInit with fch := 1, read := rd, ech := [wrapMsg LKind.pubkeyd.msg rkErr] } .select [] rd') := by
    obtain rfl | rfl : fch = 0 ∨ fch = 1 := by omega
    all_goals simp [sStep, rsFwd_child, lStep, rsFwd_set, lInit]
  have h4 : sStep rkCe (rsFwd .pubkeyd { lInit with fch := 1, read := rd, ech := [wrapMsg LKind.pubkeyd.msg rkErr] } .select [] rd') (.take .pubkeyd) =
      some (rsFwd .pubkeyd { lInit with fch := 1, read := rd ++ [wrapMsg LKind.pubkeyd.msg rkErr] } (.holding .pubkeyd (wrapMsg LKind.pubkeyd.msg rkErr)) [] rd') := by
    have hp : (rsFwd .pubkeyd { lInit with fch := 1, read := rd, ech := [wrapMsg LKind.pubkeyd.msg rkErr] } .select [] rd').pc = .select := rfl
    simp only [sStep, hp, if_true, rsFwd_child, rsFwd_set]
    rfl
  have h5 : sStep rkCe (rsFwd .pubkeyd { lInit with fch := 1, read := rd ++ [wrapMsg LKind.pubkeyd.msg rkErr] }
      (.holding .pubkeyd (wrapMsg LKind.pubkeyd.msg rkErr)) [] rd') .send =
      some (rsFwd .pubkeyd { lInit with fch := 1, read := rd ++ [wrapMsg LKind.pubkeyd.msg rkErr] } .select [rkMsg] rd') := by
    simp [sStep, rsFwd, fwdCap, rkMsg]
  have h6 : sStep rkCe (rsFwd .pubkeyd { lInit with fch := 1, read := rd ++ [wrapMsg LKind.pubkeyd.msg rkErr] } .select [rkMsg] rd') .recv =
      some (rsFwd .pubkeyd { lInit with fch := 1, read := rd ++ [wrapMsg LKind.pubkeyd.msg rkErr] } .select [] (rd' ++ [rkMsg])) := by
    simp [sStep, rsFwd]
  simp only [rkFail, rsRun, h1, rs_own rfl h2, rs_own rfl h3, rs_own rfl h4, rs_own rfl h5, rs_own rfl h6]

theorem rk_init : rsInit (sysInit rkCfg 0) rkOn = ⟨rvSys rkCfg (pkInit 0) jwkInit, rsFwd .pubkeyd { lInit with fch := 0, read := [] } .select [] [], rsCur .pubkeyd none⟩ := by
  have h1 : sInit rkOn = rsFwd .pubkeyd lInit .select [] [] := by
    simp [sInit, rsFwd, rkOn]
  have h2 : (fun _ => none : LKind → Option Nat) = rsCur .pubkeyd none := by
    funext k
    simp [rsCur]
  simp only [rsInit, h1, h2]
  rfl

theorem rk_pre {a s0 : PkState} (ha : pkRun rtCfg (pkInit 0) rkA = some a) (hal : a.jobs.length = 2) (hac : a.crashed = false)
    (hb : pkRun rtCfg (pkInit 0) (rkA ++ (.update :: rkB)) = some s0) (hbc : s0.crashed = false)
    (hu : (rvSys rkCfg s0 jwkInit).updateRet 2 .pubkeyd = some false) :
    rsRun rkCfg rkCe (rsInit (sysInit rkCfg 0) rkOn) rkPre = some (rkAt s0 0 0) := by
  rw [pkRun_append, ha] at hb
  simp only [Option.bind_some, pkRun] at hb
  cases hup : pkStep rtCfg a .update with
  | none => rw [hup] at hb; simp at hb
  | some a' =>
    rw [hup] at hb
    have hac' : a'.crashed = false := by
      simp only [pkStep, hac, Bool.false_eq_true, if_false, Option.some.injEq] at hup
      rw [← hup]
    have hpre : rkPre = rkA.map (fun a => .sys (.pk a)) ++ (.fwd (.child .pubkeyd .tick) :: .call .pubkeyd false [] :: (rkB.map (fun a => .sys (.pk a)) ++ rkFail)) := rfl
    have h1 := rs_pks (cfg := rkCfg) (ce := rkCe) (jwk := jwkInit) (f := rsFwd .pubkeyd { lInit with fch := 0, read := [] } .select [] []) (cur := rsCur .pubkeyd none)
      (as := rkA) (by simp [rkA, loadA]) ha hac
    have h2 : rsStep rkCfg rkCe ⟨rvSys rkCfg a jwkInit, rsFwd .pubkeyd { lInit with fch := 0, read := [] } .select [] [], rsCur .pubkeyd none⟩ (.fwd (.child .pubkeyd .tick)) =
        some ⟨rvSys rkCfg a jwkInit, rsFwd .pubkeyd { lInit with fch := 0, read := [], tick := true } .select [] [], rsCur .pubkeyd none⟩ := by
      refine rs_own rfl ?_
      simp [sStep, rsFwd_child, lStep, rsFwd_set]
    have h3 : rsStep rkCfg rkCe ⟨rvSys rkCfg a jwkInit, rsFwd .pubkeyd { lInit with fch := 0, read := [], tick := true } .select [] [], rsCur .pubkeyd none⟩ (.call .pubkeyd false []) =
        some ⟨rvSys rkCfg a' jwkInit, rsFwd .pubkeyd { lInit with fch := 0, read := [], pc := .updating false } .select [] [], rsCur .pubkeyd (some 2)⟩ := by
      have hs := rvSys_pk (cfg := rkCfg) (jwk := jwkInit) (by simp) hup hac'
      have hf : sStep rkCe (rsFwd .pubkeyd { lInit with fch := 0, read := [], tick := true } .select [] []) (.child .pubkeyd .selTick) =
          some (rsFwd .pubkeyd { lInit with fch := 0, read := [], pc := .updating false } .select [] []) := by
        simp [sStep, rsFwd_child, lStep, rsFwd_set, lInit]
      have hn : (rvSys rkCfg a jwkInit).nextUpdate .pubkeyd = 2 := hal
      simp only [rsStep, LKind.update, Bool.false_eq_true, if_false, hs, hf, hn, rsCur_set]
      rfl
    have h4 := rs_pks (cfg := rkCfg) (ce := rkCe) (jwk := jwkInit) (f := rsFwd .pubkeyd { lInit with fch := 0, read := [], pc := .updating false } .select [] [])
      (cur := rsCur .pubkeyd (some 2)) (as := rkB) (by simp [rkB, loadB]) hb hbc
    rw [hpre, rsRun_append, rk_init, h1]
    simp only [Option.bind_some, rsRun, h2, h3]
    rw [rsRun_append, h4]
    simp only [Option.bind_some]
    rw [rk_fail (by omega) hu]
    rfl

/-- Nothing but the keys is looked after. -/
def keysOnly : SysAct → Bool
  | .tick _ => true
  | .pk (.tick _) => false
  | .pk _ => true
  | .jwk _ => true
  | _ => false

theorem rs_rvSys {cfg : SysCfg} {now : Int} (y : SysExec cfg now) (h : ∀ n, keysOnly (y.act n) = true) (n : Nat) :
    y.state n = rvSys cfg (y.state n).pk (y.state n).jwk := by
  have step : ∀ (pk : PkState) (jwk : JwkState) (a : SysAct) (s' : Sys), sysStep cfg (rvSys cfg pk jwk) a = some s' → keysOnly a = true →
      s'.pk.crashed = false → s' = rvSys cfg s'.pk s'.jwk := by
    intro pk jwk a s' hs hk hc
    have hs' := hs
    obtain ⟨_, he⟩ := sysStep_effect hs
    cases he with
    | tick d => rfl
    | pk a pk' ha hp =>
      have hp : pkStep cfg.pk pk a = some pk' := hp
      have := rvSys_pk (jwk := jwk) ha hp hc
      rw [hs', Option.some.injEq] at this
      rw [this]; rfl
    | jwk a jwk' hp => rfl
    | _ => simp [keysOnly] at hk
  induction n with
  | zero => rw [y.init]; rfl
  | succ n ih =>
    have hs := y.next n
    rw [ih] at hs
    refine step _ _ _ _ hs (h n) ?_
    have := (pkExecOf y).next (n + 1)
    change pkStep cfg.pk (y.state (n + 1)).pk _ = _ at this
    unfold pkStep at this
    split at this
    · simp at this
    · rename_i h; simpa using h

/-- Again and again all updates are over. -/
theorem rs_keyFair {cfg : SysCfg} {now : Int} (y : SysExec cfg now)
    (h : ∀ n, ∃ m, n ≤ m ∧ (∀ b ∈ (y.state m).pk.jobs, ∃ r, b.pc = .done r) ∧ ∀ b ∈ (y.state m).jwk.jobs, b.todo = []) : KeyFair y := by
  refine ⟨fun j n hen => ?_, fun j n hen => ?_⟩
  · exfalso
    obtain ⟨m, hm, hd, _⟩ := h n
    obtain ⟨a, ha, hs⟩ := hen m hm
    obtain ⟨s', hs⟩ := Option.isSome_iff_exists.mp hs
    obtain ⟨_, he⟩ := sysStep_effect hs
    have hj : ∀ b, (y.state m).pk.jobs[j]? = some b → ∃ r, b.pc = .done r := fun b hb => hd b (List.mem_of_getElem? hb)
    cases he with
    | pk a pk' _ hp =>
      cases hb : (y.state m).pk.jobs[j]? with
      | none => cases a <;> simp_all [OfJob, jobOf, pkStep]
      | some b =>
        obtain ⟨r, hr⟩ := hj b hb
        obtain ⟨e, pc⟩ := b
        simp only at hr
        subst hr
        cases a <;> simp_all [OfJob, jobOf, pkStep]
  · exfalso
    obtain ⟨m, hm, _, hd⟩ := h n
    obtain ⟨a, ha, hs⟩ := hen m hm
    obtain ⟨s', hs⟩ := Option.isSome_iff_exists.mp hs
    obtain ⟨_, he⟩ := sysStep_effect hs
    cases he with
    | jwk a jwk' hp =>
      have he := jwkStep_effect hp
      cases he with
      | update => simp [OfJwkJob] at ha
      | failed j' url rest failed hj => have := hd _ (List.mem_of_getElem? hj); simp at this
      | got j' url rest failed set hj => have := hd _ (List.mem_of_getElem? hj); simp at this
      | stored j' url rest failed set hj => have := hd _ (List.mem_of_getElem? hj); simp at this

/-- A daemon that is not enabled has no goroutine. -/
theorem rs_off {cfg : SysCfg} {ce : Str} {now : Int} {on : LKind → Bool} (x : RsExec cfg ce now on) {k : LKind} (hon : on k = false) (n : Nat) :
    (x.state n).fwd.child k = none := by
  have step : ∀ (s f : SState) (a : SAct), s.child k = none → sStep ce s a = some f → f.child k = none := by
    intro s f a h hs
    cases sStep_effect hs with
    | child k' a c c' _ _ hc _ =>
      have : k ≠ k' := by rintro rfl; rw [h] at hc; simp at hc
      simp [SState.setChild, this, h]
    | cancel => simp [h]
    | take k' c e es _ hc _ =>
      have : k ≠ k' := by rintro rfl; rw [h] at hc; simp at hc
      simp [SState.setChild, this, h]
    | _ => exact h
  induction n with
  | zero => rw [x.init]; simp [rsInit, sInit, hon]
  | succ n ih =>
    obtain ⟨_, he⟩ := rsStep_effect (x.next n)
    revert he
    generalize x.state (n + 1) = s'
    generalize x.act n = a
    intro he
    cases he with
    | sys => exact ih
    | fwd a f _ hf => exact step _ _ _ ih hf
    | call k' r fe f sys' hf _ => exact step _ _ _ ih hf
    | ret k' e i ok f _ _ hf => exact step _ _ _ ih hf

/-- The steps of such executions: `bad` ones do not occur in them. -/
theorem rs_acts {T : Nat} {pre : List RAct} {round : Nat → Nat → RAct} (hT : 0 < T) (P : RAct → Prop) (h1 : ∀ a ∈ pre, P a)
    (h2 : ∀ q r, r < T → P (round q r)) (n : Nat) : P (rsAct T pre round n) := by
  by_cases hn : n < pre.length
  · rw [rsAct_early hn]; exact h1 _ (List.getElem_mem hn)
  · obtain ⟨q, r, hr, rfl⟩ := rs_late hT (Nat.le_of_not_lt hn)
    rw [rsAct_late q r hr]; exact h2 q r hr

/-- The same from the moment `N` on. -/
theorem rs_actsFrom {T : Nat} {pre : List RAct} {round : Nat → Nat → RAct} (hT : 0 < T) (P : RAct → Prop) (N : Nat) (h1 : ∀ a ∈ pre.drop N, P a)
    (h2 : ∀ q r, r < T → P (round q r)) (n : Nat) (hN : N ≤ n) : P (rsAct T pre round n) := by
  by_cases hn : n < pre.length
  · rw [rsAct_early hn]
    refine h1 _ (List.mem_iff_getElem.mpr ⟨n - N, by rw [List.length_drop]; omega, ?_⟩)
    rw [List.getElem_drop]
    congr 1; omega
  · obtain ⟨q, r, hr, rfl⟩ := rs_late hT (Nat.le_of_not_lt hn)
    rw [rsAct_late q r hr]; exact h2 q r hr

theorem rs_actsTo {T : Nat} {pre : List RAct} {round : Nat → Nat → RAct} (P : RAct → Prop) (N M : Nat) (hM : M ≤ pre.length)
    (h1 : ∀ a ∈ (pre.take M).drop N, P a) (n : Nat) (hN : N ≤ n) (hn : n < M) : P (rsAct T pre round n) := by
  rw [rsAct_early (by omega)]
  refine h1 _ (List.mem_iff_getElem.mpr ⟨n - N, by rw [List.length_drop, List.length_take]; omega, ?_⟩)
  rw [List.getElem_drop, List.getElem_take]
  congr 1; omega

theorem rk_cases {r : Nat} (hr : r < 13) : r = 0 ∨ r = 1 ∨ r = 2 ∨ r = 3 ∨ r = 4 ∨ r = 5 ∨ r = 6 ∨ r = 7 ∨ r = 8 ∨ r = 9 ∨ r = 10 ∨ r = 11 ∨ r = 12 := by omega

theorem rk_exec : ∃ x : RsExec rkCfg rkCe 0 rkOn, ChildFair x .pubkeyd ∧ ErrorsRead x ∧ Uncancelled x ∧ SysFair x.sys ∧ KeyFair x.sys ∧ InitFirst x 11 ∧
    ServesKeys (pkExecOf x.sys) 11 .zts "tb".toList rtKeys ∧ Versioned (pkExecOf x.sys) .zts "tb".toList rtKeys ∧
    (∀ n, 11 ≤ n → ∀ j r o, (pkExecOf x.sys).act n = .answer j r o → jobEnv j = .zts → ∃ st tag b, r = .answer st tag b ∧ (st = 200 ∨ st = 304)) ∧
    ¬ InUse (x.state 11).sys.pk .zts rtKeys := by
  obtain ⟨a, ha, has⟩ := rkA_run
  obtain ⟨s0, hb, hbs⟩ := rkB_run
  simp only [Bool.and_eq_true, decide_eq_true_eq, Bool.not_eq_true', List.all_eq_true] at has hbs
  obtain ⟨⟨⟨a1, a2⟩, a3⟩, a4⟩ := has
  obtain ⟨⟨b1, b2⟩, b3⟩ := hbs
  have hok := rtOk_of b1
  have hp := rk_pre ha a2 a1 hb hok.alive b3
  have hstep : ∀ q r, r < 13 → rsStep rkCfg rkCe (rkAt s0 q r) (rkRound q r) = some (rkAt s0 q (r + 1)) := by
    intro q r hr
    obtain ⟨g1, g2, _, _⟩ := rtBase_ok hok q
    exact rk_step g1 (by rw [g2, b2]) r hr
  have hT : 0 < 13 := by omega
  refine ⟨rsRounds hT hp hstep (rkAt_next s0), ?_⟩
  have hst := rsRounds_state hT hp hstep (rkAt_next s0)
  have hac := rsRounds_act hT hp hstep (rkAt_next s0)
  have hag := rsRounds_again hT hp hstep (rkAt_next s0)
  have hpre := fun (P : RAct → Prop) h1 h2 n => show P ((rsRounds hT hp hstep (rkAt_next s0)).act n) from rs_acts hT P h1 h2 n
  have hfrom := fun (P : RAct → Prop) N h1 h2 n hn => show P ((rsRounds hT hp hstep (rkAt_next s0)).act n) from rs_actsFrom hT P N h1 h2 n hn
  have hA : ((rsRounds hT hp hstep (rkAt_next s0)).state 11).sys.pk = a := by
    have h1 := rs_pks (cfg := rkCfg) (ce := rkCe) (jwk := jwkInit) (f := rsFwd .pubkeyd { lInit with fch := 0, read := [] } .select [] []) (cur := rsCur .pubkeyd none)
      (as := rkA) (by simp [rkA, loadA]) ha a1
    have : (rsRounds hT hp hstep (rkAt_next s0)).state 11 = ⟨rvSys rkCfg a jwkInit, rsFwd .pubkeyd { lInit with fch := 0, read := [] } .select [] [], rsCur .pubkeyd none⟩ := by
      show (rsRun rkCfg rkCe (rsInit (sysInit rkCfg 0) rkOn) ((List.range 11).map (rsAct 13 rkPre rkRound))).getD (rsInit (sysInit rkCfg 0) rkOn) = _
      rw [show (List.range 11).map (rsAct 13 rkPre rkRound) = rkA.map (fun a => RAct.sys (.pk a)) from rfl, rk_init, h1]
      rfl
    rw [this]; rfl
  have hto := fun (P : RAct → Prop) N M hM h1 n hN hn => show P ((rsRounds hT hp hstep (rkAt_next s0)).act n) from rs_actsTo P N M hM h1 n hN hn
  generalize rsRounds hT hp hstep (rkAt_next s0) = x at hst hac hag hpre hfrom hto hA
  refine ⟨⟨fun n _ => ?_, hag 1 (by omega) _ fun _ => rfl⟩, ⟨fun n _ => hag 11 (by omega) _ (fun _ => rfl) n, fun k h n => ?_, fun n _ => hag 12 (by omega) _ (fun _ => rfl) n⟩,
    ?_, ?_, ?_, ⟨?_, ?_, ?_, ?_⟩, ?_, ?_, ?_, ?_⟩
  · obtain ⟨m, hm, h⟩ := hag 2 (by omega) _ (fun _ => rfl) n
    exact ⟨m, hm, by rw [h]; rfl⟩
  · cases k with
    | pubkeyd => exact hag 10 (by omega) _ (fun _ => rfl) n
    | _ =>
      obtain ⟨m, _, _, c, hc, _⟩ := h 0
      rw [rs_off x rfl] at hc
      simp at hc
  · exact hpre (fun a => a ≠ .fwd .cancel) (by simp [rkPre, rkFail, loadA, loadB]) (fun q r hr => by rcases rk_cases hr with rfl | rfl | rfl | rfl | rfl | rfl | rfl | rfl | rfl | rfl | rfl | rfl | rfl <;> simp [rkRound])
  · refine rvSys_fair fun m => rs_rvSys x.sys (hpre (fun a => keysOnly a.proj = true) ?_ ?_) m
    · simp [rkPre, rkFail, loadA, loadB, keysOnly, RAct.proj, LKind.update]
    · intro q r hr
      rcases rk_cases hr with rfl | rfl | rfl | rfl | rfl | rfl | rfl | rfl | rfl | rfl | rfl | rfl | rfl <;> rfl
  · refine rs_keyFair x.sys fun n => ⟨rkPre.length + (13 * n + 0), by omega, ?_⟩
    show (∀ b ∈ (x.state _).sys.pk.jobs, _) ∧ ∀ b ∈ (x.state _).sys.jwk.jobs, _
    rw [hst n 0 (by omega)]
    exact ⟨(rtBase_ok hok n).1.done, by intro b hb; cases hb⟩
  · intro n hn r f
    exact hto (fun a => a ≠ .call .pubkeyd r f) 0 11 (by decide) (by simp [rkPre, loadA]) n (by omega) hn
  · intro n hn h
    by_cases h0 : n = 0
    · subst h0
      rw [x.init]
      intro j b hj
      simp [rsInit, sysInit, pkInit] at hj
    · exact absurd h (hto (fun a => a ≠ .sys (.pk .update)) 1 11 (by decide) (by simp [rkPre, loadA]) n (by omega) hn)
  · rw [hA]
    intro j b hj
    have := a3 b (List.mem_of_getElem? hj)
    cases hpc : b.pc with
    | done r => exact ⟨r, rfl⟩
    | _ => rw [hpc] at this; simp at this
  · exact hfrom (fun a => a ≠ .sys (.pk .update)) 11 (by simp [rkPre, rkFail, loadA, loadB]) (fun q r hr => by rcases rk_cases hr with rfl | rfl | rfl | rfl | rfl | rfl | rfl | rfl | rfl | rfl | rfl | rfl | rfl <;> simp [rkRound])
  · intro n hn j st tag b o h hj
    have h : pkActOf (x.act n).proj = .answer j (.answer st tag b) o := h
    by_cases hnp : n < rkPre.length
    · obtain ⟨rfl, rfl, rfl⟩ := hto (fun a => ∀ j st tag b o, pkActOf a.proj = .answer j (.answer st tag b) o → st = 200 ∧ tag = "tb".toList ∧ b = "B".toList) 11 rkPre.length (Nat.le_refl _)
        (by simp [rkPre, rkFail, loadA, loadB, RAct.proj, pkActOf, LKind.update]; rintro _ _ _ _ _ rfl rfl rfl rfl rfl; simp) n hn hnp j st tag b o h
      exact ⟨fun _ => ⟨rfl, rtPublishes rfl rfl⟩, by simp⟩
    · obtain ⟨q, r, hr, rfl⟩ := rs_late hT (Nat.le_of_not_lt hnp)
      rw [hac q r hr] at h
      rcases rk_cases hr with rfl | rfl | rfl | rfl | rfl | rfl | rfl | rfl | rfl | rfl | rfl | rfl | rfl <;> simp [rkRound, RAct.proj, pkActOf, LKind.update] at h
      obtain ⟨rfl, ⟨rfl, _, _⟩, _⟩ := h
      refine ⟨by simp, fun _ => ?_⟩
      show requestTag (x.state _).sys.pk _ = _
      rw [hst q 4 (by omega)]
      have hg2 := (rtBase_ok hok q).2.1
      have hj4 : (rkAt s0 q 4).sys.pk.jobs[4 + 2 * q]? = some ⟨.zts, .sent (some "tb".toList)⟩ := by
        show ((rtBase 1 s0 q).jobs ++ [⟨.zts, .sent (some "tb".toList)⟩, ⟨.zms, .start⟩])[4 + 2 * q]? = _
        rw [show 4 + 2 * q = (rtBase 1 s0 q).jobs.length by omega, rt_get0]
      unfold requestTag
      rw [hj4]
  · intro n j tag b o h hj hdec
    have h : pkActOf (x.act n).proj = .answer j (.answer 200 tag b) o := h
    obtain ⟨h1, h2⟩ := hpre (fun a => ∀ j tag b o, pkActOf a.proj = .answer j (.answer 200 tag b) o → tag ≠ [] ∧ (tag = "tb".toList → b = "B".toList))
      (by simp [rkPre, rkFail, loadA, loadB, RAct.proj, pkActOf, LKind.update]; constructor <;> (rintro _ _ _ _ rfl rfl rfl rfl; simp))
      (fun q r hr => by rcases rk_cases hr with rfl | rfl | rfl | rfl | rfl | rfl | rfl | rfl | rfl | rfl | rfl | rfl | rfl <;> simp [rkRound, RAct.proj, pkActOf, LKind.update])
      n j tag b o h
    exact ⟨h1, fun ht => by rw [h2 ht]; exact rtPublishes rfl rfl⟩
  · intro n hn j r o h hj
    have h : pkActOf (x.act n).proj = .answer j r o := h
    refine hfrom (fun a => ∀ j r o, pkActOf a.proj = .answer j r o → jobEnv j = .zts → ∃ st tag b, r = .answer st tag b ∧ (st = 200 ∨ st = 304)) 11 ?_ ?_ n hn j r o h hj
    · simp [rkPre, rkFail, loadA, loadB, RAct.proj, pkActOf, LKind.update]
      rintro j r o rfl rfl rfl h3
      exact absurd h3 (by decide)
    · intro q r hr
      rcases rk_cases hr with rfl | rfl | rfl | rfl | rfl | rfl | rfl | rfl | rfl | rfl | rfl | rfl | rfl <;> simp [rkRound, RAct.proj, pkActOf, LKind.update]
      · rintro j r o rfl rfl rfl _
        exact ⟨304, ⟨[], [], rfl⟩, .inr rfl⟩
      · rintro j r o rfl rfl rfl h3
        rw [(jobEnv_even (by omega)).2] at h3
        simp at h3
  · intro h
    have := h "0".toList
    rw [hA] at this
    rw [this, show rtKeys "0".toList = none by decide +kernel] at a4
    simp at a4

/-! ### JSON web keys -/

def rwCfg : SysCfg := { chCfg with jwk := rjCfg }
def rwOn (k : LKind) : Bool := decide (k = .jwkd)

/-- `Init` gets the old set. -/
def rwPre : List RAct := [.sys (.jwk .update), .sys (.jwk (.fetch 0 (some jkA))), .sys (.jwk (.store 0))]

/-- A round: time passes, the goroutine calls `Update`, which gets the new set. -/
def rwRound (q : Nat) : Nat → RAct
  | 0 => .sys (.tick 1)
  | 1 => .fwd (.child .jwkd .tick)
  | 2 => .call .jwkd false []
  | 3 => .sys (.jwk (.fetch (1 + q) (some jkB)))
  | 4 => .sys (.jwk (.store (1 + q)))
  | _ => .ret .jwkd []

def rwJwk (w : JwkState) : Nat → JwkState
  | 0 => w
  | 1 => w
  | 2 => w
  | 3 => { w with jobs := w.jobs ++ [⟨["athenz".toList], none, []⟩] }
  | 4 => { w with jobs := w.jobs ++ [⟨["athenz".toList], some jkB, []⟩], log := w.log ++ [.fetched w.jobs.length "athenz".toList (some jkB)] }
  | _ => { keys := w.keys.store "athenz".toList jkB, jobs := w.jobs ++ [⟨[], none, []⟩],
           log := w.log ++ [.fetched w.jobs.length "athenz".toList (some jkB)] ++ [.stored w.jobs.length "athenz".toList jkB] }

def rwBase (w : JwkState) : Nat → JwkState
  | 0 => w
  | q + 1 => rwJwk (rwBase w q) 6

def rwLoop : Nat → LState
  | 2 => { lInit with tick := true }
  | 3 => { lInit with pc := .updating false }
  | 4 => { lInit with pc := .updating false }
  | 5 => { lInit with pc := .updating false }
  | _ => lInit

def rwAt (w : JwkState) (q r : Nat) : RSys :=
  ⟨rvSys rwCfg (rvClock 0 (if r = 0 then q else q + 1)) (rwJwk (rwBase w q) r), rsFwd .jwkd (rwLoop r) .select [] [],
    rsCur .jwkd (if 3 ≤ r ∧ r ≤ 5 then some (1 + q) else none)⟩

theorem rwAt_next (w : JwkState) (q : Nat) : rwAt w q 6 = rwAt w (q + 1) 0 := rfl

theorem rwBase_ok {w : JwkState} (hl : w.jobs.length = 1) (hd : ∀ b ∈ w.jobs, b.todo = []) (q : Nat) :
    (rwBase w q).jobs.length = 1 + q ∧ ∀ b ∈ (rwBase w q).jobs, b.todo = [] := by
  induction q with
  | zero => exact ⟨hl, hd⟩
  | succ q ih =>
    refine ⟨?_, fun b hb => ?_⟩
    · simp only [rwBase, rwJwk, List.length_append, List.length_cons, List.length_nil, ih.1]; omega
    · simp only [rwBase, rwJwk, List.mem_append, List.mem_cons, List.not_mem_nil, or_false] at hb
      rcases hb with hb | rfl
      · exact ih.2 b hb
      · rfl

theorem rw_step {w : JwkState} {q : Nat} (hl : (rwBase w q).jobs.length = 1 + q) (r : Nat) (hr : r < 6) :
    rsStep rwCfg rkCe (rwAt w q r) (rwRound q r) = some (rwAt w q (r + 1)) := by
  have ht : rjCfg.targets = ["athenz".toList] := by decide
  match r, hr with
  | 0, _ =>
    show rsStep rwCfg rkCe ⟨rvSys rwCfg (rvClock 0 q) _, _, _⟩ (.sys (.tick 1)) = _
    rw [rs_tick, rvClock_succ]
    rfl
  | 1, _ =>
    refine rs_own rfl ?_
    simp [sStep, rsFwd_child, lStep, rwLoop, rsFwd_set]
  | 2, _ =>
    have hj : jwkStep rwCfg.jwk (rwJwk (rwBase w q) 2) .update = some (rwJwk (rwBase w q) 3) := by
      show jwkStep rjCfg _ _ = _
      simp [jwkStep, rwJwk, ht]
    have hs := rvSys_jwk (cfg := rwCfg) (pk := rvClock 0 (q + 1)) hj
    have hf : sStep rkCe (rsFwd .jwkd (rwLoop 2) .select [] []) (.child .jwkd .selTick) = some (rsFwd .jwkd (rwLoop 3) .select [] []) := by
      simp [sStep, rsFwd_child, lStep, rwLoop, rsFwd_set, lInit]
    have hn : (rvSys rwCfg (rvClock 0 (q + 1)) (rwJwk (rwBase w q) 2)).nextUpdate .jwkd = 1 + q := hl
    simp only [rsStep, rwAt, rwRound, LKind.update, Bool.false_eq_true, if_false, show ((2 : Nat) = 0) = False by simp, hs, hf, hn, rsCur_set]
    rfl
  | 3, _ =>
    refine rs_jwk ?_
    show jwkStep rjCfg _ _ = _
    simp [jwkStep, rwJwk, ← hl]
  | 4, _ =>
    refine rs_jwk ?_
    show jwkStep rjCfg _ _ = _
    simp [jwkStep, rwJwk, ← hl]
  | 5, _ =>
    have hf : sStep rkCe (rsFwd .jwkd (rwLoop 5) .select [] []) (.child .jwkd .updOk) = some (rsFwd .jwkd (rwLoop 6) .select [] []) := by
      simp [sStep, rsFwd_child, lStep, rwLoop, rsFwd_set, lInit]
    have hu : (rvSys rwCfg (rvClock 0 (q + 1)) (rwJwk (rwBase w q) 5)).updateRet (1 + q) .jwkd = some true := by
      show (((rwJwk (rwBase w q) 5).jobs[1 + q]?).bind (·.result)).map (fun e => !e) = some true
      simp [rwJwk, ← hl, JwkJob.result]
    have hcur : rsCur .jwkd (some (1 + q)) .jwkd = some (1 + q) := rfl
    simp only [rsStep, rwAt, rwRound, show (3 ≤ 5 ∧ 5 ≤ 5) = True by simp, show ((5 : Nat) = 0) = False by simp, if_true, if_false, hcur, Option.bind_some, hu, hf, rsCur_set]
    rfl

theorem rwPre_run : ∃ w, jwkRun rjCfg jwkInit [.update, .fetch 0 (some jkA), .store 0] = some w ∧ (decide (w.jobs.length = 1) &&
    (w.jobs.all fun b => b.todo.isEmpty) && decide (getKey rjCfg w "k".toList [] = some ⟨.rsaPublic, "S".toList⟩)) = true :=
  exists_of_map (by decide +kernel)

theorem rs_jwks {cfg : SysCfg} {ce : Str} {pk : PkState} {f : SState} {cur : LKind → Option Nat} {as : List JwkAct} {w w' : JwkState}
    (h : jwkRun cfg.jwk w as = some w') : rsRun cfg ce ⟨rvSys cfg pk w, f, cur⟩ (as.map fun a => .sys (.jwk a)) = some ⟨rvSys cfg pk w', f, cur⟩ := by
  induction as generalizing w with
  | nil =>
    simp only [jwkRun, Option.some.injEq] at h
    subst h
    rfl
  | cons a as ih =>
    simp only [jwkRun] at h
    cases hs : jwkStep cfg.jwk w a with
    | none => rw [hs] at h; simp at h
    | some w1 =>
      rw [hs] at h
      simp only [List.map_cons, rsRun, rs_jwk hs]
      exact ih h

theorem rw_init : rsInit (sysInit rwCfg 0) rwOn = ⟨rvSys rwCfg (pkInit 0) jwkInit, rsFwd .jwkd lInit .select [] [], rsCur .jwkd none⟩ := by
  have h1 : sInit rwOn = rsFwd .jwkd lInit .select [] [] := by
    simp [sInit, rsFwd, rwOn]
  have h2 : (fun _ => none : LKind → Option Nat) = rsCur .jwkd none := by
    funext k
    simp [rsCur]
  simp only [rsInit, h1, h2]
  rfl

theorem rw_cases {r : Nat} (hr : r < 6) : r = 0 ∨ r = 1 ∨ r = 2 ∨ r = 3 ∨ r = 4 ∨ r = 5 := by omega

theorem rw_exec : ∃ x : RsExec rwCfg rkCe 0 rwOn, ChildFair x .jwkd ∧ Uncancelled x ∧ SysFair x.sys ∧ KeyFair x.sys ∧
    (∀ url, ServesSet (jwkExecOf x.sys) 3 url jkB) ∧
    (∀ url n, 3 ≤ n → ∀ j out, (jwkExecOf x.sys).act n = some (.fetch j out) → WorksOn (x.state n).sys.jwk j url → out.isSome) ∧
    getKey rjCfg (x.state 3).sys.jwk "k".toList [] = some ⟨.rsaPublic, "S".toList⟩ := by
  obtain ⟨w, hw, hws⟩ := rwPre_run
  simp only [Bool.and_eq_true, decide_eq_true_eq, List.all_eq_true, List.isEmpty_iff] at hws
  obtain ⟨⟨w1, w2⟩, w3⟩ := hws
  have hp : rsRun rwCfg rkCe (rsInit (sysInit rwCfg 0) rwOn) rwPre = some (rwAt w 0 0) := by
    rw [rw_init]
    exact rs_jwks (cfg := rwCfg) (as := [.update, .fetch 0 (some jkA), .store 0]) hw
  have hstep : ∀ q r, r < 6 → rsStep rwCfg rkCe (rwAt w q r) (rwRound q r) = some (rwAt w q (r + 1)) := fun q r hr => rw_step (rwBase_ok w1 w2 q).1 r hr
  have hT : 0 < 6 := by omega
  refine ⟨rsRounds hT hp hstep (rwAt_next w), ?_⟩
  have hst := rsRounds_state hT hp hstep (rwAt_next w)
  have hac := rsRounds_act hT hp hstep (rwAt_next w)
  have hag := rsRounds_again hT hp hstep (rwAt_next w)
  have hpre := fun (P : RAct → Prop) h1 h2 n => show P ((rsRounds hT hp hstep (rwAt_next w)).act n) from rs_acts hT P h1 h2 n
  have hfrom := fun (P : RAct → Prop) N h1 h2 n hn => show P ((rsRounds hT hp hstep (rwAt_next w)).act n) from rs_actsFrom hT P N h1 h2 n hn
  generalize rsRounds hT hp hstep (rwAt_next w) = x at hst hac hag hpre hfrom
  refine ⟨⟨fun n _ => ?_, hag 1 (by omega) _ fun _ => rfl⟩, ?_, ?_, ?_, ?_, ?_, ?_⟩
  · obtain ⟨m, hm, h⟩ := hag 2 (by omega) _ (fun _ => rfl) n
    exact ⟨m, hm, by rw [h]; rfl⟩
  · exact hpre (fun a => a ≠ .fwd .cancel) (by simp [rwPre]) (fun q r hr => by rcases rw_cases hr with rfl | rfl | rfl | rfl | rfl | rfl <;> simp [rwRound])
  · refine rvSys_fair fun m => rs_rvSys x.sys (hpre (fun a => keysOnly a.proj = true) (by simp [rwPre, keysOnly, RAct.proj]) ?_) m
    intro q r hr
    rcases rw_cases hr with rfl | rfl | rfl | rfl | rfl | rfl <;> rfl
  · refine rs_keyFair x.sys fun n => ⟨rwPre.length + (6 * n + 0), by omega, ?_⟩
    show (∀ b ∈ (x.state _).sys.pk.jobs, _) ∧ ∀ b ∈ (x.state _).sys.jwk.jobs, _
    rw [hst n 0 (by omega)]
    refine ⟨fun b hb => ?_, (rwBase_ok w1 w2 n).2⟩
    cases hb
  · intro url n hn j set h _
    have h : jwkActOf (x.act n).proj = some (.fetch j (some set)) := h
    refine hfrom (fun a => ∀ j set, jwkActOf a.proj = some (.fetch j (some set)) → set = jkB) 3 (by simp [rwPre]) ?_ n hn j set h
    intro q r hr
    rcases rw_cases hr with rfl | rfl | rfl | rfl | rfl | rfl <;> simp [rwRound, RAct.proj, jwkActOf, LKind.update]
  · intro url n hn j out h _
    have h : jwkActOf (x.act n).proj = some (.fetch j out) := h
    refine hfrom (fun a => ∀ j out, jwkActOf a.proj = some (.fetch j out) → out.isSome) 3 (by simp [rwPre]) ?_ n hn j out h
    intro q r hr
    rcases rw_cases hr with rfl | rfl | rfl | rfl | rfl | rfl <;> simp [rwRound, RAct.proj, jwkActOf, LKind.update]
  · have := hst 0 0 (by omega)
    rw [show rwPre.length + (6 * 0 + 0) = 3 from rfl] at this
    rw [this]
    exact w3

/-! ### Policies -/

def rpOn (k : LKind) : Bool := decide (k = .policyd)

def rpAct : LsAct → RAct
  | .sys a => .sys a
  | .loop a => .fwd (.child .policyd a)
  | .call r f => .call .policyd r f
  | .ret e => .ret .policyd e

def rpState (s : LSys) : RSys := ⟨s.sys, rsFwd .policyd s.loop .select [] [], rsCur .policyd s.cur⟩

/-- The policy daemon alone, without errors. -/
theorem rp_next {cfg : SysCfg} {ce : Str} {s s' : LSys} {a : LsAct} (h : lsStep cfg ce s a = some s') (h1 : a ≠ .loop .recv) (h2 : a ≠ .loop .cancel) :
    rsStep cfg ce (rpState s) (rpAct a) = some (rpState s') := by
  have hc : ∀ b c, b ≠ .recv → b ≠ .cancel → lStep .policyd ce s.loop b = some c →
      sStep ce (rsFwd .policyd s.loop .select [] []) (.child .policyd b) = some (rsFwd .policyd c .select [] []) := by
    intro b c h1 h2 h
    simp only [sStep, h1, h2, or_self, if_false, rsFwd_child, h, rsFwd_set]
  unfold lsStep at h
  unfold rsStep
  split at h
  · simp at h
  · rename_i hd
    rw [show (rpState s).sys.dead = s.sys.dead from rfl, if_neg hd]
    cases a with
    | sys a =>
      simp only at h
      split at h
      · simp at h
      · rename_i sys' hs
        simp only [Option.some.injEq] at h
        subst h
        simp only [rpAct, rpState, hs]
    | loop a =>
      simp only at h
      split at h
      · rename_i ho
        split at h
        · simp at h
        · rename_i l hl
          simp only [Option.some.injEq] at h
          subst h
          have := hc a l (by rintro rfl; exact h1 rfl) (by rintro rfl; exact h2 rfl) hl
          simp only [rpAct, rpState, SAct.own, ho, if_true, this]
      · simp at h
    | call r f =>
      simp only at h
      split at h
      · rename_i l sys' hl hs
        simp only [Option.some.injEq] at h
        subst h
        have := hc _ l (by cases r <;> simp) (by cases r <;> simp) hl
        simp only [rpAct, rpState, LKind.update, this, hs, rsCur_set]
        rfl
      · simp at h
    | ret e =>
      simp only at h
      split at h
      · simp at h
      · rename_i ok hok
        split at h
        · simp at h
        · rename_i l hl
          simp only [Option.some.injEq] at h
          subst h
          have := hc _ l (by cases ok <;> simp) (by cases ok <;> simp) hl
          have hu : ((rpState s).cur .policyd).bind (fun i => (rpState s).sys.updateRet i .policyd) = some ok := by
            cases hcur : s.cur with
            | none => rw [hcur] at hok; simp at hok
            | some i =>
              rw [hcur] at hok
              show (s.cur).bind (fun i => (s.sys.pd.tasks[i]?).bind (·.ret)) = some ok
              rw [hcur]
              exact hok
          simp only [rpAct, hu]
          simp only [rpState, this, rsCur_set]

theorem lp_quiet (n : Nat) : lpExec.act n ≠ .loop .recv := by
  intro h
  have hs := lpExec.next n
  rw [h] at hs
  unfold lsStep at hs
  split at hs
  · simp at hs
  · simp [LAct.own, lStep, lpQuiet n] at hs

def rpExec : RsExec chCfg "context canceled".toList (auT 1500) rpOn where
  state n := rpState (lpExec.state n)
  act n := rpAct (lpExec.act n)
  init := by
    rw [lpExec.init]
    have h1 : sInit rpOn = rsFwd .policyd lInit .select [] [] := by simp [sInit, rsFwd, rpOn]
    have h2 : (fun _ => none : LKind → Option Nat) = rsCur .policyd none := by funext k; simp [rsCur]
    simp only [rsInit, h1, h2]
    rfl
  next n := rp_next (lpExec.next n) (lp_quiet n) (lpNotStopped n)

theorem rp_sys : rpExec.sys = lpExec.sys := by
  have : (fun n => (rpExec.act n).proj) = fun n => (lpExec.act n).proj := by
    funext n
    show (rpAct (lpExec.act n)).proj = _
    cases lpExec.act n <;> rfl
  have hst : rpExec.sys.state = lpExec.sys.state := rfl
  have hact : rpExec.sys.act = lpExec.sys.act := this
  revert hst hact
  generalize rpExec.sys = y
  generalize lpExec.sys = z
  intro h1 h2
  cases y; cases z
  simp only at h1 h2
  subst h1; subst h2
  rfl

theorem rp_fair : ChildFair rpExec .policyd := by
  refine ⟨fun n h => ?_, fun n => ?_⟩
  · refine ⟨chLen + (10 * n + 1), by omega, ?_⟩
    show OfChild _ (rpAct (lpAct _))
    rw [lpAct_late n 1 (by omega)]
    rfl
  · obtain ⟨m, hm, ha⟩ := lpFair.ticks n
    exact ⟨m, hm, by show rpAct (lpExec.act m) = _; rw [ha]; rfl⟩

theorem rp_read : ErrorsRead rpExec := by
  refine ⟨fun n h => ?_, fun k h => ?_, fun n h => absurd rfl (h n (Nat.le_refl n))⟩
  · exfalso
    have := h n (Nat.le_refl n)
    unfold rsStep at this
    split at this
    · simp at this
    · have hs : sStep "context canceled".toList (rpExec.state n).fwd .send = none := rfl
      simp only [SAct.own, if_true, hs] at this
      simp at this
  · exfalso
    obtain ⟨m, _, _, c, hc, he⟩ := h 0
    cases k with
    | policyd =>
      have : (rpExec.state m).fwd.child .policyd = some (lpExec.state m).loop := rsFwd_child
      rw [this, Option.some.injEq] at hc
      rw [← hc] at he
      exact he (lpQuiet m)
    | _ => rw [rs_off rpExec rfl] at hc; simp at hc

theorem rp_uncancelled : Uncancelled rpExec := by
  intro n h
  change rpAct (lpExec.act n) = _ at h
  cases ha : lpExec.act n <;> rw [ha] at h <;> simp [rpAct] at h

end Ex

/-- The hypotheses of `C79_again`, `C79_serial`, `C79_keys` and `C79_role` are met by an execution in which the goroutine of `Start` replaces the
keys that `Init` loaded, while ZMS cannot be reached and each `Update` fails. -/
example : Ex.rkOn .pubkeyd = true ∧ Ex.rkCfg.auth.disablePolicyd = false ∧ 0 < Ex.rkCfg.auth.cacheExp ∧
    ∃ x : RsExec Ex.rkCfg Ex.rkCe 0 Ex.rkOn, ChildFair x .pubkeyd ∧ ErrorsRead x ∧ Uncancelled x ∧ SysFair x.sys ∧ KeyFair x.sys ∧ InitFirst x 11 ∧
    ServesKeys (pkExecOf x.sys) 11 .zts "tb".toList Ex.rtKeys ∧ Versioned (pkExecOf x.sys) .zts "tb".toList Ex.rtKeys ∧
    (∀ n, 11 ≤ n → ∀ j r o, (pkExecOf x.sys).act n = .answer j r o → jobEnv j = .zts → ∃ st tag b, r = .answer st tag b ∧ (st = 200 ∨ st = 304)) ∧
    ¬ InUse (x.state 11).sys.pk .zts Ex.rtKeys := ⟨rfl, rfl, by decide, Ex.rk_exec⟩

/-- The hypotheses of `C79_jwk` and `C79_access` are met by an execution in which the goroutine of `Start` replaces the set that `Init` loaded. -/
example : Ex.rwOn .jwkd = true ∧ Ex.rwCfg.auth.disablePolicyd = false ∧ 0 < Ex.rwCfg.auth.cacheExp ∧ ConfiguredURL Ex.rwCfg.jwk "athenz".toList ∧
    ∃ x : RsExec Ex.rwCfg Ex.rkCe 0 Ex.rwOn, ChildFair x .jwkd ∧ Uncancelled x ∧ SysFair x.sys ∧ KeyFair x.sys ∧
    (∀ url, ServesSet (jwkExecOf x.sys) 3 url Ex.jkB) ∧
    (∀ url n, 3 ≤ n → ∀ j out, (jwkExecOf x.sys).act n = some (.fetch j out) → WorksOn (x.state n).sys.jwk j url → out.isSome) ∧
    getKey Ex.rjCfg (x.state 3).sys.jwk "k".toList [] = some ⟨.rsaPublic, "S".toList⟩ := ⟨rfl, rfl, by decide, .inl rfl, Ex.rw_exec⟩

/-- The hypotheses of `C79_policies` are met by an execution in which the goroutine of `Start` brings new policies into force. -/
example : Ex.rpOn .policyd = true ∧ Ex.chCfg.auth.disablePolicyd = false ∧ 0 ≤ Ex.chCfg.fetch.retryAttempts ∧ ChildFair Ex.rpExec .policyd ∧
    ErrorsRead Ex.rpExec ∧ Uncancelled Ex.rpExec ∧ UpdFair Ex.rpExec.sys ∧ Foretold Ex.rpExec.sys ∧ NewPolicies Ex.rpExec.sys Ex.chLen [Ex.chDoc] ∧
    Ex.rpExec.act (Ex.chLen + 1) = .call .policyd false [some Ex.chDoc] := by
  rw [Ex.rp_sys]
  exact ⟨rfl, rfl, by decide, Ex.rp_fair, Ex.rp_read, Ex.rp_uncancelled, Ex.lpUpdFair, Ex.lpFore, Ex.lpNew, rfl⟩

end Athenz
