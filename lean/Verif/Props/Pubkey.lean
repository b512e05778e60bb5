import Verif.Proofs.Pubkeyd
import Verif.Props.Examples

/-! # C31–C34: public keys (and the public key part of C19) -/

namespace Athenz
open Spec

/-! ## A concrete setting -/

namespace Ex

/-- Key lists by name; every key text except "bad" is usable and accepts only itself as signature. -/
def pkCfg : PkCfg :=
  { decode := fun b =>
      if b = "null".toList then some none
      else if b = "A".toList then some (some [some ("0".toList, "a0".toList), some ("1".toList, "x".toList), some ("1".toList, "a1".toList)])
      else if b = "B".toList then some (some [some ("1".toList, "b1".toList), some ("2".toList, "b2".toList)])
      else if b = "BAD".toList then some (some [some ("2".toList, "bad".toList)])
      else if b = "HOLE".toList then some (some [some ("2".toList, "b2".toList), none])
      else none
    newVerifier := fun k => if k = "bad".toList then none else some fun _ sig => sig == k
    eTagExpiry := 1000 }

/-- The key under an id, recognised by the signature it accepts. -/
def keyIs (v : Option SigVerifier) (k : String) : Bool := match v with
  | some f => f [] k.toList
  | none => false

def jobPc (s : PkState) (j : Nat) : Option PkPc := (s.jobs[j]?).map (·.pc)

def isDone : Option PkPc → Bool
  | some (.done none) => true
  | _ => false

theorem done_of {s : PkState} {j : Nat} (h : isDone (jobPc s j) = true) : ∃ e, s.jobs[j]? = some ⟨e, .done none⟩ := by
  cases hj : s.jobs[j]? with
  | none => simp [jobPc, hj, isDone] at h
  | some b =>
    obtain ⟨e, pc⟩ := b
    refine ⟨e, ?_⟩
    cases pc with
    | done r => cases r with
      | none => rfl
      | some r => simp [jobPc, hj, isDone] at h
    | _ => simp [jobPc, hj, isDone] at h

/-- The first update loads list `A` for ZTS. -/
def loadA : List PkAct := [.update, .send 0, .answer 0 (.answer 200 "ta".toList "A".toList) ["1".toList, "0".toList], .step 0 [], .step 0 [],
  .step 0 ["0".toList, "1".toList], .step 0 [], .step 0 [], .step 0 []]

/-- The second update replaces it by list `B`. -/
def loadB : List PkAct := [.update, .send 2, .answer 2 (.answer 200 "tb".toList "B".toList) ["1".toList, "2".toList], .step 2 [], .step 2 [],
  .step 2 ["0".toList, "1".toList, "2".toList], .step 2 [], .step 2 [], .step 2 [], .step 2 []]

end Ex

/-! ## C31 refreshes are all-or-nothing -/

/-- **C31**, success.  A job that was answered `200` and finished without error, and that was the only one of its service applying a
refresh since that answer, leaves exactly the downloaded keys: the body was usable as a whole and every lookup gives what it publishes. -/
theorem C31_success_partial (cfg : PkCfg) (now : Int) (pre post : List PkAct) (j : Nat) (x b : Str) (o : List Str) (s : PkState)
    (hr : pkRun cfg (pkInit now) (pre ++ .answer j (.answer 200 x b) o :: post) = some s) (halone : Alone j post)
    (hdone : ∃ e, s.jobs[j]? = some ⟨e, .done none⟩) :
    ∃ es, cfg.decode b = some (some es) ∧ Complete cfg es ∧ ∀ id, (s.keysOf (jobEnv j)).load id = published cfg es id := by
  rw [pkRun_append] at hr
  cases h1 : pkRun cfg (pkInit now) pre with
  | none => rw [h1] at hr; simp at hr
  | some s1 =>
    rw [h1] at hr
    simp only [Option.bind_some, pkRun] at hr
    cases h2 : pkStep cfg s1 (.answer j (.answer 200 x b) o) with
    | none => rw [h2] at hr; simp at hr
    | some s2 =>
      rw [h2] at hr
      have hpre : pkRun cfg (pkInit now) (pre ++ [.answer j (.answer 200 x b) o]) = some s2 := by rw [pkRun_append, h1]; simp [pkRun, h2]
      have hfin : ∀ e r, s2.jobs[j]? = some ⟨e, .done r⟩ → s.jobs[j]? = some ⟨e, .done r⟩ := fun e r hj => done_run hr hj
      obtain ⟨e0, hdone⟩ := hdone
      cases pkStep_effect h2 with
      | refused _ _ _ e t err hj h304 h200 =>
        have := hfin e (some err) (by simp only; rw [List.getElem?_set_self (List.getElem?_eq_some_iff.mp hj).1])
        rw [this] at hdone; simp at hdone
      | crashNull _ _ _ _ e t hj hb =>
        cases post with
        | nil =>
          simp only [pkRun, Option.some.injEq] at hr; subst hr
          simp only at hdone
          rw [hj] at hdone; simp at hdone
        | cons a post => simp [pkRun, pkStep] at hr
      | badKeys _ _ _ _ e t es err hj hb hk =>
        have := hfin e (some err) (by simp only; rw [List.getElem?_set_self (List.getElem?_eq_some_iff.mp hj).1])
        rw [this] at hdone; simp at hdone
      | accept _ _ _ _ e t es cm hj hb hk ho =>
        obtain ⟨hc, hl⟩ := buildKeys_ok hk
        have hej : jobEnv j = e := ((jobs_env h1).2 _ _ hj).symm
        have hinv := applyInv_run (e := e) (j := j) (cm := cm) hpre hej ?_ hr halone
        · refine ⟨es, hb, hc, fun id => ?_⟩
          rw [hej]
          rcases hinv with ⟨todo, h, _⟩ | ⟨todo, h, _⟩ | ⟨_, h⟩
          · rw [h] at hdone; simp at hdone
          · rw [h] at hdone; simp at hdone
          · rw [h id]; exact hl id
        · refine .inl ⟨o, by simp only; rw [List.getElem?_set_self (List.getElem?_eq_some_iff.mp hj).1], fun id h1 h2 => ?_⟩
          exact absurd (ho.mem_iff.mpr (SMap.mem_keys.mpr h1)) h2

/-- The two loads of the example meet the hypotheses; key 0 is withdrawn and the last entry counts. -/
example : ∃ s, pkRun Ex.pkCfg (pkInit 10) (Ex.loadA ++ Ex.loadB) = some s ∧ (Ex.isDone (Ex.jobPc s 0) && Ex.isDone (Ex.jobPc s 2) &&
    (s.zts.load "0".toList).isNone && Ex.keyIs (s.zts.load "1".toList) "b1" && Ex.keyIs (s.zts.load "2".toList) "b2") = true :=
  Ex.exists_of_map (by decide +kernel)
example : ∃ s, pkRun Ex.pkCfg (pkInit 10) Ex.loadA = some s ∧
    (Ex.isDone (Ex.jobPc s 0) && Ex.keyIs (s.zts.load "0".toList) "a0" && Ex.keyIs (s.zts.load "1".toList) "a1") = true :=
  Ex.exists_of_map (by decide +kernel)
example : Alone 0 (Ex.loadA.drop 3) := by
  intro i o hm _
  simp only [Ex.loadA, List.drop, List.mem_cons, PkAct.step.injEq, List.mem_nil_iff, or_false] at hm
  omega

/-- **C31**, failure.  A job that failed, after any history and with any other jobs around it, never changed a key. -/
theorem C31_failure (cfg : PkCfg) (now : Int) (h : List PkAct) (s : PkState) (hr : pkRun cfg (pkInit now) h = some s) (j : Nat) (e : Env) (err : Err)
    (hfail : s.jobs[j]? = some ⟨e, .done (some err)⟩) (pre post : List PkAct) (a : PkAct) (hsplit : h = pre ++ a :: post) (ha : jobOf a = some j)
    (s1 s2 : PkState) (_h1 : pkRun cfg (pkInit now) pre = some s1) (h2 : pkStep cfg s1 a = some s2) (e' : Env) : s2.keysOf e' = s1.keysOf e' := by
  refine keys_unchanged h2 ?_ e'
  rintro i o rfl
  simp only [jobOf, Option.some.injEq] at ha; subst ha
  obtain ⟨b, hb, _, _, h3⟩ := (stepInv_run hr).stepped i o (by rw [hsplit]; simp)
  rw [hfail] at hb; simp only [Option.some.injEq] at hb; subst hb
  exact h3 err rfl

/-- What `buildKeys` makes of a list, from any start: the first obstacle decides. -/
theorem buildKeys_obstacle (cfg : PkCfg) (es : List (Option PubKeyEntry)) (cm : SMap SigVerifier) (e : Err) :
    buildKeys cfg.newVerifier cm es = .err e ↔ BadKey cfg es ∧ e = .other "error decoding key" := by
  induction es generalizing cm with
  | nil =>
    simp only [buildKeys, reduceCtorEq, false_iff, not_and]
    rintro ⟨pre, id, key, post, h, _⟩
    simp at h
  | cons p es ih =>
    cases p with
    | none =>
      simp only [buildKeys, reduceCtorEq, false_iff, not_and]
      rintro ⟨pre, id, key, post, h, hc, _⟩
      cases pre with
      | nil => simp at h
      | cons q pre =>
        simp only [List.cons_append, List.cons.injEq] at h
        obtain ⟨q', hq, _⟩ := hc q List.mem_cons_self
        rw [← h.1] at hq
        simp at hq
    | some p =>
      obtain ⟨id, key⟩ := p
      simp only [buildKeys]
      cases hv : cfg.newVerifier key with
      | none =>
        simp only [Res.err.injEq]
        constructor
        · rintro rfl
          exact ⟨⟨[], id, key, es, rfl, fun _ h => by simp at h, hv⟩, rfl⟩
        · exact fun h => h.2.symm
      | some v =>
        dsimp only
        rw [ih]
        refine and_congr_left fun _ => ⟨?_, ?_⟩
        · rintro ⟨pre, id', key', post, rfl, hc, hk⟩
          refine ⟨some (id, key) :: pre, id', key', post, rfl, ?_, hk⟩
          intro q hq
          rcases List.mem_cons.mp hq with rfl | hq
          · exact ⟨_, rfl, by simp [hv]⟩
          · exact hc q hq
        · rintro ⟨pre, id', key', post, h, hc, hk⟩
          cases pre with
          | nil =>
            simp only [List.nil_append, List.cons.injEq, Option.some.injEq, Prod.mk.injEq] at h
            obtain ⟨⟨rfl, rfl⟩, _⟩ := h
            rw [hv] at hk
            simp at hk
          | cons q pre =>
            simp only [List.cons_append, List.cons.injEq] at h
            exact ⟨pre, id', key', post, h.2, fun q hq => hc q (List.mem_cons_of_mem _ hq), hk⟩

/-- **C31**, which error.  When a key server answers, the refresh of its keys ends with an error exactly for the answers listed in `PkFails`,
and with that error. -/
theorem C31_error (cfg : PkCfg) (now : Int) (h : List PkAct) (s s' : PkState) (_hr : pkRun cfg (pkInit now) h = some s) (j : Nat) (r : HttpResult)
    (o : List Str) (hs : pkStep cfg s (.answer j r o) = some s') (err : Err) : (∃ e, s'.jobs[j]? = some ⟨e, .done (some err)⟩) ↔ PkFails cfg r err := by
  have hnc := pkStep_crashed hs
  unfold pkStep at hs
  rw [hnc] at hs
  simp only [Bool.false_eq_true, if_false] at hs
  split at hs
  next e t hj =>
    have hlt := (List.getElem?_eq_some_iff.mp hj).1
    have hset : ∀ pc err, (∃ e', (s.jobs.set j ⟨e, pc⟩)[j]? = some (⟨e', .done (some err)⟩ : PkJob)) ↔ pc = .done (some err) := by
      intro pc err
      rw [List.getElem?_set_self hlt]
      simp
    have hsame : ¬ ∃ e', s.jobs[j]? = some (⟨e', .done (some err)⟩ : PkJob) := by rw [hj]; simp
    cases r with
    | fail e' =>
      simp only [Option.some.injEq] at hs
      subst hs
      rw [hset]
      simp only [PkPc.done.injEq, Option.some.injEq]
      constructor
      · rintro rfl; exact .transport _
      · rintro ⟨⟩; rfl
    | answer n x b =>
      dsimp only at hs
      split at hs
      · rename_i h304
        subst h304
        have hno : ¬ PkFails cfg (.answer 304 x b) err := by
          rintro (_ | ⟨_, _, _, _, h⟩)
          exact h rfl
        cases t with
        | none => cases hs; exact iff_of_false hsame hno
        | some t =>
          cases hs
          refine iff_of_false ?_ hno
          rw [hset]
          simp
      · rename_i h304
        split at hs
        · rename_i h200
          cases hs
          rw [hset]
          simp only [PkPc.done.injEq, Option.some.injEq]
          constructor
          · rintro rfl; exact .status n x b h200 h304
          · intro hp
            cases hp
            · rfl
            all_goals exact absurd rfl h200
        · rename_i h200
          have h200 := Classical.not_not.mp h200
          subst h200
          cases hd : cfg.decode b with
          | none =>
            rw [hd] at hs
            cases hs
            rw [hset]
            simp only [PkPc.done.injEq, Option.some.injEq]
            constructor
            · rintro rfl; exact .json x b hd
            · intro hp
              cases hp with
              | status _ _ _ h => exact absurd rfl h
              | json => rfl
              | key _ _ es h => rw [hd] at h; simp at h
          | some sac =>
            rw [hd] at hs
            dsimp only at hs
            have hno : (∀ es, sac = some es → ¬ BadKey cfg es) → ¬ PkFails cfg (.answer 200 x b) err := by
              intro hb hp
              cases hp with
              | status _ _ _ h => exact absurd rfl h
              | json _ _ h => rw [hd] at h; simp at h
              | key _ _ es h hk =>
                rw [hd] at h
                simp only [Option.some.injEq] at h
                exact hb es h hk
            have hjobs : ∀ q : PkState, q.jobs = s.jobs → (if x = [] then s else q).jobs = s.jobs := by
              intro q hq; split
              · rfl
              · exact hq
            cases sac with
            | none =>
              cases hs
              refine iff_of_false ?_ (hno fun _ h => by simp at h)
              dsimp only
              rw [hjobs]
              · exact hsame
              · rfl
            | some es =>
              dsimp only at hs
              cases hk : buildKeys cfg.newVerifier [] es with
              | panic =>
                rw [hk] at hs
                cases hs
                refine iff_of_false ?_ (hno fun es' h hb => ?_)
                · dsimp only
                  rw [hjobs]
                  · exact hsame
                  · rfl
                · cases h
                  rw [(buildKeys_obstacle cfg es [] _).mpr ⟨hb, rfl⟩] at hk
                  simp at hk
              | err e' =>
                rw [hk] at hs
                cases hs
                obtain ⟨hb, rfl⟩ := (buildKeys_obstacle cfg es [] e').mp hk
                rw [hset]
                simp only [PkPc.done.injEq, Option.some.injEq]
                constructor
                · rintro rfl; exact .key x b es hd hb
                · intro hp
                  cases hp with
                  | status _ _ _ h => exact absurd rfl h
                  | json _ _ h => rw [hd] at h; simp at h
                  | key => rfl
              | ok cm =>
                rw [hk] at hs
                dsimp only at hs
                split at hs
                · cases hs
                  refine iff_of_false ?_ (hno fun es' h hb => ?_)
                  · rw [hset]; simp
                  · cases h
                    rw [(buildKeys_obstacle cfg es [] _).mpr ⟨hb, rfl⟩] at hk
                    simp at hk
                · simp at hs
  next => simp at hs

/-- A list with a key that cannot be decoded, and one that is no JSON. -/
example : PkFails Ex.pkCfg (.answer 200 [] "BAD".toList) (.other "error decoding key") ∧
    PkFails Ex.pkCfg (.answer 503 [] []) .fetchAthenzPubkey ∧
    ∃ s, pkRun Ex.pkCfg (pkInit 10) [.update, .send 0, .answer 0 (.answer 200 [] "BAD".toList) []] = some s := by
  refine ⟨?_, .status _ _ _ (by decide) (by decide), ?_⟩
  · obtain ⟨es, h1, h2⟩ : ∃ es, Ex.pkCfg.decode "BAD".toList = some (some es) ∧ buildKeys Ex.pkCfg.newVerifier [] es = .err (.other "error decoding key") :=
      ⟨_, rfl, rfl⟩
    exact .key _ _ es h1 ((buildKeys_obstacle _ _ _ _).mp h2).1
  · obtain ⟨s, h, _⟩ := Ex.exists_of_map (o := pkRun Ex.pkCfg (pkInit 10) [.update, .send 0, .answer 0 (.answer 200 [] "BAD".toList) []])
      (p := fun _ => true) (by decide +kernel)
    exact ⟨s, h⟩

/-- **C31**, not modified.  A job that was answered `304` never changed a key. -/
theorem C31_not_modified (cfg : PkCfg) (now : Int) (h : List PkAct) (s : PkState) (hr : pkRun cfg (pkInit now) h = some s) (j : Nat)
    (x b : Str) (o : List Str) (hans : PkAct.answer j (.answer 304 x b) o ∈ h) (pre post : List PkAct) (a : PkAct) (hsplit : h = pre ++ a :: post)
    (ha : jobOf a = some j) (s1 s2 : PkState) (_h1 : pkRun cfg (pkInit now) pre = some s1) (h2 : pkStep cfg s1 a = some s2) (e' : Env) :
    s2.keysOf e' = s1.keysOf e' := by
  refine keys_unchanged h2 ?_ e'
  rintro i o' rfl
  simp only [jobOf, Option.some.injEq] at ha; subst ha
  exact (stepInv_run hr).apart i x b o hans o' (by rw [hsplit]; simp)

/-- After list `A`, a failing update, an unusable list and a not-modified answer leave the keys alone. -/
example : ∃ s, pkRun Ex.pkCfg (pkInit 10) (Ex.loadA ++ [.update, .send 2, .answer 2 (.answer 304 [] []) [], .update, .send 4, .answer 4 (.answer 500 [] []) [],
      .update, .send 6, .answer 6 (.answer 200 "tx".toList "BAD".toList) []]) = some s ∧
    (Ex.isDone (Ex.jobPc s 2) && (Ex.jobPc s 4).isSome && !Ex.isDone (Ex.jobPc s 4) && !Ex.isDone (Ex.jobPc s 6) &&
     Ex.keyIs (s.zts.load "0".toList) "a0" && Ex.keyIs (s.zts.load "1".toList) "a1") = true :=
  Ex.exists_of_map (by decide +kernel)

/-- **C31**, independence.  An action of a job of one service never changes the keys of the other. -/
theorem C31_independent (cfg : PkCfg) (now : Int) (h : List PkAct) (s s' : PkState) (hr : pkRun cfg (pkInit now) h = some s) (a : PkAct) (j : Nat)
    (ha : jobOf a = some j) (hs : pkStep cfg s a = some s') (e : Env) (he : e ≠ jobEnv j) : s'.keysOf e = s.keysOf e := by
  cases a with
  | step i o =>
    simp only [jobOf, Option.some.injEq] at ha; subst ha
    refine keys_other hs e fun b hb => ?_
    rw [(jobs_env hr).2 _ _ hb]; exact fun h => he h.symm
  | _ => exact keys_unchanged hs (by simp) e

/-- The full statement of the success part: it does not ask that no other job of the service interferes. -/
def C31_statement : Prop :=
  ∀ (cfg : PkCfg) (now : Int) (pre post : List PkAct) (j : Nat) (x b : Str) (o o' : List Str) (s s' : PkState),
    pkRun cfg (pkInit now) (pre ++ .answer j (.answer 200 x b) o :: post) = some s → pkStep cfg s (.step j o') = some s' →
    (∃ e, s'.jobs[j]? = some ⟨e, .done none⟩) →
    ∃ es, cfg.decode b = some (some es) ∧ ∀ id, (s'.keysOf (jobEnv j)).load id = published cfg es id

namespace Ex

/-- Two updates of ZTS at the same time: both store, then each deletes what the other stored. -/
def crossed : List PkAct := [.update, .update, .send 0, .send 2, .answer 0 (.answer 200 [] "A".toList) ["1".toList, "0".toList],
  .answer 2 (.answer 200 [] "B".toList) ["1".toList, "2".toList], .step 0 [], .step 0 [], .step 2 [], .step 2 [],
  .step 0 ["0".toList, "1".toList, "2".toList], .step 0 [], .step 0 [], .step 0 [],
  .step 2 ["0".toList, "1".toList, "2".toList], .step 2 [], .step 2 [], .step 2 [], .step 2 []]

end Ex

/-- Two overlapping successful updates can leave a key set that neither of them downloaded. -/
theorem C31_refuted : ¬ C31_statement := by
  intro hst
  have hsplit : Ex.crossed ++ [.step 0 []] = (Ex.crossed.take 4 ++ .answer 0 (.answer 200 [] "A".toList) ["1".toList, "0".toList] :: Ex.crossed.drop 5) ++ [.step 0 []] := rfl
  obtain ⟨s', hr, hp⟩ := Ex.exists_of_map (o := pkRun Ex.pkCfg (pkInit 10) (Ex.crossed ++ [.step 0 []]))
    (p := fun s => Ex.isDone (Ex.jobPc s 0) && Ex.isDone (Ex.jobPc s 2) && (s.zts.load "0".toList).isNone && (s.zts.load "2".toList).isNone) (by decide +kernel)
  rw [hsplit] at hr
  obtain ⟨s, h1, h2⟩ := pkRun_snoc hr
  simp only [Bool.and_eq_true] at hp
  obtain ⟨⟨⟨hp1, _⟩, hp2⟩, _⟩ := hp
  have hd : ∃ e, s'.jobs[0]? = some ⟨e, .done none⟩ := Ex.done_of hp1
  obtain ⟨es, h3, h4⟩ := hst Ex.pkCfg 10 _ _ 0 _ _ _ _ s s' h1 h2 hd
  have hes : es = [some ("0".toList, "a0".toList), some ("1".toList, "x".toList), some ("1".toList, "a1".toList)] := by
    have : Ex.pkCfg.decode "A".toList = some (some [some ("0".toList, "a0".toList), some ("1".toList, "x".toList), some ("1".toList, "a1".toList)]) := by decide +kernel
    rw [this] at h3; simpa using h3.symm
  have h5 := h4 "0".toList
  subst hes
  have h6 : (s'.keysOf (jobEnv 0)).load "0".toList = none := by
    have : (s'.zts.load "0".toList) = none := by simpa using hp2
    exact this
  rw [h6] at h5
  have h7 : (published Ex.pkCfg [some ("0".toList, "a0".toList), some ("1".toList, "x".toList), some ("1".toList, "a1".toList)] "0".toList).isSome = true := by
    decide +kernel
  rw [← h5] at h7; simp at h7

/-! ## C32 lookups during refreshes -/

/-- **C32**.  Starting from a moment at which no refresh of the service is being applied, and whatever any number of jobs do from then on in
whatever interleaving, a lookup gives the key as it was or as one of the lists served meanwhile publishes it.  An id known before and in all
these lists always resolves, an id in none of them never does. -/
theorem C32_lookup (cfg : PkCfg) (now : Int) (h0 h : List PkAct) (s0 s : PkState) (e : Env) (h0r : pkRun cfg (pkInit now) h0 = some s0)
    (hq : KeysQuiet e s0) (hr : pkRun cfg s0 h = some s) (id : Str) :
    ((s.keysOf e).load id = (s0.keysOf e).load id ∨ ∃ es, Served cfg h e es ∧ (s.keysOf e).load id = published cfg es id) ∧
    (((s0.keysOf e).load id).isSome → (∀ es, Served cfg h e es → (published cfg es id).isSome) → ((s.keysOf e).load id).isSome) ∧
    ((s0.keysOf e).load id = none → (∀ es, Served cfg h e es → published cfg es id = none) → (s.keysOf e).load id = none) := by
  have hinv := lookInv_run h0r hq hr
  refine ⟨hinv.value id, hinv.present id, fun h1 h2 => ?_⟩
  rcases hinv.value id with h | ⟨es, h3, h4⟩
  · rw [h, h1]
  · rw [h4, h2 es h3]

/-- **C32** for a single refresh: while one list is being applied a lookup gives the old or the new key. -/
theorem C32_single (cfg : PkCfg) (now : Int) (h0 h : List PkAct) (s0 s : PkState) (e : Env) (es : List (Option PubKeyEntry))
    (h0r : pkRun cfg (pkInit now) h0 = some s0) (hq : KeysQuiet e s0) (hr : pkRun cfg s0 h = some s)
    (hone : ∀ es', Served cfg h e es' → es' = es) (id : Str) :
    ((s.keysOf e).load id = (s0.keysOf e).load id ∨ (s.keysOf e).load id = published cfg es id) ∧
    (((s0.keysOf e).load id).isSome → (published cfg es id).isSome → ((s.keysOf e).load id).isSome) ∧
    ((s0.keysOf e).load id = none → published cfg es id = none → (s.keysOf e).load id = none) := by
  obtain ⟨h1, h2, h3⟩ := C32_lookup cfg now h0 h s0 s e h0r hq hr id
  refine ⟨?_, fun h4 h5 => h2 h4 (fun es' he => hone es' he ▸ h5), fun h4 h5 => h3 h4 (fun es' he => hone es' he ▸ h5)⟩
  rcases h1 with h1 | ⟨es', h4, h5⟩
  · exact .inl h1
  · rw [hone es' h4] at h5; exact .inr h5

/-- In the middle of replacing `A` by `B`: key 1 is new already, key 0 is still there; two steps later key 0 is gone. -/
example : (∃ s, pkRun Ex.pkCfg (pkInit 10) (Ex.loadA ++ Ex.loadB.take 5) = some s ∧
      (Ex.keyIs (s.zts.load "0".toList) "a0" && Ex.keyIs (s.zts.load "1".toList) "b1" && Ex.keyIs (s.zts.load "2".toList) "b2") = true) ∧
    ∃ s, pkRun Ex.pkCfg (pkInit 10) (Ex.loadA ++ Ex.loadB.take 7) = some s ∧
      ((s.zts.load "0".toList).isNone && Ex.keyIs (s.zts.load "1".toList) "b1" && !Ex.isDone (Ex.jobPc s 2)) = true :=
  ⟨Ex.exists_of_map (by decide +kernel), Ex.exists_of_map (by decide +kernel)⟩
example : Served Ex.pkCfg Ex.loadB .zts [some ("1".toList, "b1".toList), some ("2".toList, "b2".toList)] :=
  ⟨2, "tb".toList, "B".toList, ["1".toList, "2".toList], by simp [Ex.loadB], rfl, by decide +kernel, by
    intro p hp
    simp only [List.mem_cons, List.mem_nil_iff, or_false] at hp
    rcases hp with rfl | rfl
    · exact ⟨_, rfl, by decide +kernel⟩
    · exact ⟨_, rfl, by decide +kernel⟩⟩

/-! ## C34 ZTS and ZMS are never confused -/

/-- **C34**.  After any history, a key found for the service "zts" was published by a list that ZTS served, and a key found for any
other service name by one that ZMS served. -/
theorem C34_no_confusion (cfg : PkCfg) (now : Int) (h : List PkAct) (s : PkState) (hr : pkRun cfg (pkInit now) h = some s)
    (env id : Str) (v : SigVerifier) (hv : s.getPubKey env id = some v) :
    (env = "zts".toList → ∃ es, Served cfg h .zts es ∧ published cfg es id = some v) ∧
    (env ≠ "zts".toList → ∃ es, Served cfg h .zms es ∧ published cfg es id = some v) := by
  have hq : ∀ e, KeysQuiet e (pkInit now) := fun e i cm todo => by simp [pkInit]
  have key : ∀ e, (s.keysOf e).load id = some v → ∃ es, Served cfg h e es ∧ published cfg es id = some v := by
    intro e hl
    rcases (lookInv_run (h0 := []) rfl (hq e) hr).value id with h1 | ⟨es, h1, h2⟩
    · rw [hl] at h1
      cases e <;> simp [pkInit, PkState.keysOf, SMap.load] at h1
    · exact ⟨es, h1, by rw [← h2]; exact hl⟩
  constructor
  · rintro rfl
    have : s.getPubKey "zts".toList id = s.zts.load id := if_pos rfl
    exact key .zts (by rw [← hv, this]; rfl)
  · intro hne
    have : s.getPubKey env id = s.zms.load id := if_neg hne
    exact key .zms (by rw [← hv, this]; rfl)

/-- ZTS has loaded `A` and ZMS `B`. -/
example : ∃ s, pkRun Ex.pkCfg (pkInit 10) (Ex.loadA ++ [.send 1, .answer 1 (.answer 200 [] "B".toList) ["2".toList, "1".toList], .step 1 [], .step 1 [],
      .step 1 ["1".toList, "2".toList], .step 1 [], .step 1 [], .step 1 []]) = some s ∧
    (Ex.keyIs (s.getPubKey "zts".toList "1".toList) "a1" && Ex.keyIs (s.getPubKey "zms".toList "1".toList) "b1" &&
     Ex.keyIs (s.getPubKey "other".toList "2".toList) "b2" && (s.getPubKey "zts".toList "2".toList).isNone) = true :=
  Ex.exists_of_map (by decide +kernel)

/-! ## C33 success means the served keys are in use -/

theorem honestRun_split {cfg : PkCfg} {content : Env → Str → Str} {s0 s : PkState} {pre post : List ((Env → Str) × PkAct)} {cur : Env → Str} {a : PkAct}
    (hr : HonestRun cfg content s0 (pre ++ (cur, a) :: post) s) :
    ∃ s1 s2, HonestRun cfg content s0 pre s1 ∧ pkStep cfg s1 a = some s2 ∧ pkRun cfg s2 (post.map (·.2)) = some s ∧
      ∀ j r o, a = .answer j r o → HonestAnswer (content (jobEnv j)) (cur (jobEnv j)) (requestTag s1 j) r := by
  generalize hh : pre ++ (cur, a) :: post = h at hr
  induction hr generalizing post with
  | nil => simp at hh
  | @snoc h s s' cur' a' hr hs hon ih =>
    rcases List.eq_nil_or_concat post with rfl | ⟨post', p, rfl⟩
    · obtain ⟨rfl, h2⟩ := List.append_inj' hh rfl
      simp only [List.cons.injEq, Prod.mk.injEq, and_true] at h2
      obtain ⟨rfl, rfl⟩ := h2
      exact ⟨s, s', hr, hs, rfl, hon⟩
    · rw [List.concat_eq_append, ← List.cons_append, ← List.append_assoc] at hh
      obtain ⟨h1, h2⟩ := List.append_inj' hh rfl
      simp only [List.cons.injEq, and_true] at h2
      subst h2
      obtain ⟨s1, s2, h3, h4, h5, h6⟩ := ih h1
      refine ⟨s1, s2, h3, h4, ?_, h6⟩
      rw [List.concat_eq_append, List.map_append, pkRun_append, h5]
      simp [pkRun, hs]

/-- The full statement, already for an honest server and one job of a service at a time: when a job finishes without error, the keys in use
are those of the version that was current when the server answered. -/
def C33_statement : Prop :=
  ∀ (cfg : PkCfg) (content : Env → Str → Str) (now : Int) (pre post : List ((Env → Str) × PkAct)) (cur : Env → Str) (j : Nat) (r : HttpResult)
    (o : List Str) (s : PkState),
    HonestRun cfg content (pkInit now) (pre ++ (cur, .answer j r o) :: post) s →
    Sequential cfg (pkInit now) ((pre ++ (cur, .answer j r o) :: post).map (·.2)) → Alone j (post.map (·.2)) →
    (∃ e, s.jobs[j]? = some ⟨e, .done none⟩) →
    ∃ es, cfg.decode (content (jobEnv j) (cur (jobEnv j))) = some (some es) ∧ ∀ id, (s.keysOf (jobEnv j)).load id = published cfg es id

/-- **C33**, as far as it holds: against an honest server, with one job per service at a time, if every `200` answer so far carried an ETag and
a key list usable as a whole.  Missing: answers without ETag and answers with a key that cannot be decoded, see `C33_refuted`. -/
theorem C33_partial (cfg : PkCfg) (content : Env → Str → Str) (now : Int) (pre post : List ((Env → Str) × PkAct)) (cur : Env → Str) (j : Nat)
    (r : HttpResult) (o : List Str) (s : PkState)
    (hr : HonestRun cfg content (pkInit now) (pre ++ (cur, .answer j r o) :: post) s)
    (hseq : Sequential cfg (pkInit now) ((pre ++ (cur, .answer j r o) :: post).map (·.2))) (halone : Alone j (post.map (·.2)))
    (hdone : ∃ e, s.jobs[j]? = some ⟨e, .done none⟩)
    (hgood : ∀ i x b o', PkAct.answer i (.answer 200 x b) o' ∈ (pre ++ (cur, .answer j r o) :: post).map (·.2) →
      x ≠ [] ∧ ∃ es, cfg.decode b = some (some es) ∧ Complete cfg es) :
    ∃ es, cfg.decode (content (jobEnv j) (cur (jobEnv j))) = some (some es) ∧ ∀ id, (s.keysOf (jobEnv j)).load id = published cfg es id := by
  obtain ⟨s1, s2, h1, h2, h3, h4⟩ := honestRun_split hr
  have hrun := honestRun_pkRun hr
  have hrun1 := honestRun_pkRun h1
  have hon := h4 j r o rfl
  simp only [List.map_append, List.map_cons] at hrun hseq hgood
  have hinv : SeqInv cfg content s1 := by
    refine seqInv_run h1 ?_ ?_
    · intro p i q t heq ht
      exact hseq p i (q ++ .answer j r o :: post.map (·.2)) t (by rw [heq]; simp) ht
    · intro i x b o' hm
      exact hgood i x b o' (List.mem_append_left _ hm)
  cases hr' : r with
  | fail err =>
    exfalso
    subst hr'
    obtain ⟨e0, hdone⟩ := hdone
    cases pkStep_effect h2 with
    | refused _ _ _ e t err' hj =>
      have hfin : s.jobs[j]? = some ⟨e, .done (some err')⟩ := by
        exact done_run h3 (by simp only; rw [List.getElem?_set_self (List.getElem?_eq_some_iff.mp hj).1])
      rw [hfin] at hdone; simp at hdone
  | answer status x b =>
    subst hr'
    by_cases h304 : status = 304
    · subst h304
      have htag := hon.1 rfl
      cases pkStep_effect h2 with
      | refused _ _ _ e t err' hj hn => exact absurd rfl (hn x b)
      | notModified _ _ _ _ e t hj =>
        have hej : jobEnv j = e := ((jobs_env hrun1).2 _ _ hj).symm
        simp only [requestTag, hj, Option.some.injEq] at htag
        obtain ⟨es, hd, hl⟩ := hinv.sent j e t hj
        refine ⟨es, by rw [hej, ← hej, ← htag, hej]; exact hd, fun id => ?_⟩
        have hpre : pkRun cfg (pkInit now) (pre.map (·.2) ++ [.answer j (.answer 304 x b) o]) = some { s1 with jobs := s1.jobs.set j ⟨e, .done none⟩ } := by
          rw [pkRun_append, hrun1]; simp [pkRun, h2]
        have hinv2 := applyInv_run (e := e) (j := j) (cm := s1.keysOf e) hpre hej
          (.inr (.inr ⟨by simp only; rw [List.getElem?_set_self (List.getElem?_eq_some_iff.mp hj).1], fun id => by simp⟩)) h3 halone
        obtain ⟨e0, hdone⟩ := hdone
        rw [hej]
        rcases hinv2 with ⟨todo, h, _⟩ | ⟨todo, h, _⟩ | ⟨_, h⟩
        · rw [h] at hdone; simp at hdone
        · rw [h] at hdone; simp at hdone
        · rw [h id]; exact hl id
      | crash304 _ _ _ _ e hj => simp [requestTag, hj] at htag
    · by_cases h200 : status = 200
      · subst h200
        obtain ⟨hb, _⟩ := hon.2 rfl
        obtain ⟨es, h5, _, h6⟩ := C31_success_partial cfg now (pre.map (·.2)) (post.map (·.2)) j x b o s hrun halone hdone
        exact ⟨es, by rw [← hb]; exact h5, h6⟩
      · exfalso
        obtain ⟨e0, hdone⟩ := hdone
        cases pkStep_effect h2 with
        | refused _ _ _ e t err' hj =>
          have hfin : s.jobs[j]? = some ⟨e, .done (some err')⟩ :=
            done_run h3 (by simp only; rw [List.getElem?_set_self (List.getElem?_eq_some_iff.mp hj).1])
          rw [hfin] at hdone; simp at hdone
        | notModified => exact h304 rfl
        | crash304 => exact h304 rfl
        | crashNull => exact h200 rfl
        | badKeys => exact h200 rfl
        | accept => exact h200 rfl

namespace Ex

/-- The versions of the key list of ZTS. -/
def content : Env → Str → Str := fun _ t =>
  if t = "ta".toList then "A".toList else if t = "tb".toList then "B".toList else if t = "tx".toList then "BAD".toList else "?".toList

/-- The history `h` while version `t` is current. -/
def during (t : String) (h : List PkAct) : List ((Env → Str) × PkAct) := h.map fun a => (fun _ => t.toList, a)

/-- `A` is loaded, then a version with an unusable key is served, then the same version is asked for again. -/
def badThenSame : List ((Env → Str) × PkAct) :=
  during "ta" loadA ++ during "tx" [.update, .send 2, .answer 2 (.answer 200 "tx".toList "BAD".toList) [], .update, .send 4]

/-- `A` is loaded with its ETag, `B` without one, then the server returns to version `A`. -/
def tagless : List ((Env → Str) × PkAct) :=
  during "ta" loadA ++ during "tb" [.update, .send 2, .answer 2 (.answer 200 [] "B".toList) ["1".toList, "2".toList], .step 2 [], .step 2 [],
    .step 2 ["0".toList, "1".toList, "2".toList], .step 2 [], .step 2 [], .step 2 [], .step 2 []] ++ during "ta" [.update, .send 4]

end Ex

/-- The ETag of an answer is remembered before its keys are decoded: after a list with an undecodable key (an error) the next update is
told "not modified", reports success, and the keys of an older version stay in use. -/
theorem C33_refuted : ¬ C33_statement := by
  intro hst
  obtain ⟨s, hr, hp⟩ := Ex.exists_of_map (o := honestCheck Ex.pkCfg Ex.content (pkInit 10) (Ex.badThenSame ++ Ex.during "tx" [.answer 4 (.answer 304 [] []) []]))
    (p := fun s => Ex.isDone (Ex.jobPc s 4) && (s.zts.load "0".toList).isSome) (by decide +kernel)
  simp only [Bool.and_eq_true] at hp
  have hrun := honestRun_of_check (HonestRun.nil) hr
  simp only [List.nil_append] at hrun
  obtain ⟨es, h1, h2⟩ := hst Ex.pkCfg Ex.content 10 Ex.badThenSame [] (fun _ => "tx".toList) 4 (.answer 304 [] []) [] s hrun
    (sequential_of_check (by decide +kernel)) (by intro i o hm; simp at hm) (Ex.done_of hp.1)
  have hes : es = [some ("2".toList, "bad".toList)] := by
    have : Ex.pkCfg.decode (Ex.content (jobEnv 4) "tx".toList) = some (some [some ("2".toList, "bad".toList)]) := by decide +kernel
    rw [this] at h1; simpa using h1.symm
  subst hes
  have h3 : (s.keysOf (jobEnv 4)).load "0".toList = s.zts.load "0".toList := rfl
  have h4 := h2 "0".toList
  rw [h3] at h4
  rw [h4] at hp
  exact absurd hp.2 (by decide +kernel)

/-- A second way in which the statement fails: an answer without ETag leaves the older ETag in place, and a later "not modified" about that
version keeps the wrong keys. -/
theorem C33_tagless_refuted : ¬ C33_statement := by
  intro hst
  obtain ⟨s, hr, hp⟩ := Ex.exists_of_map (o := honestCheck Ex.pkCfg Ex.content (pkInit 10) (Ex.tagless ++ Ex.during "ta" [.answer 4 (.answer 304 [] []) []]))
    (p := fun s => Ex.isDone (Ex.jobPc s 4) && (s.zts.load "0".toList).isNone) (by decide +kernel)
  simp only [Bool.and_eq_true] at hp
  have hrun := honestRun_of_check (HonestRun.nil) hr
  simp only [List.nil_append] at hrun
  obtain ⟨es, h1, h2⟩ := hst Ex.pkCfg Ex.content 10 Ex.tagless [] (fun _ => "ta".toList) 4 (.answer 304 [] []) [] s hrun
    (sequential_of_check (by decide +kernel)) (by intro i o hm; simp at hm) (Ex.done_of hp.1)
  have hes : es = [some ("0".toList, "a0".toList), some ("1".toList, "x".toList), some ("1".toList, "a1".toList)] := by
    have : Ex.pkCfg.decode (Ex.content (jobEnv 4) "ta".toList) = some (some [some ("0".toList, "a0".toList), some ("1".toList, "x".toList), some ("1".toList, "a1".toList)]) := by
      decide +kernel
    rw [this] at h1; simpa using h1.symm
  subst hes
  have h3 : (s.keysOf (jobEnv 4)).load "0".toList = s.zts.load "0".toList := rfl
  have h4 := h2 "0".toList
  rw [h3] at h4
  rw [h4] at hp
  exact absurd hp.2 (by decide +kernel)

/-- The hypotheses of `C33_partial` are met by: load `A`, not modified, load `B`. -/
example : (∃ s, honestCheck Ex.pkCfg Ex.content (pkInit 10) (Ex.during "ta" (Ex.loadA ++ [.update, .send 2, .answer 2 (.answer 304 [] []) []])) = some s ∧
      (Ex.isDone (Ex.jobPc s 2) && Ex.keyIs (s.zts.load "1".toList) "a1") = true) ∧
    seqCheck Ex.pkCfg (pkInit 10) (Ex.loadA ++ [.update, .send 2, .answer 2 (.answer 304 [] []) []]) = true ∧
    (∃ s, honestCheck Ex.pkCfg Ex.content (pkInit 10) (Ex.during "ta" Ex.loadA ++ Ex.during "tb" Ex.loadB) = some s ∧
      (Ex.isDone (Ex.jobPc s 2) && Ex.keyIs (s.zts.load "1".toList) "b1") = true) ∧
    seqCheck Ex.pkCfg (pkInit 10) (Ex.loadA ++ Ex.loadB) = true :=
  ⟨Ex.exists_of_map (by decide +kernel), by decide +kernel, Ex.exists_of_map (by decide +kernel), by decide +kernel⟩

/-! ## C19, public key part -/

/-- **C19**, public keys, as far as it holds: exactly which answers crash the process.  It is a `304` to a request without `If-None-Match`
(the ETag of the service was not known or had expired), a body `null`, or a list with a `null` entry all of whose predecessors decode. -/
theorem C19_pubkey_partial (cfg : PkCfg) (now : Int) (h : List PkAct) (s s' : PkState) (_hr : pkRun cfg (pkInit now) h = some s) (a : PkAct)
    (hs : pkStep cfg s a = some s') :
    s'.crashed = true ↔ ∃ j x b o e, (a = .answer j (.answer 304 x b) o ∧ s.jobs[j]? = some ⟨e, .sent none⟩) ∨
      (a = .answer j (.answer 200 x b) o ∧ (cfg.decode b = some none ∨ ∃ es, cfg.decode b = some (some es) ∧ NullEntry cfg es)) := by
  have hnc := pkStep_crashed hs
  constructor
  · intro hc
    cases pkStep_effect hs with
    | crash304 j x b o e hj => exact ⟨j, x, b, o, e, .inl ⟨rfl, hj⟩⟩
    | crashNull j x b o e t hj hb =>
      refine ⟨j, x, b, o, e, .inr ⟨rfl, ?_⟩⟩
      rcases hb with hb | ⟨es, h1, h2⟩
      · exact .inl hb
      · exact .inr ⟨es, h1, buildKeys_panic h2⟩
    | store => simp [setKeys_crashed, hnc] at hc
    | delete => simp [setKeys_crashed, hnc] at hc
    | _ => simp [hnc] at hc
  · rintro ⟨j, x, b, o, e, ⟨rfl, hj⟩ | ⟨rfl, hb⟩⟩
    · cases pkStep_effect hs with
      | refused _ _ _ _ _ _ _ hn => exact absurd rfl (hn x b)
      | notModified _ _ _ _ _ _ hj' => rw [hj] at hj'; simp at hj'
      | crash304 => rfl
    · cases pkStep_effect hs with
      | refused _ _ _ _ _ _ _ _ hn =>
        have := hn x b rfl
        rcases hb with hb | ⟨es, h1, _⟩
        · rw [this] at hb; simp at hb
        · rw [this] at h1; simp at h1
      | crashNull => rfl
      | badKeys _ _ _ _ _ _ es err hj hd hk =>
        rcases hb with hb | ⟨es', h1, h2⟩
        · rw [hb] at hd; simp at hd
        · rw [hd] at h1; simp only [Option.some.injEq] at h1; subst h1
          exact absurd h2 (buildKeys_err hk).2
      | accept _ _ _ _ _ _ es cm hj hd hk =>
        rcases hb with hb | ⟨es', h1, pre, post, h2, _⟩
        · rw [hb] at hd; simp at hd
        · rw [hd] at h1; simp only [Option.some.injEq] at h1; subst h1
          obtain ⟨q, hq, _⟩ := (buildKeys_ok hk).1 none (by rw [h2]; simp)
          cases hq

/-- The full statement for public keys. -/
def C19_pubkey_statement : Prop :=
  ∀ (cfg : PkCfg) (now : Int) (h : List PkAct) (s : PkState), pkRun cfg (pkInit now) h = some s → s.crashed = false

/-- A fresh daemon that is answered "not modified" dies. -/
theorem C19_pubkey_refuted : ¬ C19_pubkey_statement := by
  intro hst
  obtain ⟨s, hr, hp⟩ := Ex.exists_of_map (o := pkRun Ex.pkCfg (pkInit 10) [.update, .send 0, .answer 0 (.answer 304 [] []) []])
    (p := fun s => s.crashed) (by decide +kernel)
  rw [hst _ _ _ _ hr] at hp; simp at hp

/-- So does one that is answered `null`, or a list with a `null` entry. -/
theorem C19_pubkey_null_refuted :
    (∃ s, pkRun Ex.pkCfg (pkInit 10) [.update, .send 0, .answer 0 (.answer 200 [] "null".toList) []] = some s ∧ s.crashed = true) ∧
    (∃ s, pkRun Ex.pkCfg (pkInit 10) [.update, .send 0, .answer 0 (.answer 200 [] "HOLE".toList) []] = some s ∧ s.crashed = true) :=
  ⟨Ex.exists_of_map (by decide +kernel), Ex.exists_of_map (by decide +kernel)⟩

end Athenz
