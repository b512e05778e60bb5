import Verif.Spec.Pubkey
import Verif.Proofs.Policyd

/-! Invariants of the public key daemon. -/

namespace Athenz

/-- The ETag bookkeeping of an accepted body. -/
def tagged (cfg : PkCfg) (s : PkState) (e : Env) (eTag : Str) : Gache Str :=
  if eTag = [] then s.eTags else s.eTags.set s.now e.name eTag cfg.eTagExpiry

/-- `pkStep` as a relation. -/
inductive PkEffect (cfg : PkCfg) (s : PkState) : PkAct → PkState → Prop
  | tick (d : Nat) : PkEffect cfg s (.tick d) { s with now := s.now + d }
  | update : PkEffect cfg s .update { s with jobs := s.jobs ++ [⟨.zts, .start⟩, ⟨.zms, .start⟩] }
  | send (j : Nat) (e : Env) (hj : s.jobs[j]? = some ⟨e, .start⟩) :
      PkEffect cfg s (.send j) { s with jobs := s.jobs.set j ⟨e, .sent (s.eTags.get s.now e.name)⟩ }
  | refused (j : Nat) (r : HttpResult) (order : List Str) (e : Env) (t : Option Str) (err : Err) (hj : s.jobs[j]? = some ⟨e, .sent t⟩)
      (h304 : ∀ x b, r ≠ .answer 304 x b) (h200 : ∀ x b, r = .answer 200 x b → cfg.decode b = none) :
      PkEffect cfg s (.answer j r order) { s with jobs := s.jobs.set j ⟨e, .done (some err)⟩ }
  | notModified (j : Nat) (x b : Str) (order : List Str) (e : Env) (t : Str) (hj : s.jobs[j]? = some ⟨e, .sent (some t)⟩) :
      PkEffect cfg s (.answer j (.answer 304 x b) order) { s with jobs := s.jobs.set j ⟨e, .done none⟩ }
  | crash304 (j : Nat) (x b : Str) (order : List Str) (e : Env) (hj : s.jobs[j]? = some ⟨e, .sent none⟩) :
      PkEffect cfg s (.answer j (.answer 304 x b) order) { s with crashed := true }
  | crashNull (j : Nat) (x b : Str) (order : List Str) (e : Env) (t : Option Str) (hj : s.jobs[j]? = some ⟨e, .sent t⟩)
      (hb : cfg.decode b = some none ∨ ∃ es, cfg.decode b = some (some es) ∧ buildKeys cfg.newVerifier [] es = .panic) :
      PkEffect cfg s (.answer j (.answer 200 x b) order) { s with eTags := tagged cfg s e x, crashed := true }
  | badKeys (j : Nat) (x b : Str) (order : List Str) (e : Env) (t : Option Str) (es : List (Option PubKeyEntry)) (err : Err)
      (hj : s.jobs[j]? = some ⟨e, .sent t⟩) (hb : cfg.decode b = some (some es)) (hk : buildKeys cfg.newVerifier [] es = .err err) :
      PkEffect cfg s (.answer j (.answer 200 x b) order) { s with eTags := tagged cfg s e x, jobs := s.jobs.set j ⟨e, .done (some err)⟩ }
  | accept (j : Nat) (x b : Str) (order : List Str) (e : Env) (t : Option Str) (es : List (Option PubKeyEntry)) (cm : SMap SigVerifier)
      (hj : s.jobs[j]? = some ⟨e, .sent t⟩) (hb : cfg.decode b = some (some es)) (hk : buildKeys cfg.newVerifier [] es = .ok cm)
      (ho : order.Perm cm.keys) :
      PkEffect cfg s (.answer j (.answer 200 x b) order) { s with eTags := tagged cfg s e x, jobs := s.jobs.set j ⟨e, .storing cm order⟩ }
  | store (j : Nat) (order : List Str) (e : Env) (cm : SMap SigVerifier) (k : Str) (todo : List Str) (v : SigVerifier)
      (hj : s.jobs[j]? = some ⟨e, .storing cm (k :: todo)⟩) (hv : cm.load k = some v) :
      PkEffect cfg s (.step j order) { (s.setKeys e ((s.keysOf e).store k v)) with jobs := s.jobs.set j ⟨e, .storing cm todo⟩ }
  | stored (j : Nat) (order : List Str) (e : Env) (cm : SMap SigVerifier) (hj : s.jobs[j]? = some ⟨e, .storing cm []⟩)
      (ho : ∀ k ∈ (s.keysOf e).keys, k ∈ order) :
      PkEffect cfg s (.step j order) { s with jobs := s.jobs.set j ⟨e, .deleting cm order⟩ }
  | keep (j : Nat) (order : List Str) (e : Env) (cm : SMap SigVerifier) (k : Str) (todo : List Str)
      (hj : s.jobs[j]? = some ⟨e, .deleting cm (k :: todo)⟩) (hv : (cm.load k).isSome) :
      PkEffect cfg s (.step j order) { s with jobs := s.jobs.set j ⟨e, .deleting cm todo⟩ }
  | delete (j : Nat) (order : List Str) (e : Env) (cm : SMap SigVerifier) (k : Str) (todo : List Str)
      (hj : s.jobs[j]? = some ⟨e, .deleting cm (k :: todo)⟩) (hv : cm.load k = none) :
      PkEffect cfg s (.step j order) { (s.setKeys e ((s.keysOf e).delete k)) with jobs := s.jobs.set j ⟨e, .deleting cm todo⟩ }
  | finish (j : Nat) (order : List Str) (e : Env) (cm : SMap SigVerifier) (hj : s.jobs[j]? = some ⟨e, .deleting cm []⟩) :
      PkEffect cfg s (.step j order) { s with jobs := s.jobs.set j ⟨e, .done none⟩ }

theorem pkStep_crashed {cfg : PkCfg} {s s' : PkState} {a : PkAct} (hs : pkStep cfg s a = some s') : s.crashed = false := by
  unfold pkStep at hs
  split at hs
  · simp at hs
  · rename_i h; simpa using h

theorem pkStep_effect {cfg : PkCfg} {s s' : PkState} {a : PkAct} (hs : pkStep cfg s a = some s') : PkEffect cfg s a s' := by
  unfold pkStep at hs
  split at hs
  · simp at hs
  cases a with
  | tick d => simp only [Option.some.injEq] at hs; subst hs; exact .tick d
  | update => simp only [Option.some.injEq] at hs; subst hs; exact .update
  | send j =>
    simp only at hs
    split at hs
    · rename_i e hj; simp only [Option.some.injEq] at hs; subst hs; exact .send j e hj
    · simp at hs
  | answer j r order =>
    simp only at hs
    split at hs
    · rename_i e t hj
      cases r with
      | fail err =>
        simp only [Option.some.injEq] at hs; subst hs
        exact .refused j _ order e t err hj (by simp) (by simp)
      | answer status x b =>
        simp only at hs
        by_cases h304 : status = 304
        · subst h304
          cases t with
          | none => simp only [if_true, Option.some.injEq] at hs; subst hs; exact .crash304 j x b order e hj
          | some t => simp only [if_true, Option.some.injEq] at hs; subst hs; exact .notModified j x b order e t hj
        · by_cases h200 : status = 200
          · subst h200
            cases hdec : cfg.decode b with
            | none =>
              simp only [reduceIte, hdec, Nat.reduceEqDiff, ne_eq, not_true_eq_false] at hs
              simp only [Option.some.injEq] at hs; subst hs
              refine .refused j _ order e t _ hj (by simp) ?_
              intro x' b' h
              simp only [HttpResult.answer.injEq] at h
              rw [← h.2.2]; exact hdec
            | some sac =>
              simp only [reduceIte, hdec, Nat.reduceEqDiff, ne_eq, not_true_eq_false] at hs
              have htag : ∀ (js : List PkJob) (c : Bool), ({ (if x = [] then s else { s with eTags := s.eTags.set s.now e.name x cfg.eTagExpiry }) with
                  jobs := js, crashed := c } : PkState) = { s with eTags := tagged cfg s e x, jobs := js, crashed := c } := by
                intro js c; unfold tagged; split <;> rfl
              have hcr : (if x = [] then s else { s with eTags := s.eTags.set s.now e.name x cfg.eTagExpiry } : PkState).crashed = s.crashed := by
                split <;> rfl
              have hjs : (if x = [] then s else { s with eTags := s.eTags.set s.now e.name x cfg.eTagExpiry } : PkState).jobs = s.jobs := by
                split <;> rfl
              cases sac with
              | none =>
                simp only [Option.some.injEq] at hs; subst hs
                have := htag s.jobs true
                rw [← hjs] at this
                rw [show ({ (if x = [] then s else { s with eTags := s.eTags.set s.now e.name x cfg.eTagExpiry }) with crashed := true } : PkState)
                  = { s with eTags := tagged cfg s e x, crashed := true } by unfold tagged; split <;> rfl]
                exact .crashNull j x b order e t hj (.inl hdec)
              | some es =>
                simp only at hs
                cases hk : buildKeys cfg.newVerifier [] es with
                | panic =>
                  simp only [hk, Option.some.injEq] at hs; subst hs
                  rw [show ({ (if x = [] then s else { s with eTags := s.eTags.set s.now e.name x cfg.eTagExpiry }) with crashed := true } : PkState)
                    = { s with eTags := tagged cfg s e x, crashed := true } by unfold tagged; split <;> rfl]
                  exact .crashNull j x b order e t hj (.inr ⟨es, hdec, hk⟩)
                | err err =>
                  simp only [hk, Option.some.injEq] at hs; subst hs
                  rw [show ({ (if x = [] then s else { s with eTags := s.eTags.set s.now e.name x cfg.eTagExpiry }) with
                      jobs := s.jobs.set j ⟨e, .done (some err)⟩ } : PkState)
                    = { s with eTags := tagged cfg s e x, jobs := s.jobs.set j ⟨e, .done (some err)⟩ } by unfold tagged; split <;> rfl]
                  exact .badKeys j x b order e t es err hj hdec hk
                | ok cm =>
                  simp only [hk] at hs
                  split at hs
                  · rename_i ho
                    simp only [Option.some.injEq] at hs; subst hs
                    rw [show ({ (if x = [] then s else { s with eTags := s.eTags.set s.now e.name x cfg.eTagExpiry }) with
                        jobs := s.jobs.set j ⟨e, .storing cm order⟩ } : PkState)
                      = { s with eTags := tagged cfg s e x, jobs := s.jobs.set j ⟨e, .storing cm order⟩ } by unfold tagged; split <;> rfl]
                    exact .accept j x b order e t es cm hj hdec hk ho
                  · simp at hs
          · simp only [h304, h200, if_false, ne_eq, not_false_eq_true, if_true, Option.some.injEq] at hs; subst hs
            refine .refused j _ order e t _ hj ?_ ?_
            · intro x' b' h; simp only [HttpResult.answer.injEq] at h; exact h304 h.1
            · intro x' b' h; simp only [HttpResult.answer.injEq] at h; exact absurd h.1 h200
    · simp at hs
  | step j order =>
    simp only at hs
    split at hs
    · rename_i e cm k todo hj
      split at hs
      · rename_i v hv
        simp only [Option.some.injEq] at hs; subst hs
        exact .store j order e cm k todo v hj hv
      · simp at hs
    · rename_i e cm hj
      split at hs
      · rename_i ho
        simp only [Option.some.injEq] at hs; subst hs
        exact .stored j order e cm hj ho
      · simp at hs
    · rename_i e cm k todo hj
      split at hs
      · rename_i v hv
        simp only [Option.some.injEq] at hs; subst hs
        exact .keep j order e cm k todo hj (by simp [hv])
      · rename_i hv
        simp only [Option.some.injEq] at hs; subst hs
        exact .delete j order e cm k todo hj hv
    · rename_i e cm hj
      simp only [Option.some.injEq] at hs; subst hs
      exact .finish j order e cm hj
    · simp at hs

open Spec

theorem pkRun_append {cfg : PkCfg} (s : PkState) (h h' : List PkAct) : pkRun cfg s (h ++ h') = (pkRun cfg s h).bind (fun s' => pkRun cfg s' h') := by
  induction h generalizing s with
  | nil => rfl
  | cons a h ih =>
    simp only [List.cons_append, pkRun]
    cases pkStep cfg s a with
    | none => rfl
    | some s' => exact ih s'

theorem pkRun_snoc {cfg : PkCfg} {s s' : PkState} {h : List PkAct} {a : PkAct} (hr : pkRun cfg s (h ++ [a]) = some s') :
    ∃ s1, pkRun cfg s h = some s1 ∧ pkStep cfg s1 a = some s' := by
  rw [pkRun_append] at hr
  cases h1 : pkRun cfg s h with
  | none => rw [h1] at hr; simp at hr
  | some s1 =>
    rw [h1] at hr
    simp only [Option.bind_some, pkRun] at hr
    refine ⟨s1, rfl, ?_⟩
    cases h2 : pkStep cfg s1 a with
    | none => rw [h2] at hr; simp at hr
    | some s2 => rw [h2] at hr; simpa using hr

/-- Induction over executions, from the last action. -/
theorem pkRun_ind {cfg : PkCfg} {s0 : PkState} (P : List PkAct → PkState → Prop) (h0 : P [] s0)
    (hstep : ∀ h s a s', P h s → pkRun cfg s0 h = some s → pkStep cfg s a = some s' → P (h ++ [a]) s') :
    ∀ h s, pkRun cfg s0 h = some s → P h s := by
  have key : ∀ (h2 h1 : List PkAct) (s1 s : PkState), P h1 s1 → pkRun cfg s0 h1 = some s1 → pkRun cfg s1 h2 = some s → P (h1 ++ h2) s := by
    intro h2
    induction h2 with
    | nil => intro h1 s1 s hp _ hr; simp only [pkRun, Option.some.injEq] at hr; subst hr; simpa using hp
    | cons a h2 ih =>
      intro h1 s1 s hp h1r hr
      simp only [pkRun] at hr
      cases hs : pkStep cfg s1 a with
      | none => rw [hs] at hr; simp at hr
      | some s2 =>
        rw [hs] at hr
        have h2r : pkRun cfg s0 (h1 ++ [a]) = some s2 := by rw [pkRun_append, h1r]; simp [pkRun, hs]
        have := ih (h1 ++ [a]) s2 s (hstep h1 s1 a s2 hp h1r hs) h2r hr
        simpa using this
  intro h s hr
  exact key h [] s0 s h0 rfl hr

theorem jobs_append2 {l : List PkJob} {x y b : PkJob} {i : Nat} (h : (l ++ [x, y])[i]? = some b) :
    l[i]? = some b ∨ (i = l.length ∧ b = x) ∨ (i = l.length + 1 ∧ b = y) := by
  rcases Nat.lt_or_ge i l.length with h1 | h1
  · rw [List.getElem?_append_left h1] at h; exact .inl h
  · rw [List.getElem?_append_right h1] at h
    obtain ⟨k, rfl⟩ := Nat.exists_eq_add_of_le h1
    rw [Nat.add_sub_cancel_left] at h
    match k with
    | 0 => simp at h; exact .inr (.inl ⟨rfl, h.symm⟩)
    | 1 => simp at h; exact .inr (.inr ⟨rfl, h.symm⟩)
    | k + 2 => simp at h

/-! ### Keys of the two services -/

theorem keysOf_setKeys (s : PkState) (e e' : Env) (m : SMap SigVerifier) : (s.setKeys e m).keysOf e' = if e' = e then m else s.keysOf e' := by
  cases e <;> cases e' <;> simp [PkState.setKeys, PkState.keysOf]

theorem setKeys_jobs (s : PkState) (e : Env) (m : SMap SigVerifier) : (s.setKeys e m).jobs = s.jobs := by cases e <;> rfl
theorem setKeys_eTags (s : PkState) (e : Env) (m : SMap SigVerifier) : (s.setKeys e m).eTags = s.eTags := by cases e <;> rfl
theorem setKeys_now (s : PkState) (e : Env) (m : SMap SigVerifier) : (s.setKeys e m).now = s.now := by cases e <;> rfl
theorem setKeys_crashed (s : PkState) (e : Env) (m : SMap SigVerifier) : (s.setKeys e m).crashed = s.crashed := by cases e <;> rfl

@[simp] theorem keysOf_jobs (s : PkState) (js : List PkJob) (e : Env) : ({ s with jobs := js } : PkState).keysOf e = s.keysOf e := by cases e <;> rfl
@[simp] theorem keysOf_now (s : PkState) (n : Int) (e : Env) : ({ s with now := n } : PkState).keysOf e = s.keysOf e := by cases e <;> rfl
@[simp] theorem keysOf_crashed (s : PkState) (b : Bool) (e : Env) : ({ s with crashed := b } : PkState).keysOf e = s.keysOf e := by cases e <;> rfl
@[simp] theorem keysOf_tags_jobs (s : PkState) (g : Gache Str) (js : List PkJob) (e : Env) :
    ({ s with eTags := g, jobs := js } : PkState).keysOf e = s.keysOf e := by cases e <;> rfl
@[simp] theorem keysOf_tags_crashed (s : PkState) (g : Gache Str) (b : Bool) (e : Env) :
    ({ s with eTags := g, crashed := b } : PkState).keysOf e = s.keysOf e := by cases e <;> rfl
theorem keysOf_setKeys_jobs (s : PkState) (e e' : Env) (m : SMap SigVerifier) (js : List PkJob) :
    ({ (s.setKeys e m) with jobs := js } : PkState).keysOf e' = if e' = e then m else s.keysOf e' := by
  rw [keysOf_jobs, keysOf_setKeys]

/-! ### Which service a job belongs to -/

theorem jobEnv_even {n : Nat} (h : n % 2 = 0) : jobEnv n = .zts ∧ jobEnv (n + 1) = .zms := by
  unfold jobEnv
  constructor
  · simp [h]
  · have : (n + 1) % 2 ≠ 0 := by omega
    simp [this]

theorem jobs_env {cfg : PkCfg} {now : Int} {h : List PkAct} {s : PkState} (hr : pkRun cfg (pkInit now) h = some s) :
    s.jobs.length % 2 = 0 ∧ ∀ (i : Nat) (b : PkJob), s.jobs[i]? = some b → b.env = jobEnv i := by
  refine pkRun_ind (cfg := cfg) (s0 := pkInit now)
    (fun _ s => s.jobs.length % 2 = 0 ∧ ∀ (i : Nat) (b : PkJob), s.jobs[i]? = some b → b.env = jobEnv i) ?_ ?_ h s hr
  · exact ⟨rfl, fun i b hb => by simp [pkInit] at hb⟩
  · rintro h s a s' ⟨hl, hinv⟩ _ hs
    have hset : ∀ (j : Nat) (e : Env) (pc pc' : PkPc), s.jobs[j]? = some ⟨e, pc⟩ →
        (s.jobs.set j ⟨e, pc'⟩).length % 2 = 0 ∧ ∀ (i : Nat) (b : PkJob), (s.jobs.set j ⟨e, pc'⟩)[i]? = some b → b.env = jobEnv i := by
      intro j e pc pc' hj
      refine ⟨by rw [List.length_set]; exact hl, fun i b hb => ?_⟩
      rcases getElem?_set_cases' hb with ⟨rfl, rfl⟩ | ⟨_, hb⟩
      · exact hinv _ ⟨e, pc⟩ hj
      · exact hinv _ _ hb
    cases pkStep_effect hs with
    | tick d => exact ⟨hl, hinv⟩
    | update =>
      refine ⟨by simp only [List.length_append, List.length_cons, List.length_nil]; omega, fun i b hb => ?_⟩
      obtain ⟨he, ho⟩ := jobEnv_even hl
      rcases jobs_append2 hb with hb | ⟨rfl, rfl⟩ | ⟨rfl, rfl⟩
      · exact hinv _ _ hb
      · exact he.symm
      · exact ho.symm
    | send j e hj => exact hset _ _ _ _ hj
    | refused j r order e t err hj => exact hset _ _ _ _ hj
    | notModified j x b order e t hj => exact hset _ _ _ _ hj
    | crash304 j x b order e hj => exact ⟨hl, hinv⟩
    | crashNull j x b order e t hj => exact ⟨hl, hinv⟩
    | badKeys j x b order e t es err hj => exact hset _ _ _ _ hj
    | accept j x b order e t es cm hj => exact hset _ _ _ _ hj
    | store j order e cm k todo v hj => exact hset _ _ _ _ hj
    | stored j order e cm hj => exact hset _ _ _ _ hj
    | keep j order e cm k todo hj => exact hset _ _ _ _ hj
    | delete j order e cm k todo hj => exact hset _ _ _ _ hj
    | finish j order e cm hj => exact hset _ _ _ _ hj

/-! ### The decoding loop -/

theorem published_append_some (cfg : PkCfg) (es : List (Option PubKeyEntry)) (q : PubKeyEntry) (id : Str) :
    published cfg (es ++ [some q]) id = if q.1 = id then cfg.newVerifier q.2 else published cfg es id := by
  simp only [published, List.filterMap_append, List.filterMap_cons, List.filterMap_nil, List.reverse_append, List.reverse_cons, List.reverse_nil,
    List.nil_append, List.cons_append, List.find?_cons]
  by_cases h : q.1 = id
  · simp [h]
  · have hb : (q.1 == id) = false := by simpa using h
    simp [h, hb]

theorem buildKeys_spec (cfg : PkCfg) (es : List (Option PubKeyEntry)) : ∀ (pre : List (Option PubKeyEntry)) (cm0 : SMap SigVerifier),
    Complete cfg pre → (∀ id, cm0.load id = published cfg pre id) →
    (match buildKeys cfg.newVerifier cm0 es with
     | .ok cm => Complete cfg (pre ++ es) ∧ ∀ id, cm.load id = published cfg (pre ++ es) id
     | .err _ => ¬ Complete cfg (pre ++ es) ∧ ¬ NullEntry cfg (pre ++ es)
     | .panic => NullEntry cfg (pre ++ es)) := by
  induction es with
  | nil => intro pre cm0 hp hl; simp only [buildKeys, List.append_nil]; exact ⟨hp, hl⟩
  | cons p es ih =>
    intro pre cm0 hp hl
    cases p with
    | none => simp only [buildKeys]; exact ⟨pre, es, rfl, hp⟩
    | some q =>
      obtain ⟨id, key⟩ := q
      cases hv : cfg.newVerifier key with
      | none =>
        simp only [buildKeys, hv]
        refine ⟨fun hc => ?_, ?_⟩
        · obtain ⟨q, hq, hs⟩ := hc (some (id, key)) (by simp)
          simp only [Option.some.injEq] at hq; subst hq
          simp [hv] at hs
        · rintro ⟨pre', post, heq, hc⟩
          rcases List.append_eq_append_iff.mp heq with ⟨as, ha1, ha2⟩ | ⟨bs, hb1, hb2⟩
          · -- `pre'` extends `pre`
            cases as with
            | nil => simp at ha2
            | cons a as =>
              simp only [List.cons_append, List.cons.injEq] at ha2
              obtain ⟨q, hq, hs⟩ := hc (some (id, key)) (by rw [ha1, ← ha2.1]; simp)
              simp only [Option.some.injEq] at hq; subst hq
              simp [hv] at hs
          · cases bs with
            | nil => simp at hb2
            | cons b bs =>
              simp only [List.cons_append, List.cons.injEq] at hb2
              obtain ⟨q, hq, _⟩ := hp none (by rw [hb1, hb2.1]; simp)
              cases hq
      | some v =>
        simp only [buildKeys, hv]
        have := ih (pre ++ [some (id, key)]) (cm0.store id v) ?_ ?_
        · simpa using this
        · intro p hp'
          rcases List.mem_append.mp hp' with h | h
          · exact hp p h
          · simp only [List.mem_singleton] at h; subst h; exact ⟨_, rfl, by simp [hv]⟩
        · intro id'
          rw [SMap.load_store, published_append_some, hl]
          by_cases h : id' = id
          · simp [h, hv]
          · simp [h, Ne.symm h]

theorem buildKeys_ok {cfg : PkCfg} {es : List (Option PubKeyEntry)} {cm : SMap SigVerifier} (h : buildKeys cfg.newVerifier [] es = .ok cm) :
    Complete cfg es ∧ ∀ id, cm.load id = published cfg es id := by
  have := buildKeys_spec cfg es [] [] (by intro p hp; simp at hp) (by intro id; rfl)
  rw [h] at this
  simpa using this

theorem buildKeys_err {cfg : PkCfg} {es : List (Option PubKeyEntry)} {e : Err} (h : buildKeys cfg.newVerifier [] es = .err e) :
    ¬ Complete cfg es ∧ ¬ NullEntry cfg es := by
  have := buildKeys_spec cfg es [] [] (by intro p hp; simp at hp) (by intro id; rfl)
  rw [h] at this
  simpa using this

theorem buildKeys_panic {cfg : PkCfg} {es : List (Option PubKeyEntry)} (h : buildKeys cfg.newVerifier [] es = .panic) : NullEntry cfg es := by
  have := buildKeys_spec cfg es [] [] (by intro p hp; simp at hp) (by intro id; rfl)
  rw [h] at this
  simpa using this

/-! ### Lookups during arbitrary schedules -/

theorem served_mono {cfg : PkCfg} {h : List PkAct} {e : Env} {es : List (Option PubKeyEntry)} (a : PkAct) (hs : Served cfg h e es) :
    Served cfg (h ++ [a]) e es := by
  obtain ⟨j, x, b, o, hm, hrest⟩ := hs
  exact ⟨j, x, b, o, by simp [hm], hrest⟩

/-- What is known during a history `h` that began in the state `s0`. -/
structure LookInv (cfg : PkCfg) (e : Env) (s0 : PkState) (h : List PkAct) (s : PkState) : Prop where
  applying : ∀ (i : Nat) (cm : SMap SigVerifier) (todo : List Str), s.jobs[i]? = some ⟨e, .storing cm todo⟩ ∨ s.jobs[i]? = some ⟨e, .deleting cm todo⟩ →
    ∃ es, Served cfg h e es ∧ ∀ id, cm.load id = published cfg es id
  value : ∀ id, (s.keysOf e).load id = (s0.keysOf e).load id ∨ ∃ es, Served cfg h e es ∧ (s.keysOf e).load id = published cfg es id
  present : ∀ id, ((s0.keysOf e).load id).isSome → (∀ es, Served cfg h e es → (published cfg es id).isSome) → ((s.keysOf e).load id).isSome

theorem lookInv_step {cfg : PkCfg} {e : Env} {s0 s s' : PkState} {h : List PkAct} {a : PkAct}
    (henv : ∀ (i : Nat) (b : PkJob), s.jobs[i]? = some b → b.env = jobEnv i)
    (hinv : LookInv cfg e s0 h s) (hs : pkStep cfg s a = some s') : LookInv cfg e s0 (h ++ [a]) s' := by
  have happ : ∀ (i : Nat) (cm : SMap SigVerifier) (todo : List Str), s.jobs[i]? = some ⟨e, .storing cm todo⟩ ∨ s.jobs[i]? = some ⟨e, .deleting cm todo⟩ →
    ∃ es, Served cfg (h ++ [a]) e es ∧ ∀ id, cm.load id = published cfg es id := by
    intro i cm todo hi
    obtain ⟨es, h1, h2⟩ := hinv.applying i cm todo hi
    exact ⟨es, served_mono a h1, h2⟩
  have hval : ∀ id, (s.keysOf e).load id = (s0.keysOf e).load id ∨ ∃ es, Served cfg (h ++ [a]) e es ∧ (s.keysOf e).load id = published cfg es id := by
    intro id
    rcases hinv.value id with h1 | ⟨es, h1, h2⟩
    · exact .inl h1
    · exact .inr ⟨es, served_mono a h1, h2⟩
  have hpres : ∀ id, ((s0.keysOf e).load id).isSome → (∀ es, Served cfg (h ++ [a]) e es → (published cfg es id).isSome) → ((s.keysOf e).load id).isSome :=
    fun id h1 h2 => hinv.present id h1 (fun es hes => h2 es (served_mono a hes))
  -- a change of one job to a position outside the two loops, or to one whose key list is known
  have hset : ∀ (j : Nat) (e' : Env) (pc : PkPc),
      (∀ cm todo, e' = e → (pc = .storing cm todo ∨ pc = .deleting cm todo) → ∃ es, Served cfg (h ++ [a]) e es ∧ ∀ id, cm.load id = published cfg es id) →
      ∀ (i : Nat) (cm : SMap SigVerifier) (todo : List Str), (s.jobs.set j ⟨e', pc⟩)[i]? = some ⟨e, .storing cm todo⟩ ∨ (s.jobs.set j ⟨e', pc⟩)[i]? = some ⟨e, .deleting cm todo⟩ →
      ∃ es, Served cfg (h ++ [a]) e es ∧ ∀ id, cm.load id = published cfg es id := by
    intro j e' pc hpc i cm todo hi
    rcases hi with hi | hi
    · rcases getElem?_set_cases' hi with ⟨_, heq⟩ | ⟨_, hi⟩
      · simp only [PkJob.mk.injEq] at heq
        exact hpc cm todo heq.1.symm (.inl heq.2.symm)
      · exact happ i cm todo (.inl hi)
    · rcases getElem?_set_cases' hi with ⟨_, heq⟩ | ⟨_, hi⟩
      · simp only [PkJob.mk.injEq] at heq
        exact hpc cm todo heq.1.symm (.inr heq.2.symm)
      · exact happ i cm todo (.inr hi)
  cases pkStep_effect hs with
  | tick d => exact ⟨happ, by simpa using hval, by simpa using hpres⟩
  | update =>
    refine ⟨?_, by simpa using hval, by simpa using hpres⟩
    intro i cm todo hi
    rcases hi with hi | hi <;> rcases jobs_append2 hi with hi | ⟨_, hi⟩ | ⟨_, hi⟩
    · exact happ i cm todo (.inl hi)
    · simp at hi
    · simp at hi
    · exact happ i cm todo (.inr hi)
    · simp at hi
    · simp at hi
  | send j e' hj => exact ⟨hset _ _ _ (by simp), by simpa using hval, by simpa using hpres⟩
  | refused j r order e' t err hj => exact ⟨hset _ _ _ (by simp), by simpa using hval, by simpa using hpres⟩
  | notModified j x b order e' t hj => exact ⟨hset _ _ _ (by simp), by simpa using hval, by simpa using hpres⟩
  | crash304 j x b order e' hj => exact ⟨happ, by simpa using hval, by simpa using hpres⟩
  | crashNull j x b order e' t hj => exact ⟨happ, by simpa using hval, by simpa using hpres⟩
  | badKeys j x b order e' t es err hj => exact ⟨hset _ _ _ (by simp), by simpa using hval, by simpa using hpres⟩
  | accept j x b order e' t es cm hj hb hk ho =>
    refine ⟨hset _ _ _ ?_, by simpa using hval, by simpa using hpres⟩
    rintro cm' todo' rfl (hpc | hpc)
    · simp only [PkPc.storing.injEq] at hpc
      obtain ⟨rfl, rfl⟩ := hpc
      obtain ⟨h1, h2⟩ := buildKeys_ok hk
      exact ⟨es, ⟨j, x, b, order, by simp, (henv _ _ hj).symm, hb, h1⟩, h2⟩
    · simp at hpc
  | store j order e' cm k todo v hj hv =>
    by_cases he : e = e'
    · subst he
      obtain ⟨es, hes, hld⟩ := happ j cm _ (.inl hj)
      refine ⟨hset _ _ _ ?_, ?_, ?_⟩
      · rintro cm' todo' _ (hpc | hpc)
        · simp only [PkPc.storing.injEq] at hpc
          obtain ⟨rfl, rfl⟩ := hpc
          exact ⟨es, hes, hld⟩
        · simp at hpc
      · intro id
        rw [keysOf_setKeys_jobs, if_pos rfl, SMap.load_store]
        by_cases hid : id = k
        · right; subst hid; exact ⟨es, hes, by simp [← hld, hv]⟩
        · simp only [hid, if_false]; exact hval id
      · intro id h1 h2
        rw [keysOf_setKeys_jobs, if_pos rfl, SMap.load_store]
        by_cases hid : id = k
        · simp [hid]
        · simp only [hid, if_false]; exact hpres id h1 h2
    · refine ⟨hset _ _ _ (fun _ _ h => absurd h.symm he), ?_, ?_⟩
      · intro id; rw [keysOf_setKeys_jobs, if_neg he]; exact hval id
      · intro id; rw [keysOf_setKeys_jobs, if_neg he]; exact hpres id
  | stored j order e' cm hj ho =>
    refine ⟨hset _ _ _ ?_, by simpa using hval, by simpa using hpres⟩
    rintro cm' todo' rfl (hpc | hpc)
    · simp at hpc
    · simp only [PkPc.deleting.injEq] at hpc
      obtain ⟨rfl, rfl⟩ := hpc
      exact happ j cm [] (.inl hj)
  | keep j order e' cm k todo hj hv =>
    refine ⟨hset _ _ _ ?_, by simpa using hval, by simpa using hpres⟩
    rintro cm' todo' rfl (hpc | hpc)
    · simp at hpc
    · simp only [PkPc.deleting.injEq] at hpc
      obtain ⟨rfl, rfl⟩ := hpc
      exact happ j cm _ (.inr hj)
  | delete j order e' cm k todo hj hv =>
    by_cases he : e = e'
    · subst he
      obtain ⟨es, hes, hld⟩ := happ j cm _ (.inr hj)
      refine ⟨hset _ _ _ ?_, ?_, ?_⟩
      · rintro cm' todo' _ (hpc | hpc)
        · simp at hpc
        · simp only [PkPc.deleting.injEq] at hpc
          obtain ⟨rfl, rfl⟩ := hpc
          exact ⟨es, hes, hld⟩
      · intro id
        rw [keysOf_setKeys_jobs, if_pos rfl, SMap.load_delete]
        by_cases hid : id = k
        · right; subst hid; exact ⟨es, hes, by simp [← hld, hv]⟩
        · simp only [hid, if_false]; exact hval id
      · intro id h1 h2
        rw [keysOf_setKeys_jobs, if_pos rfl, SMap.load_delete]
        by_cases hid : id = k
        · have := h2 es hes; rw [← hld, hid, hv] at this; simp at this
        · simp only [hid, if_false]; exact hpres id h1 h2
    · refine ⟨hset _ _ _ (fun _ _ h => absurd h.symm he), ?_, ?_⟩
      · intro id; rw [keysOf_setKeys_jobs, if_neg he]; exact hval id
      · intro id; rw [keysOf_setKeys_jobs, if_neg he]; exact hpres id
  | finish j order e' cm hj => exact ⟨hset _ _ _ (by simp), by simpa using hval, by simpa using hpres⟩

theorem lookInv_run {cfg : PkCfg} {now : Int} {e : Env} {h0 h : List PkAct} {s0 s : PkState} (h0r : pkRun cfg (pkInit now) h0 = some s0)
    (hq : KeysQuiet e s0) (hr : pkRun cfg s0 h = some s) : LookInv cfg e s0 h s := by
  refine pkRun_ind (cfg := cfg) (s0 := s0) (fun h s => LookInv cfg e s0 h s) ?_ ?_ h s hr
  · refine ⟨fun i cm todo hi => ?_, fun id => .inl rfl, fun id h _ => h⟩
    rcases hi with hi | hi
    · exact absurd hi (hq i cm todo).1
    · exact absurd hi (hq i cm todo).2
  · intro h s a s' hinv hrs hs
    have : pkRun cfg (pkInit now) (h0 ++ h) = some s := by rw [pkRun_append, h0r]; exact hrs
    exact lookInv_step (jobs_env this).2 hinv hs

/-! ### One refresh at a time -/

/-- Where job `j` of service `e`, the only one applying a refresh, stands with respect to the key list `cm`. -/
def ApplyInv (e : Env) (j : Nat) (cm : SMap SigVerifier) (s : PkState) : Prop :=
  (∃ todo, s.jobs[j]? = some ⟨e, .storing cm todo⟩ ∧ ∀ id, (cm.load id).isSome → id ∉ todo → (s.keysOf e).load id = cm.load id) ∨
  (∃ todo, s.jobs[j]? = some ⟨e, .deleting cm todo⟩ ∧ (∀ id, (cm.load id).isSome → (s.keysOf e).load id = cm.load id) ∧
    ∀ id, cm.load id = none → id ∉ todo → (s.keysOf e).load id = none) ∨
  (s.jobs[j]? = some ⟨e, .done none⟩ ∧ ∀ id, (s.keysOf e).load id = cm.load id)

/-- An action that is no step of another job of the service. -/
theorem applyInv_step {cfg : PkCfg} {e : Env} {j : Nat} {cm : SMap SigVerifier} {s s' : PkState} {a : PkAct}
    (henv : ∀ (i : Nat) (b : PkJob), s.jobs[i]? = some b → b.env = jobEnv i) (hej : jobEnv j = e)
    (halone : ∀ i o, a = .step i o → jobEnv i = e → i = j)
    (hinv : ApplyInv e j cm s) (hs : pkStep cfg s a = some s') : ApplyInv e j cm s' := by
  -- actions that leave the job and the keys alone
  have hframe : s'.jobs[j]? = s.jobs[j]? → s'.keysOf e = s.keysOf e → ApplyInv e j cm s' := by
    intro h1 h2; unfold ApplyInv; rw [h1, h2]; exact hinv
  have hjlt : ∃ pc, s.jobs[j]? = some ⟨e, pc⟩ := by
    rcases hinv with ⟨todo, h, _⟩ | ⟨todo, h, _⟩ | ⟨h, _⟩ <;> exact ⟨_, h⟩
  have hjl : j < s.jobs.length := by
    obtain ⟨pc, h⟩ := hjlt
    exact (List.getElem?_eq_some_iff.mp h).1
  have hother : ∀ (i : Nat) (b : PkJob), i ≠ j → (s.jobs.set i b)[j]? = s.jobs[j]? := fun i b hi => List.getElem?_set_ne hi
  have hnot : ∀ (i : Nat) (e' : Env) (pc : PkPc), s.jobs[i]? = some ⟨e', pc⟩ → (pc = .start ∨ ∃ t, pc = .sent t) → i ≠ j := by
    rintro i e' pc hi hpc rfl
    rcases hinv with ⟨todo, h, _⟩ | ⟨todo, h, _⟩ | ⟨h, _⟩ <;> rw [h] at hi <;> simp only [Option.some.injEq, PkJob.mk.injEq] at hi <;>
      rcases hpc with rfl | ⟨t, rfl⟩ <;> simp at hi
  have hstepEnv : ∀ (i : Nat) (e' : Env) (pc : PkPc) (o : List Str), a = .step i o → s.jobs[i]? = some ⟨e', pc⟩ → i ≠ j → e ≠ e' := by
    rintro i e' pc o ha hi hne rfl
    exact hne (halone i o ha (by rw [← henv _ _ hi]))
  have hset : ∀ (b : PkJob), (s.jobs.set j b)[j]? = some b := fun b => by rw [List.getElem?_set_self hjl]
  cases pkStep_effect hs with
  | tick d => exact hframe rfl (by simp)
  | update => exact hframe (by simp only; rw [List.getElem?_append_left hjl]) (by simp)
  | send i e' hi => exact hframe (hother _ _ (hnot _ _ _ hi (.inl rfl))) (by simp)
  | refused i r order e' t err hi => exact hframe (hother _ _ (hnot _ _ _ hi (.inr ⟨_, rfl⟩))) (by simp)
  | notModified i x b order e' t hi => exact hframe (hother _ _ (hnot _ _ _ hi (.inr ⟨_, rfl⟩))) (by simp)
  | crash304 i x b order e' hi => exact hframe rfl (by simp)
  | crashNull i x b order e' t hi => exact hframe rfl (by simp)
  | badKeys i x b order e' t es err hi => exact hframe (hother _ _ (hnot _ _ _ hi (.inr ⟨_, rfl⟩))) (by simp)
  | accept i x b order e' t es cm' hi hb hk ho => exact hframe (hother _ _ (hnot _ _ _ hi (.inr ⟨_, rfl⟩))) (by simp)
  | store i order e' cm' k todo v hi hv =>
    by_cases hij : i = j
    · subst hij
      rcases hinv with ⟨todo', h, hst⟩ | ⟨todo', h, _⟩ | ⟨h, _⟩ <;> rw [h] at hi <;>
        simp only [Option.some.injEq, PkJob.mk.injEq, PkPc.storing.injEq, reduceCtorEq, and_false] at hi
      obtain ⟨rfl, rfl, rfl⟩ := hi
      refine .inl ⟨todo, hset _, fun id h1 h2 => ?_⟩
      rw [keysOf_setKeys_jobs, if_pos rfl, SMap.load_store]
      by_cases hid : id = k
      · simp [hid, hv]
      · simp only [hid, if_false]; exact hst id h1 (by simp [hid, h2])
    · have he := hstepEnv i e' _ order rfl hi hij
      exact hframe (hother _ _ hij) (by rw [keysOf_setKeys_jobs, if_neg he])
  | stored i order e' cm' hi ho =>
    by_cases hij : i = j
    · subst hij
      rcases hinv with ⟨todo', h, hst⟩ | ⟨todo', h, _⟩ | ⟨h, _⟩ <;> rw [h] at hi <;>
        simp only [Option.some.injEq, PkJob.mk.injEq, PkPc.storing.injEq, reduceCtorEq, and_false] at hi
      obtain ⟨rfl, rfl, rfl⟩ := hi
      refine .inr (.inl ⟨order, hset _, fun id h1 => ?_, fun id h1 h2 => ?_⟩)
      · rw [keysOf_jobs]; exact hst id h1 (by simp)
      · rw [keysOf_jobs]
        cases hl : (s.keysOf e).load id with
        | none => rfl
        | some v => exact absurd (ho id (SMap.mem_keys.mpr (by simp [hl]))) h2
    · exact hframe (hother _ _ hij) (by simp)
  | keep i order e' cm' k todo hi hv =>
    by_cases hij : i = j
    · subst hij
      rcases hinv with ⟨todo', h, hst⟩ | ⟨todo', h, hst, hdl⟩ | ⟨h, _⟩ <;> rw [h] at hi <;>
        simp only [Option.some.injEq, PkJob.mk.injEq, PkPc.deleting.injEq, reduceCtorEq, and_false] at hi
      obtain ⟨rfl, rfl, rfl⟩ := hi
      refine .inr (.inl ⟨todo, hset _, fun id h1 => ?_, fun id h1 h2 => ?_⟩)
      · rw [keysOf_jobs]; exact hst id h1
      · rw [keysOf_jobs]
        refine hdl id h1 ?_
        simp only [List.mem_cons, not_or]
        refine ⟨?_, h2⟩
        rintro rfl
        rw [h1] at hv; simp at hv
    · exact hframe (hother _ _ hij) (by simp)
  | delete i order e' cm' k todo hi hv =>
    by_cases hij : i = j
    · subst hij
      rcases hinv with ⟨todo', h, hst⟩ | ⟨todo', h, hst, hdl⟩ | ⟨h, _⟩ <;> rw [h] at hi <;>
        simp only [Option.some.injEq, PkJob.mk.injEq, PkPc.deleting.injEq, reduceCtorEq, and_false] at hi
      obtain ⟨rfl, rfl, rfl⟩ := hi
      refine .inr (.inl ⟨todo, hset _, fun id h1 => ?_, fun id h1 h2 => ?_⟩)
      · rw [keysOf_setKeys_jobs, if_pos rfl, SMap.load_delete]
        by_cases hid : id = k
        · rw [hid, hv] at h1; simp at h1
        · simp only [hid, if_false]; exact hst id h1
      · rw [keysOf_setKeys_jobs, if_pos rfl, SMap.load_delete]
        by_cases hid : id = k
        · simp [hid]
        · simp only [hid, if_false]; exact hdl id h1 (by simp [hid, h2])
    · have he := hstepEnv i e' _ order rfl hi hij
      exact hframe (hother _ _ hij) (by rw [keysOf_setKeys_jobs, if_neg he])
  | finish i order e' cm' hi =>
    by_cases hij : i = j
    · subst hij
      rcases hinv with ⟨todo', h, hst⟩ | ⟨todo', h, hst, hdl⟩ | ⟨h, _⟩ <;> rw [h] at hi <;>
        simp only [Option.some.injEq, PkJob.mk.injEq, PkPc.deleting.injEq, reduceCtorEq, and_false] at hi
      obtain ⟨rfl, rfl, rfl⟩ := hi
      refine .inr (.inr ⟨hset _, fun id => ?_⟩)
      rw [keysOf_jobs]
      cases hl : cm.load id with
      | none => exact hdl id hl (by simp)
      | some v => rw [← hl]; exact hst id (by simp [hl])
    · exact hframe (hother _ _ hij) (by simp)

theorem applyInv_run {cfg : PkCfg} {now : Int} {e : Env} {j : Nat} {cm : SMap SigVerifier} {h0 h : List PkAct} {s0 s : PkState}
    (h0r : pkRun cfg (pkInit now) h0 = some s0) (hej : jobEnv j = e) (h0i : ApplyInv e j cm s0) (hr : pkRun cfg s0 h = some s)
    (halone : Alone j h) : ApplyInv e j cm s := by
  refine pkRun_ind (cfg := cfg) (s0 := s0) (fun h s => Alone j h → ApplyInv e j cm s) (fun _ => h0i) ?_ h s hr halone
  intro h s a s' hinv hrs hs hal
  have : pkRun cfg (pkInit now) (h0 ++ h) = some s := by rw [pkRun_append, h0r]; exact hrs
  refine applyInv_step (jobs_env this).2 hej ?_ (hinv fun i o hm => hal i o (by simp [hm])) hs
  rintro i o rfl he
  exact hal i o (by simp) (by rw [he, hej])

/-! ### Failures -/

/-- Only the two loops change keys. -/
theorem keys_unchanged {cfg : PkCfg} {s s' : PkState} {a : PkAct} (hs : pkStep cfg s a = some s') (ha : ∀ j o, a ≠ .step j o) (e : Env) :
    s'.keysOf e = s.keysOf e := by
  cases pkStep_effect hs <;> first | (simp; done) | exact absurd rfl (ha _ _)

/-- A job only changes the keys of its own service. -/
theorem keys_other {cfg : PkCfg} {s s' : PkState} {j : Nat} {o : List Str} (hs : pkStep cfg s (.step j o) = some s') (e : Env)
    (he : ∀ b : PkJob, s.jobs[j]? = some b → b.env ≠ e) : s'.keysOf e = s.keysOf e := by
  cases pkStep_effect hs with
  | store _ _ e' cm k todo v hj hv => rw [keysOf_setKeys_jobs, if_neg (fun h => he _ hj h.symm)]
  | delete _ _ e' cm k todo hj hv => rw [keysOf_setKeys_jobs, if_neg (fun h => he _ hj h.symm)]
  | _ => simp

/-- The answers and steps that a history contains, against the positions of the jobs. -/
structure StepInv (h : List PkAct) (s : PkState) : Prop where
  stepped : ∀ j o, PkAct.step j o ∈ h → ∃ b : PkJob, s.jobs[j]? = some b ∧ b.pc ≠ .start ∧ (∀ t, b.pc ≠ .sent t) ∧ ∀ err, b.pc ≠ .done (some err)
  answered : s.crashed = false → ∀ j x b o, PkAct.answer j (.answer 304 x b) o ∈ h → ∃ bj : PkJob, s.jobs[j]? = some bj ∧ bj.pc = .done none
  apart : ∀ j x b o, PkAct.answer j (.answer 304 x b) o ∈ h → ∀ o', PkAct.step j o' ∉ h

theorem stepInv_run {cfg : PkCfg} {now : Int} {h : List PkAct} {s : PkState} (hr : pkRun cfg (pkInit now) h = some s) : StepInv h s := by
  refine pkRun_ind (cfg := cfg) (s0 := pkInit now) (fun h s => StepInv h s) ?_ ?_ h s hr
  · exact ⟨by simp, by simp, by simp⟩
  intro h s a s' hinv _ hs
  have hnc := pkStep_crashed hs
  -- a job whose position changes
  have hset : ∀ (i : Nat) (e : Env) (pc pc' : PkPc), s.jobs[i]? = some ⟨e, pc⟩ →
      (pc = .start ∨ (∃ t, pc = .sent t) ∨ (pc' ≠ .start ∧ (∀ t, pc' ≠ .sent t) ∧ ∀ err, pc' ≠ .done (some err))) →
      ∀ j o, PkAct.step j o ∈ h → ∃ b : PkJob, (s.jobs.set i ⟨e, pc'⟩)[j]? = some b ∧ b.pc ≠ .start ∧ (∀ t, b.pc ≠ .sent t) ∧ ∀ err, b.pc ≠ .done (some err) := by
    intro i e pc pc' hi hpc j o hm
    obtain ⟨b, hb, h1, h2, h3⟩ := hinv.stepped j o hm
    by_cases hij : i = j
    · subst hij
      rw [hi] at hb; simp only [Option.some.injEq] at hb; subst hb
      rcases hpc with hpc | ⟨t, hpc⟩ | hpc
      · exact absurd hpc h1
      · exact absurd hpc (h2 t)
      · exact ⟨_, by rw [List.getElem?_set_self (List.getElem?_eq_some_iff.mp hi).1], hpc⟩
    · exact ⟨b, by rw [List.getElem?_set_ne hij]; exact hb, h1, h2, h3⟩
  have hans : ∀ (i : Nat) (e : Env) (pc pc' : PkPc), s.jobs[i]? = some ⟨e, pc⟩ → pc ≠ .done none →
      ∀ j x b o, PkAct.answer j (.answer 304 x b) o ∈ h → ∃ bj : PkJob, (s.jobs.set i ⟨e, pc'⟩)[j]? = some bj ∧ bj.pc = .done none := by
    intro i e pc pc' hi hpc j x b o hm
    obtain ⟨bj, hb, h1⟩ := hinv.answered hnc j x b o hm
    have hij : i ≠ j := by
      rintro rfl
      rw [hi] at hb; simp only [Option.some.injEq] at hb; subst hb
      exact hpc h1
    exact ⟨bj, by rw [List.getElem?_set_ne hij]; exact hb, h1⟩
  -- actions other than steps and answers
  have hold : ∀ (js : List PkJob) (c : Bool) (a : PkAct), (∀ j o, a ≠ .step j o) → (∀ j x b o, a ≠ .answer j (.answer 304 x b) o) →
      ∀ (s' : PkState), s'.jobs = js → (∀ j o, PkAct.step j o ∈ h → ∃ b : PkJob, js[j]? = some b ∧ b.pc ≠ .start ∧ (∀ t, b.pc ≠ .sent t) ∧ ∀ err, b.pc ≠ .done (some err)) →
      (s'.crashed = false → ∀ j x b o, PkAct.answer j (.answer 304 x b) o ∈ h → ∃ bj : PkJob, js[j]? = some bj ∧ bj.pc = .done none) →
      StepInv (h ++ [a]) s' := by
    intro js c a h1 h2 s' hjs h3 h4
    subst hjs
    refine ⟨fun j o hm => ?_, fun hc j x b o hm => ?_, fun j x b o hm o' hm' => ?_⟩
    · rcases List.mem_append.mp hm with hm | hm
      · exact h3 j o hm
      · simp only [List.mem_singleton] at hm; exact absurd hm.symm (h1 j o)
    · rcases List.mem_append.mp hm with hm | hm
      · exact h4 hc j x b o hm
      · simp only [List.mem_singleton] at hm; exact absurd hm.symm (h2 j x b o)
    · rcases List.mem_append.mp hm with hm | hm
      · rcases List.mem_append.mp hm' with hm' | hm'
        · exact hinv.apart j x b o hm o' hm'
        · simp only [List.mem_singleton] at hm'; exact absurd hm'.symm (h1 j o')
      · simp only [List.mem_singleton] at hm; exact absurd hm.symm (h2 j x b o)
  -- steps
  have hstep : ∀ (i : Nat) (o0 : List Str) (e : Env) (pc pc' : PkPc) (s' : PkState), s.jobs[i]? = some ⟨e, pc⟩ → s'.jobs = s.jobs.set i ⟨e, pc'⟩ → pc ≠ .done none →
      (pc' ≠ .start ∧ (∀ t, pc' ≠ .sent t) ∧ ∀ err, pc' ≠ .done (some err)) → StepInv (h ++ [.step i o0]) s' := by
    intro i o0 e pc pc' s' hi hjs hpc hpc'
    refine ⟨fun j o hm => ?_, fun hc j x b o hm => ?_, fun j x b o hm o' hm' => ?_⟩
    · rw [hjs]
      rcases List.mem_append.mp hm with hm | hm
      · exact hset i e pc pc' hi (.inr (.inr hpc')) j o hm
      · simp only [List.mem_singleton, PkAct.step.injEq] at hm
        obtain ⟨rfl, rfl⟩ := hm
        exact ⟨_, by rw [List.getElem?_set_self (List.getElem?_eq_some_iff.mp hi).1], hpc'⟩
    · rw [hjs]
      have hm : PkAct.answer j (.answer 304 x b) o ∈ h := by simpa using hm
      exact hans i e pc pc' hi hpc j x b o hm
    · have hm : PkAct.answer j (.answer 304 x b) o ∈ h := by simpa using hm
      rcases List.mem_append.mp hm' with hm' | hm'
      · exact hinv.apart j x b o hm o' hm'
      · simp only [List.mem_singleton, PkAct.step.injEq] at hm'
        obtain ⟨bj, hb, h1⟩ := hinv.answered hnc j x b o hm
        rw [hm'.1, hi] at hb; simp only [Option.some.injEq] at hb; subst hb
        exact hpc h1
  cases pkStep_effect hs with
  | tick d => exact hold s.jobs false _ (by simp) (by simp) _ rfl hinv.stepped (fun _ => hinv.answered hnc)
  | update =>
    refine hold (s.jobs ++ [⟨.zts, .start⟩, ⟨.zms, .start⟩]) false _ (by simp) (by simp) _ rfl ?_ ?_
    · intro j o hm
      obtain ⟨b, hb, hr⟩ := hinv.stepped j o hm
      exact ⟨b, by rw [List.getElem?_append_left (List.getElem?_eq_some_iff.mp hb).1]; exact hb, hr⟩
    · intro _ j x b o hm
      obtain ⟨b, hb, hr⟩ := hinv.answered hnc j x b o hm
      exact ⟨b, by rw [List.getElem?_append_left (List.getElem?_eq_some_iff.mp hb).1]; exact hb, hr⟩
  | send j e hj => exact hold _ false _ (by simp) (by simp) _ rfl (hset _ _ _ _ hj (.inl rfl)) (fun _ => hans _ _ _ _ hj (by simp))
  | refused j r order e t err hj h304 h200 =>
    exact hold _ false _ (by simp) (by intro j x b o h; simp only [PkAct.answer.injEq] at h; exact h304 _ _ h.2.1) _ rfl
      (hset _ _ _ _ hj (.inr (.inl ⟨_, rfl⟩))) (fun _ => hans _ _ _ _ hj (by simp))
  | notModified j x b order e t hj =>
    refine ⟨fun i o hm => ?_, fun hc i x' b' o hm => ?_, fun i x' b' o hm o' hm' => ?_⟩
    · have hm : PkAct.step i o ∈ h := by simpa using hm
      exact hset _ _ _ _ hj (.inr (.inl ⟨_, rfl⟩)) i o hm
    · rcases List.mem_append.mp hm with hm | hm
      · exact hans _ _ _ _ hj (by simp) i x' b' o hm
      · simp only [List.mem_singleton, PkAct.answer.injEq] at hm
        obtain ⟨rfl, _⟩ := hm
        exact ⟨_, by simp only; rw [List.getElem?_set_self (List.getElem?_eq_some_iff.mp hj).1], rfl⟩
    · have hm' : PkAct.step i o' ∈ h := by simpa using hm'
      rcases List.mem_append.mp hm with hm | hm
      · exact hinv.apart i x' b' o hm o' hm'
      · simp only [List.mem_singleton, PkAct.answer.injEq] at hm
        obtain ⟨rfl, _⟩ := hm
        obtain ⟨b, hb, h1, h2, h3⟩ := hinv.stepped i o' (by simpa using hm')
        rw [hj] at hb; simp only [Option.some.injEq] at hb; subst hb
        exact h2 _ rfl
  | crash304 j x b order e hj =>
    refine ⟨fun i o hm => ?_, fun hc => by simp at hc, fun i x' b' o hm o' hm' => ?_⟩
    · have hm : PkAct.step i o ∈ h := by simpa using hm
      exact hinv.stepped i o hm
    · have hm' : PkAct.step i o' ∈ h := by simpa using hm'
      rcases List.mem_append.mp hm with hm | hm
      · exact hinv.apart i x' b' o hm o' hm'
      · simp only [List.mem_singleton, PkAct.answer.injEq] at hm
        obtain ⟨rfl, _⟩ := hm
        obtain ⟨b, hb, h1, h2, h3⟩ := hinv.stepped i o' (by simpa using hm')
        rw [hj] at hb; simp only [Option.some.injEq] at hb; subst hb
        exact h2 _ rfl
  | crashNull j x b order e t hj hb => exact hold s.jobs true _ (by simp) (by simp) _ rfl hinv.stepped (fun h => by simp at h)
  | badKeys j x b order e t es err hj => exact hold _ false _ (by simp) (by simp) _ rfl (hset _ _ _ _ hj (.inr (.inl ⟨_, rfl⟩))) (fun _ => hans _ _ _ _ hj (by simp))
  | accept j x b order e t es cm hj => exact hold _ false _ (by simp) (by simp) _ rfl (hset _ _ _ _ hj (.inr (.inl ⟨_, rfl⟩))) (fun _ => hans _ _ _ _ hj (by simp))
  | store j order e cm k todo v hj => exact hstep _ _ _ _ _ _ hj rfl (by simp) (by simp)
  | stored j order e cm hj => exact hstep _ _ _ _ _ _ hj rfl (by simp) (by simp)
  | keep j order e cm k todo hj => exact hstep _ _ _ _ _ _ hj rfl (by simp) (by simp)
  | delete j order e cm k todo hj => exact hstep _ _ _ _ _ _ hj rfl (by simp) (by simp)
  | finish j order e cm hj => exact hstep _ _ _ _ _ _ hj rfl (by simp) (by simp)

/-! ### Honest servers -/

theorem honestRun_pkRun {cfg : PkCfg} {content : Env → Str → Str} {s0 s : PkState} {h : List ((Env → Str) × PkAct)}
    (hr : HonestRun cfg content s0 h s) : pkRun cfg s0 (h.map (·.2)) = some s := by
  induction hr with
  | nil => rfl
  | snoc cur a hr hs hh ih => rw [List.map_append, pkRun_append, ih]; simp [pkRun, hs]

/-- An executable version of `HonestAnswer`. -/
def honestOk (content : Env → Str → Str) (s : PkState) (cur : Env → Str) : PkAct → Bool
  | .answer j (.answer status x b) _ =>
    (status != 304 || requestTag s j == some (cur (jobEnv j))) &&
    (status != 200 || (b == content (jobEnv j) (cur (jobEnv j)) && (x == cur (jobEnv j) || x == [])))
  | _ => true

/-- An executable version of `HonestRun`. -/
def honestCheck (cfg : PkCfg) (content : Env → Str → Str) (s : PkState) : List ((Env → Str) × PkAct) → Option PkState
  | [] => some s
  | (cur, a) :: h =>
    if honestOk content s cur a then
      match pkStep cfg s a with
      | none => none
      | some s' => honestCheck cfg content s' h
    else none

theorem honestRun_of_check {cfg : PkCfg} {content : Env → Str → Str} {s0 s1 s : PkState} {h0 h : List ((Env → Str) × PkAct)}
    (h0r : HonestRun cfg content s0 h0 s1) (hc : honestCheck cfg content s1 h = some s) : HonestRun cfg content s0 (h0 ++ h) s := by
  induction h generalizing h0 s1 with
  | nil => simp only [honestCheck, Option.some.injEq] at hc; subst hc; simpa using h0r
  | cons p h ih =>
    obtain ⟨cur, a⟩ := p
    simp only [honestCheck] at hc
    split at hc
    · rename_i hok
      cases hs : pkStep cfg s1 a with
      | none => rw [hs] at hc; simp at hc
      | some s2 =>
        rw [hs] at hc
        have := ih (h0 := h0 ++ [(cur, a)]) (HonestRun.snoc cur a h0r hs ?_) hc
        · simpa using this
        · rintro j r o rfl
          cases r with
          | fail err => trivial
          | answer status x b =>
            simp only [honestOk, Bool.and_eq_true, Bool.or_eq_true, bne_iff_ne, ne_eq, beq_iff_eq] at hok
            refine ⟨fun h => hok.1.resolve_left (fun hn => hn h), fun h => hok.2.resolve_left (fun hn => hn h)⟩
    · simp at hc

/-! ### One job at a time against an honest server -/

/-- The keys in use are those of this body. -/
def Match (cfg : PkCfg) (e : Env) (s : PkState) (body : Str) : Prop :=
  ∃ es, cfg.decode body = some (some es) ∧ ∀ id, (s.keysOf e).load id = published cfg es id

def PkPc.applying : PkPc → Option (SMap SigVerifier)
  | .storing cm _ => some cm
  | .deleting cm _ => some cm
  | _ => none

def PkPc.active : PkPc → Bool
  | .sent _ => true
  | .storing _ _ => true
  | .deleting _ _ => true
  | _ => false

structure SeqInv (cfg : PkCfg) (content : Env → Str → Str) (s : PkState) : Prop where
  one : ∀ (i i' : Nat) (b b' : PkJob), s.jobs[i]? = some b → s.jobs[i']? = some b' → b.env = b'.env → b.pc.active = true → b'.pc.active = true → i = i'
  quiet : ∀ (e : Env) (ent : GEntry Str), (∀ (i : Nat) (b : PkJob), s.jobs[i]? = some b → b.env = e → b.pc.applying = none) →
    s.eTags e.name = some ent → Match cfg e s (content e ent.val)
  sent : ∀ (i : Nat) (e : Env) (t : Str), s.jobs[i]? = some ⟨e, .sent (some t)⟩ → Match cfg e s (content e t)
  app : ∀ (i : Nat) (b : PkJob) (cm : SMap SigVerifier), s.jobs[i]? = some b → b.pc.applying = some cm →
    ApplyInv b.env i cm s ∧ ∀ ent : GEntry Str, s.eTags b.env.name = some ent →
      ∃ es, cfg.decode (content b.env ent.val) = some (some es) ∧ ∀ id, cm.load id = published cfg es id

theorem name_inj {e e' : Env} (h : e.name = e'.name) : e = e' := by
  cases e <;> cases e' <;> first | rfl | (exact absurd h (by decide))

theorem tagged_other {cfg : PkCfg} {s : PkState} {e e' : Env} {x : Str} (h : e' ≠ e) : tagged cfg s e x e'.name = s.eTags e'.name := by
  unfold tagged
  split
  · rfl
  · simp only [Gache.set]
    rw [if_neg (fun hn => h (name_inj hn))]

theorem tagged_same {cfg : PkCfg} {s : PkState} {e : Env} {x : Str} (h : x ≠ []) :
    ∃ ent : GEntry Str, tagged cfg s e x e.name = some ent ∧ ent.val = x := by
  unfold tagged
  rw [if_neg h]
  exact ⟨_, by simp only [Gache.set, if_true]; rfl, rfl⟩

theorem gache_get_entry {g : Gache Str} {now : Int} {k v : Str} (h : g.get now k = some v) : ∃ ent : GEntry Str, g k = some ent ∧ ent.val = v := by
  unfold Gache.get at h
  split at h
  · simp at h
  · rename_i ent he
    split at h
    · simp only [Option.some.injEq] at h; exact ⟨ent, he, h⟩
    · simp at h

theorem seqInv_step {cfg : PkCfg} {content : Env → Str → Str} {s s' : PkState} {a : PkAct} {cur : Env → Str}
    (henv : ∀ (i : Nat) (b : PkJob), s.jobs[i]? = some b → b.env = jobEnv i)
    (hseq : ∀ j, a = .send j → ∀ (i : Nat) (b : PkJob), s.jobs[i]? = some b → b.env = jobEnv j → i ≠ j → b.pc = .start ∨ ∃ r, b.pc = .done r)
    (hh : ∀ j r o, a = .answer j r o → HonestAnswer (content (jobEnv j)) (cur (jobEnv j)) (requestTag s j) r)
    (hgood : ∀ j x b o, a = .answer j (.answer 200 x b) o → x ≠ [] ∧ ∃ es, cfg.decode b = some (some es) ∧ Complete cfg es)
    (hinv : SeqInv cfg content s) (hs : pkStep cfg s a = some s') : SeqInv cfg content s' := by
  -- the steps of the only applying job of a service
  have halone : ∀ (i : Nat) (b : PkJob) (cm : SMap SigVerifier), s.jobs[i]? = some b → b.pc.applying = some cm → ∀ k o, a = .step k o → jobEnv k = b.env → k = i := by
    intro i b cm hi hb k o ha hk
    subst ha
    have hact : ∃ bk : PkJob, s.jobs[k]? = some bk ∧ bk.pc.active = true := by
      cases pkStep_effect hs with
      | store _ _ e' cm k todo v hj hv => exact ⟨_, hj, rfl⟩
      | stored _ _ e' cm hj ho => exact ⟨_, hj, rfl⟩
      | keep _ _ e' cm k todo hj hv => exact ⟨_, hj, rfl⟩
      | delete _ _ e' cm k todo hj hv => exact ⟨_, hj, rfl⟩
      | finish _ _ e' cm hj => exact ⟨_, hj, rfl⟩
    obtain ⟨bk, hbk, hact⟩ := hact
    refine hinv.one k i bk b hbk hi ?_ hact ?_
    · rw [henv _ _ hbk, hk]
    · cases hpc : b.pc <;> rw [hpc] at hb <;> simp [PkPc.applying] at hb <;> rfl
  have happ : ∀ (i : Nat) (b : PkJob) (cm : SMap SigVerifier), s.jobs[i]? = some b → b.pc.applying = some cm → ApplyInv b.env i cm s' := by
    intro i b cm hi hb
    exact applyInv_step henv (henv _ _ hi).symm (fun k o ha hk => halone i b cm hi hb k o ha hk) (hinv.app i b cm hi hb).1 hs
  have hmatch : ∀ e body, s'.keysOf e = s.keysOf e → Match cfg e s body → Match cfg e s' body := by
    rintro e body hk ⟨es, h1, h2⟩; exact ⟨es, h1, fun id => by rw [hk]; exact h2 id⟩
  -- one job moves: what has to be shown
  have hmove : ∀ (j : Nat) (e : Env) (pc pc' : PkPc), s.jobs[j]? = some ⟨e, pc⟩ → s'.jobs = s.jobs.set j ⟨e, pc'⟩ → pc.active = true → 
      (∀ e', e' ≠ e → s'.keysOf e' = s.keysOf e' ∧ s'.eTags e'.name = s.eTags e'.name) →
      (pc'.applying = none → ∀ ent : GEntry Str, s'.eTags e.name = some ent → Match cfg e s' (content e ent.val)) →
      (∀ t, pc' = .sent t → False) →
      (∀ cm, pc'.applying = some cm → ApplyInv e j cm s' ∧ ∀ ent : GEntry Str, s'.eTags e.name = some ent →
        ∃ es, cfg.decode (content e ent.val) = some (some es) ∧ ∀ id, cm.load id = published cfg es id) →
      SeqInv cfg content s' := by
    intro j e pc pc' hj hjs hact hoth hq hsent hap
    refine ⟨?_, ?_, ?_, ?_⟩
    · intro i i' b b' hi hi' he hb hb'
      rw [hjs] at hi hi'
      rcases getElem?_set_cases' hi with ⟨rfl, rfl⟩ | ⟨hne, hi⟩ <;> rcases getElem?_set_cases' hi' with ⟨rfl, rfl⟩ | ⟨hne', hi'⟩
      · rfl
      · exact hinv.one _ _ _ _ hj hi' he hact hb'
      · exact hinv.one _ _ _ _ hi hj he hb hact
      · exact hinv.one _ _ _ _ hi hi' he hb hb'
    · intro e' ent hqu hent
      by_cases he : e' = e
      · subst he
        refine hq ?_ ent hent
        exact hqu j _ (by rw [hjs, List.getElem?_set_self (List.getElem?_eq_some_iff.mp hj).1]) rfl
      · obtain ⟨h1, h2⟩ := hoth e' he
        refine hmatch _ _ h1 (hinv.quiet e' ent ?_ (by rw [← h2]; exact hent))
        intro i b hi hb
        refine hqu i b ?_ hb
        rw [hjs, List.getElem?_set_ne]; exact hi
        rintro rfl
        rw [hj] at hi; simp only [Option.some.injEq] at hi; subst hi
        exact he hb.symm
    · intro i e' t hi
      rw [hjs] at hi
      rcases getElem?_set_cases' hi with ⟨_, heq⟩ | ⟨hne, hi⟩
      · simp only [PkJob.mk.injEq] at heq; exact absurd heq.2.symm (fun h => hsent _ h)
      · by_cases he : e' = e
        · exact absurd (hinv.one _ _ _ _ hi hj he rfl hact) (fun h => hne h.symm)
        · exact hmatch _ _ (hoth e' he).1 (hinv.sent i e' t hi)
    · intro i b cm hi hb
      rw [hjs] at hi
      rcases getElem?_set_cases' hi with ⟨rfl, rfl⟩ | ⟨hne, hi⟩
      · exact hap cm hb
      · refine ⟨happ i b cm hi hb, fun ent hent => ?_⟩
        by_cases he : b.env = e
        · have hbact : b.pc.active = true := by
            cases hpc : b.pc <;> rw [hpc] at hb <;> simp [PkPc.applying] at hb <;> rfl
          exact absurd (hinv.one _ _ _ _ hi hj he hbact hact) (fun h => hne h.symm)
        · rw [(hoth _ he).2] at hent
          exact (hinv.app i b cm hi hb).2 ent hent
  -- while the request of a job is under way, nothing of its service is being applied
  have hquiet : ∀ (j : Nat) (e : Env) (t : Option Str), s.jobs[j]? = some ⟨e, .sent t⟩ →
      ∀ (i : Nat) (b : PkJob), s.jobs[i]? = some b → b.env = e → b.pc.applying = none := by
    intro j e t hj i b hi he
    cases happ' : b.pc.applying with
    | none => rfl
    | some cm =>
      have hbact : b.pc.active = true := by
        cases hpc : b.pc <;> rw [hpc] at happ' <;> simp [PkPc.applying] at happ' <;> rfl
      have := hinv.one _ _ _ _ hi hj he hbact rfl
      subst this
      rw [hj] at hi; simp only [Option.some.injEq] at hi; subst hi
      simp [PkPc.applying] at happ'
  cases pkStep_effect hs with
  | tick d => exact ⟨hinv.one, fun e ent h1 h2 => hmatch _ _ (by simp) (hinv.quiet e ent h1 h2), fun i e t h => hmatch _ _ (by simp) (hinv.sent i e t h),
      fun i b cm h1 h2 => ⟨happ i b cm h1 h2, (hinv.app i b cm h1 h2).2⟩⟩
  | update =>
    refine ⟨?_, ?_, ?_, ?_⟩
    · intro i i' b b' hi hi' he hb hb'
      rcases jobs_append2 hi with hi | ⟨_, rfl⟩ | ⟨_, rfl⟩
      · rcases jobs_append2 hi' with hi' | ⟨_, rfl⟩ | ⟨_, rfl⟩
        · exact hinv.one _ _ _ _ hi hi' he hb hb'
        · simp [PkPc.active] at hb'
        · simp [PkPc.active] at hb'
      · simp [PkPc.active] at hb
      · simp [PkPc.active] at hb
    · intro e ent hq hent
      refine hmatch _ _ (by simp) (hinv.quiet e ent (fun i b hi hb => hq i b ?_ hb) hent)
      simp only
      rw [List.getElem?_append_left (List.getElem?_eq_some_iff.mp hi).1]; exact hi
    · intro i e t hi
      rcases jobs_append2 hi with hi | ⟨_, hi⟩ | ⟨_, hi⟩
      · exact hmatch _ _ (by simp) (hinv.sent i e t hi)
      · simp at hi
      · simp at hi
    · intro i b cm hi hb
      rcases jobs_append2 hi with hi | ⟨_, rfl⟩ | ⟨_, rfl⟩
      · exact ⟨happ i b cm hi hb, (hinv.app i b cm hi hb).2⟩
      · simp [PkPc.applying] at hb
      · simp [PkPc.applying] at hb
  | send j e hj =>
    have hidle : ∀ (i : Nat) (b : PkJob), s.jobs[i]? = some b → b.env = e → b.pc.active = false := by
      intro i b hi hb
      by_cases hij : i = j
      · subst hij
        rw [hj] at hi; simp only [Option.some.injEq] at hi; subst hi; rfl
      · rcases hseq j rfl i b hi (by rw [hb, ← henv _ _ hj]) hij with h | ⟨r, h⟩ <;> rw [h] <;> rfl
    have hidle' : ∀ (i : Nat) (b : PkJob), s.jobs[i]? = some b → b.env = e → b.pc.applying = none := by
      intro i b hi hb
      have := hidle i b hi hb
      cases hpc : b.pc <;> rw [hpc] at this <;> simp [PkPc.active] at this <;> rfl
    refine ⟨?_, ?_, ?_, ?_⟩
    · intro i i' b b' hi hi' he hb hb'
      rcases getElem?_set_cases' hi with ⟨rfl, rfl⟩ | ⟨hne, hi⟩ <;> rcases getElem?_set_cases' hi' with ⟨rfl, rfl⟩ | ⟨hne', hi'⟩
      · rfl
      · rw [hidle i' b' hi' he.symm] at hb'; simp at hb'
      · rw [hidle i b hi he] at hb; simp at hb
      · exact hinv.one _ _ _ _ hi hi' he hb hb'
    · intro e' ent hq hent
      refine hmatch _ _ (by simp) (hinv.quiet e' ent (fun i b hi hb => ?_) hent)
      by_cases hij : j = i
      · subst hij
        rw [hj] at hi; simp only [Option.some.injEq] at hi; subst hi; rfl
      · exact hq i b (by simp only; rw [List.getElem?_set_ne hij]; exact hi) hb
    · intro i e' t hi
      rcases getElem?_set_cases' hi with ⟨_, heq⟩ | ⟨hne, hi⟩
      · simp only [PkJob.mk.injEq, PkPc.sent.injEq] at heq
        obtain ⟨rfl, hget⟩ := heq
        obtain ⟨ent, hent, rfl⟩ := gache_get_entry hget.symm
        exact hmatch _ _ (by simp) (hinv.quiet _ ent hidle' hent)
      · exact hmatch _ _ (by simp) (hinv.sent i e' t hi)
    · intro i b cm hi hb
      rcases getElem?_set_cases' hi with ⟨rfl, rfl⟩ | ⟨hne, hi⟩
      · simp [PkPc.applying] at hb
      · exact ⟨happ i b cm hi hb, (hinv.app i b cm hi hb).2⟩
  | refused j r order e t err hj =>
    exact hmove j e _ _ hj rfl rfl (fun _ _ => ⟨by simp, rfl⟩) (fun _ ent hent => hmatch _ _ (by simp) (hinv.quiet e ent (hquiet j e t hj) hent)) (by simp)
      (by simp [PkPc.applying])
  | notModified j x b order e t hj =>
    exact hmove j e _ _ hj rfl rfl (fun _ _ => ⟨by simp, rfl⟩) (fun _ ent hent => hmatch _ _ (by simp) (hinv.quiet e ent (hquiet j e _ hj) hent)) (by simp)
      (by simp [PkPc.applying])
  | crash304 j x b order e hj =>
    exact ⟨hinv.one, fun e ent h1 h2 => hmatch _ _ (by simp) (hinv.quiet e ent h1 h2), fun i e t h => hmatch _ _ (by simp) (hinv.sent i e t h),
      fun i b cm h1 h2 => ⟨happ i b cm h1 h2, (hinv.app i b cm h1 h2).2⟩⟩
  | crashNull j x b order e t hj hb =>
    exfalso
    obtain ⟨_, es, hd, hc⟩ := hgood j x b order rfl
    rcases hb with hb | ⟨es', hb, hp⟩
    · rw [hb] at hd; simp at hd
    · rw [hb] at hd; simp only [Option.some.injEq] at hd; subst hd
      obtain ⟨pre, post, rfl, _⟩ := buildKeys_panic hp
      obtain ⟨q, hq, _⟩ := hc none (by simp)
      cases hq
  | badKeys j x b order e t es err hj hb hk =>
    exfalso
    obtain ⟨_, es', hd, hc⟩ := hgood j x b order rfl
    rw [hb] at hd; simp only [Option.some.injEq] at hd; subst hd
    exact (buildKeys_err hk).1 hc
  | accept j x b order e t es cm hj hb hk ho =>
    obtain ⟨hx, _⟩ := hgood j x b order rfl
    have hhon := hh j _ order rfl
    have hej : jobEnv j = e := (henv _ _ hj).symm
    rw [hej] at hhon
    obtain ⟨hbc, hxc⟩ := hhon.2 rfl
    have hxc := hxc.resolve_right hx
    refine hmove j e _ _ hj rfl rfl (fun e' he' => ⟨by simp, tagged_other he'⟩) (by simp [PkPc.applying]) (by simp) ?_
    intro cm' hcm
    simp only [PkPc.applying, Option.some.injEq] at hcm; subst hcm
    refine ⟨.inl ⟨order, by simp only; rw [List.getElem?_set_self (List.getElem?_eq_some_iff.mp hj).1], fun id h1 h2 => ?_⟩, fun ent hent => ?_⟩
    · exact absurd (ho.mem_iff.mpr (SMap.mem_keys.mpr h1)) h2
    · obtain ⟨ent', h1, h2⟩ := tagged_same (cfg := cfg) (s := s) (e := e) hx
      simp only [h1, Option.some.injEq] at hent; subst hent
      refine ⟨es, ?_, (buildKeys_ok hk).2⟩
      rw [h2, hxc, ← hbc]; exact hb
  | store j order e cm k todo v hj hv =>
    refine hmove j e _ _ hj rfl rfl (fun e' he' => ⟨by rw [keysOf_setKeys_jobs, if_neg he'], by simp only [setKeys_eTags]⟩) (by simp [PkPc.applying]) (by simp) ?_
    intro cm' hcm
    simp only [PkPc.applying, Option.some.injEq] at hcm; subst hcm
    refine ⟨happ j _ cm hj rfl, ?_⟩
    intro ent hent
    simp only [setKeys_eTags] at hent
    exact (hinv.app j _ cm hj rfl).2 ent hent
  | stored j order e cm hj ho =>
    refine hmove j e _ _ hj rfl rfl (fun e' he' => ⟨by simp, rfl⟩) (by simp [PkPc.applying]) (by simp) ?_
    intro cm' hcm
    simp only [PkPc.applying, Option.some.injEq] at hcm; subst hcm
    exact ⟨happ j _ cm hj rfl, (hinv.app j _ cm hj rfl).2⟩
  | keep j order e cm k todo hj hv =>
    refine hmove j e _ _ hj rfl rfl (fun e' he' => ⟨by simp, rfl⟩) (by simp [PkPc.applying]) (by simp) ?_
    intro cm' hcm
    simp only [PkPc.applying, Option.some.injEq] at hcm; subst hcm
    exact ⟨happ j _ cm hj rfl, (hinv.app j _ cm hj rfl).2⟩
  | delete j order e cm k todo hj hv =>
    refine hmove j e _ _ hj rfl rfl (fun e' he' => ⟨by rw [keysOf_setKeys_jobs, if_neg he'], by simp only [setKeys_eTags]⟩) (by simp [PkPc.applying]) (by simp) ?_
    intro cm' hcm
    simp only [PkPc.applying, Option.some.injEq] at hcm; subst hcm
    refine ⟨happ j _ cm hj rfl, ?_⟩
    intro ent hent
    simp only [setKeys_eTags] at hent
    exact (hinv.app j _ cm hj rfl).2 ent hent
  | finish j order e cm hj =>
    refine hmove j e _ _ hj rfl rfl (fun e' he' => ⟨by simp, rfl⟩) (fun _ ent hent => ?_) (by simp) (by simp [PkPc.applying])
    obtain ⟨es, h1, h2⟩ := (hinv.app j _ cm hj rfl).2 ent hent
    refine ⟨es, h1, fun id => ?_⟩
    rcases happ j _ cm hj rfl with ⟨todo', h, _⟩ | ⟨todo', h, _⟩ | ⟨_, h⟩
    · simp only at h; rw [List.getElem?_set_self (List.getElem?_eq_some_iff.mp hj).1] at h; simp at h
    · simp only at h; rw [List.getElem?_set_self (List.getElem?_eq_some_iff.mp hj).1] at h; simp at h
    · rw [h id]; exact h2 id

theorem seqInv_run {cfg : PkCfg} {content : Env → Str → Str} {now : Int} {h : List ((Env → Str) × PkAct)} {s : PkState}
    (hr : HonestRun cfg content (pkInit now) h s) (hseq : Sequential cfg (pkInit now) (h.map (·.2)))
    (hgood : ∀ j x b o, PkAct.answer j (.answer 200 x b) o ∈ h.map (·.2) → x ≠ [] ∧ ∃ es, cfg.decode b = some (some es) ∧ Complete cfg es) :
    SeqInv cfg content s := by
  induction hr with
  | nil =>
    refine ⟨?_, ?_, ?_, ?_⟩ <;> simp [pkInit, Gache.empty]
  | @snoc h s s' cur a hr hs hh ih =>
    have hrun := honestRun_pkRun hr
    simp only [List.map_append, List.map_cons, List.map_nil] at hseq hgood
    refine seqInv_step (cur := cur) (jobs_env hrun).2 ?_ hh ?_ (ih ?_ ?_) hs
    · rintro j rfl
      exact hseq (h.map (·.2)) j [] s rfl hrun
    · rintro j x b o rfl
      exact hgood j x b o (by simp)
    · intro pre j post s1 heq h1
      exact hseq pre j (post ++ [a]) s1 (by rw [heq]; simp) h1
    · intro j x b o hm
      exact hgood j x b o (List.mem_append_left _ hm)

/-- A finished job stays as it is. -/
theorem done_run {cfg : PkCfg} {s0 s : PkState} {h : List PkAct} {j : Nat} {e : Env} {r : Option Err} (hr : pkRun cfg s0 h = some s)
    (hj : s0.jobs[j]? = some ⟨e, .done r⟩) : s.jobs[j]? = some ⟨e, .done r⟩ := by
  refine pkRun_ind (cfg := cfg) (s0 := s0) (fun _ s => s.jobs[j]? = some ⟨e, .done r⟩) hj ?_ h s hr
  intro h t a t' ht _ hs
  have hne : ∀ (i : Nat) (b' b'' : PkJob), t.jobs[i]? = some b' → (∀ r, b'.pc ≠ .done r) → (t.jobs.set i b'')[j]? = some ⟨e, .done r⟩ := by
    intro i b' b'' hi hpc
    have : i ≠ j := by rintro rfl; rw [hi] at ht; simp only [Option.some.injEq] at ht; subst ht; exact hpc r rfl
    rw [List.getElem?_set_ne this]; exact ht
  cases pkStep_effect hs with
  | tick d => exact ht
  | update => simp only; rw [List.getElem?_append_left (List.getElem?_eq_some_iff.mp ht).1]; exact ht
  | send i e' hi => exact hne _ _ _ hi (by simp)
  | refused i _ _ _ _ _ hi => exact hne _ _ _ hi (by simp)
  | notModified i _ _ _ _ _ hi => exact hne _ _ _ hi (by simp)
  | crash304 i _ _ _ _ hi => exact ht
  | crashNull i _ _ _ _ _ hi => exact ht
  | badKeys i _ _ _ _ _ _ _ hi => exact hne _ _ _ hi (by simp)
  | accept i _ _ _ _ _ _ _ hi => exact hne _ _ _ hi (by simp)
  | store i _ _ _ _ _ _ hi => exact hne _ _ _ hi (by simp)
  | stored i _ _ _ hi => exact hne _ _ _ hi (by simp)
  | keep i _ _ _ _ _ hi => exact hne _ _ _ hi (by simp)
  | delete i _ _ _ _ _ hi => exact hne _ _ _ hi (by simp)
  | finish i _ _ _ hi => exact hne _ _ _ hi (by simp)

/-- The position of a job before its request and after its end. -/
def PkPc.idle : PkPc → Bool
  | .start => true
  | .done _ => true
  | _ => false

/-- An executable version of `Sequential`. -/
def seqCheck (cfg : PkCfg) (s : PkState) : List PkAct → Bool
  | [] => true
  | a :: h =>
    (match a with
     | .send j => (List.range s.jobs.length).all fun i => i == j || (match s.jobs[i]? with
        | some b => b.pc.idle || decide (b.env ≠ jobEnv j)
        | none => true)
     | _ => true) && (match pkStep cfg s a with
     | none => true
     | some s' => seqCheck cfg s' h)

theorem sequential_of_check {cfg : PkCfg} {s : PkState} {h : List PkAct} (hc : seqCheck cfg s h = true) : Sequential cfg s h := by
  induction h generalizing s with
  | nil => intro pre j post s1 heq; simp at heq
  | cons a h ih =>
    simp only [seqCheck, Bool.and_eq_true] at hc
    intro pre j post s1 heq h1 i b hi he hne
    cases pre with
    | nil =>
      simp only [List.nil_append, List.cons.injEq] at heq
      obtain ⟨rfl, rfl⟩ := heq
      simp only [pkRun, Option.some.injEq] at h1; subst h1
      have h2 := List.all_eq_true.mp hc.1 i (List.mem_range.mpr (List.getElem?_eq_some_iff.mp hi).1)
      simp only [hi, Bool.or_eq_true, beq_iff_eq, decide_eq_true_eq] at h2
      rcases h2 with h2 | h2 | h2
      · exact absurd h2 hne
      · cases hpc : b.pc <;> rw [hpc] at h2 <;> simp [PkPc.idle] at h2 ⊢
      · exact absurd he h2
    | cons a' pre =>
      simp only [List.cons_append, List.cons.injEq] at heq
      obtain ⟨rfl, rfl⟩ := heq
      simp only [pkRun] at h1
      cases hs : pkStep cfg s a with
      | none => rw [hs] at h1; simp at h1
      | some s2 =>
        rw [hs] at h1
        have hc2 := hc.2
        rw [hs] at hc2
        exact ih hc2 pre j post s1 rfl h1 i b hi he hne

end Athenz
