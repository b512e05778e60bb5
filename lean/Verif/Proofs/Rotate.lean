import Verif.Spec.Rotate
import Verif.Proofs.Pubkeyd

/-! Goroutines of the public key daemon end, and what they leave behind. -/

namespace Athenz
open Spec

/-! ### Executions -/

theorem Spec.PkExec.run {cfg : PkCfg} {now : Int} (x : PkExec cfg now) (n : Nat) : pkRun cfg (pkInit now) (x.hist n) = some (x.state n) := by
  induction n with
  | zero => simp only [PkExec.hist, List.range_zero, List.map_nil, pkRun, x.init]
  | succ n ih =>
    have : x.hist (n + 1) = x.hist n ++ [x.act n] := by simp [PkExec.hist, List.range_succ]
    rw [this, pkRun_append, ih]
    simp only [Option.bind_some, pkRun, x.next n]

theorem Spec.PkExec.env {cfg : PkCfg} {now : Int} (x : PkExec cfg now) (n : Nat) : ∀ (i : Nat) (b : PkJob), (x.state n).jobs[i]? = some b → b.env = jobEnv i :=
  (jobs_env (x.run n)).2

theorem Spec.PkExec.alive {cfg : PkCfg} {now : Int} (x : PkExec cfg now) (n : Nat) : (x.state n).crashed = false := pkStep_crashed (x.next n)

/-- Induction along an execution, from some moment on. -/
theorem from_ind {P : Nat → Prop} {n0 : Nat} (h0 : P n0) (hstep : ∀ n, n0 ≤ n → P n → P (n + 1)) : ∀ n, n0 ≤ n → P n := by
  intro n hn
  induction hn with
  | refl => exact h0
  | step h ih => exact hstep _ h ih

theorem provider_eq (s : PkState) (e : Env) (id : Str) : s.provider e id = (s.keysOf e).load id := by
  cases e
  · simp [PkState.provider, PkState.getPubKey, PkState.keysOf]
  · have : Env.zms.name ≠ Env.zts.name := by decide
    simp [PkState.provider, PkState.getPubKey, PkState.keysOf, this]

/-! ### Goroutines end -/

/-- How much a goroutine has before it: phases, and what is left of the current one. -/
def PkPc.rank : PkPc → Nat × Nat
  | .start => (4, 0)
  | .sent _ => (3, 0)
  | .storing _ todo => (2, todo.length)
  | .deleting _ todo => (1, todo.length)
  | .done _ => (0, 0)

def rankLt : Nat × Nat → Nat × Nat → Prop := Prod.Lex (· < ·) (· < ·)

theorem rankLt_wf : WellFounded rankLt := (Prod.lex Nat.lt_wfRel Nat.lt_wfRel).wf

theorem rankLt_trans {a b c : Nat × Nat} (h1 : rankLt a b) (h2 : rankLt b c) : rankLt a c := by
  obtain ⟨a1, a2⟩ := a; obtain ⟨b1, b2⟩ := b; obtain ⟨c1, c2⟩ := c
  simp only [rankLt, Prod.lex_def] at *
  omega

/-- A step keeps every goroutine where it is, except the one whose step it is, which comes nearer to its end. -/
theorem job_step {cfg : PkCfg} {s s' : PkState} {a : PkAct} {j : Nat} {b : PkJob} (hs : pkStep cfg s a = some s') (hc : s'.crashed = false)
    (hj : s.jobs[j]? = some b) :
    ∃ b', s'.jobs[j]? = some b' ∧ b'.env = b.env ∧ ((¬ OfJob j a ∧ b' = b) ∨ (OfJob j a ∧ rankLt b'.pc.rank b.pc.rank)) := by
  have hl : j < s.jobs.length := (List.getElem?_eq_some_iff.mp hj).1
  have hset : ∀ (i : Nat) (e : Env) (pc pc' : PkPc), jobOf a = some i → s.jobs[i]? = some ⟨e, pc⟩ → rankLt pc'.rank pc.rank →
      ∃ b', (s.jobs.set i ⟨e, pc'⟩)[j]? = some b' ∧ b'.env = b.env ∧ ((¬ OfJob j a ∧ b' = b) ∨ (OfJob j a ∧ rankLt b'.pc.rank b.pc.rank)) := by
    intro i e pc pc' ha hi hlt
    by_cases hij : i = j
    · subst hij
      rw [hi] at hj
      simp only [Option.some.injEq] at hj
      subst hj
      exact ⟨_, List.getElem?_set_self hl, rfl, .inr ⟨ha, hlt⟩⟩
    · refine ⟨b, by rw [List.getElem?_set_ne hij]; exact hj, rfl, .inl ⟨?_, rfl⟩⟩
      intro h
      rw [OfJob, ha] at h
      exact hij (by simpa using h)
  cases pkStep_effect hs with
  | tick d => exact ⟨b, hj, rfl, .inl ⟨by simp [OfJob, jobOf], rfl⟩⟩
  | update => exact ⟨b, by simp only; rw [List.getElem?_append_left hl]; exact hj, rfl, .inl ⟨by simp [OfJob, jobOf], rfl⟩⟩
  | send i e hi => exact hset _ _ _ _ rfl hi (by simp [rankLt, Prod.lex_def, PkPc.rank])
  | refused i r order e t err hi => exact hset _ _ _ _ rfl hi (by simp [rankLt, Prod.lex_def, PkPc.rank])
  | notModified i x b' order e t hi => exact hset _ _ _ _ rfl hi (by simp [rankLt, Prod.lex_def, PkPc.rank])
  | crash304 => simp at hc
  | crashNull => simp at hc
  | badKeys i x b' order e t es err hi => exact hset _ _ _ _ rfl hi (by simp [rankLt, Prod.lex_def, PkPc.rank])
  | accept i x b' order e t es cm hi => exact hset _ _ _ _ rfl hi (by simp [rankLt, Prod.lex_def, PkPc.rank])
  | store i order e cm k todo v hi => exact hset _ _ _ _ rfl hi (by simp [rankLt, Prod.lex_def, PkPc.rank])
  | stored i order e cm hi => exact hset _ _ _ _ rfl hi (by simp [rankLt, Prod.lex_def, PkPc.rank])
  | keep i order e cm k todo hi => exact hset _ _ _ _ rfl hi (by simp [rankLt, Prod.lex_def, PkPc.rank])
  | delete i order e cm k todo hi => exact hset _ _ _ _ rfl hi (by simp [rankLt, Prod.lex_def, PkPc.rank])
  | finish i order e cm hi => exact hset _ _ _ _ rfl hi (by simp [rankLt, Prod.lex_def, PkPc.rank])

/-- A goroutine was there before the step, or begins with it. -/
theorem job_born {cfg : PkCfg} {s s' : PkState} {a : PkAct} {j : Nat} {b' : PkJob} (hs : pkStep cfg s a = some s') (hj : s'.jobs[j]? = some b') :
    (∃ b, s.jobs[j]? = some b) ∨ (s.jobs.length ≤ j ∧ b'.pc = .start) := by
  have hset : ∀ (i : Nat) (b : PkJob), (s.jobs.set i b)[j]? = some b' → ∃ b, s.jobs[j]? = some b := by
    intro i b h
    have := (List.getElem?_eq_some_iff.mp h).1
    rw [List.length_set] at this
    exact ⟨_, List.getElem?_eq_getElem this⟩
  cases pkStep_effect hs with
  | update =>
    simp only at hj
    by_cases hl : j < s.jobs.length
    · exact .inl ⟨_, List.getElem?_eq_getElem hl⟩
    · refine .inr ⟨by omega, ?_⟩
      rw [List.getElem?_append_right (by omega)] at hj
      have hm := List.mem_of_getElem? hj
      simp only [List.mem_cons, List.not_mem_nil, or_false] at hm
      rcases hm with rfl | rfl <;> rfl
  | tick => exact .inl ⟨b', hj⟩
  | crash304 => exact .inl ⟨b', hj⟩
  | crashNull => exact .inl ⟨b', hj⟩
  | _ => exact .inl (hset _ _ hj)

/-- The ids that a goroutine is still to store are ids of its list. -/
def TodoOk (s : PkState) : Prop :=
  ∀ (i : Nat) (e : Env) (cm : SMap SigVerifier) (todo : List Str), s.jobs[i]? = some ⟨e, .storing cm todo⟩ → ∀ k ∈ todo, (cm.load k).isSome

theorem todoOk_step {cfg : PkCfg} {s s' : PkState} {a : PkAct} (hs : pkStep cfg s a = some s') (h : TodoOk s) : TodoOk s' := by
  have hset : ∀ (i : Nat) (b : PkJob), (∀ e cm todo, b = ⟨e, .storing cm todo⟩ → ∀ k ∈ todo, (cm.load k).isSome) →
      ∀ (i' : Nat) (e : Env) (cm : SMap SigVerifier) (todo : List Str), (s.jobs.set i b)[i']? = some ⟨e, .storing cm todo⟩ →
        ∀ k ∈ todo, (cm.load k).isSome := by
    intro i b hb i' e cm todo hi'
    rw [List.getElem?_set] at hi'
    by_cases hii : i = i'
    · rw [if_pos hii] at hi'
      split at hi'
      · simp only [Option.some.injEq] at hi'; exact hb _ _ _ hi'
      · simp at hi'
    · rw [if_neg hii] at hi'
      exact h _ _ _ _ hi'
  cases pkStep_effect hs with
  | tick => exact h
  | update =>
    intro i e cm todo hi
    simp only at hi
    rcases jobs_append2 hi with hi | hi
    · exact h _ _ _ _ hi
    · simp at hi
  | crash304 => exact h
  | crashNull => exact h
  | accept i x b' order e t es cm hi hb hk ho =>
    refine hset _ _ ?_
    rintro e' cm' todo' heq k hk'
    simp only [PkJob.mk.injEq, PkPc.storing.injEq] at heq
    obtain ⟨_, rfl, rfl⟩ := heq
    exact SMap.mem_keys.mp (ho.subset hk')
  | store i order e cm k todo v hi =>
    refine hset _ _ ?_
    rintro e' cm' todo' heq k' hk'
    simp only [PkJob.mk.injEq, PkPc.storing.injEq] at heq
    obtain ⟨_, rfl, rfl⟩ := heq
    exact h _ _ _ _ hi k' (by simp [hk'])
  | _ => exact hset _ _ (by simp)

theorem Spec.PkExec.todoOk {cfg : PkCfg} {now : Int} (x : PkExec cfg now) (n : Nat) : TodoOk (x.state n) :=
  from_ind (P := fun n => TodoOk (x.state n)) (by rw [x.init]; intro i; simp [pkInit]) (fun n _ h => todoOk_step (x.next n) h) n (Nat.zero_le n)

/-- A goroutine that is not at its end can go on. -/
theorem job_enabled {cfg : PkCfg} {s : PkState} {j : Nat} {b : PkJob} (hc : s.crashed = false) (hto : TodoOk s) (hj : s.jobs[j]? = some b)
    (hnd : ∀ r, b.pc ≠ .done r) : ∃ a, OfJob j a ∧ (pkStep cfg s a).isSome := by
  obtain ⟨e, pc⟩ := b
  cases pc with
  | start => exact ⟨.send j, rfl, by simp [pkStep, hc, hj]⟩
  | sent t => exact ⟨.answer j (.fail (.other "")) [], rfl, by simp [pkStep, hc, hj]⟩
  | storing cm todo =>
    cases todo with
    | nil => exact ⟨.step j (s.keysOf e).keys, rfl, by simp [pkStep, hc, hj]⟩
    | cons k todo =>
      obtain ⟨v, hv⟩ := Option.isSome_iff_exists.mp (hto _ _ _ _ hj k (by simp))
      exact ⟨.step j [], rfl, by simp [pkStep, hc, hj, hv]⟩
  | deleting cm todo =>
    cases todo with
    | nil => exact ⟨.step j [], rfl, by simp [pkStep, hc, hj]⟩
    | cons k todo =>
      refine ⟨.step j [], rfl, ?_⟩
      cases hv : cm.load k <;> simp [pkStep, hc, hj, hv]
  | done r => exact absurd rfl (hnd r)

/-- Along an execution a goroutine never gets away from its end, and stays where it is as long as it does nothing. -/
theorem job_from {cfg : PkCfg} {now : Int} (x : PkExec cfg now) {n j : Nat} {b : PkJob} (hj : (x.state n).jobs[j]? = some b) :
    ∀ m, n ≤ m → ∃ b', (x.state m).jobs[j]? = some b' ∧ b'.env = b.env ∧ (b' = b ∨ rankLt b'.pc.rank b.pc.rank) ∧
      ((∀ k, n ≤ k → k < m → ¬ OfJob j (x.act k)) → b' = b) := by
  refine from_ind ⟨b, hj, rfl, .inl rfl, fun _ => rfl⟩ ?_
  rintro m hm ⟨b', h1, h2, h3, h4⟩
  obtain ⟨b2, g1, g2, g3⟩ := job_step (x.next m) (x.alive (m + 1)) h1
  refine ⟨b2, g1, g2.trans h2, ?_, ?_⟩
  · rcases g3 with ⟨_, rfl⟩ | ⟨_, hlt⟩
    · exact h3
    · rcases h3 with rfl | h3
      · exact .inr hlt
      · exact .inr (rankLt_trans hlt h3)
  · intro hno
    have := h4 fun k h1 h2 => hno k h1 (by omega)
    rcases g3 with ⟨_, rfl⟩ | ⟨ho, _⟩
    · exact this
    · exact absurd ho (hno m hm (by omega))

theorem done_from {cfg : PkCfg} {now : Int} (x : PkExec cfg now) {n m j : Nat} {b : PkJob} (hj : (x.state n).jobs[j]? = some b) (hd : ∃ r, b.pc = .done r)
    (hm : n ≤ m) : (x.state m).jobs[j]? = some b := by
  obtain ⟨b', h1, _, h3, _⟩ := job_from x hj m hm
  rcases h3 with rfl | h3
  · exact h1
  · obtain ⟨r, hr⟩ := hd
    rw [hr] at h3
    simp [rankLt, Prod.lex_def, PkPc.rank] at h3

/-- Every goroutine comes to its end. -/
theorem job_ends {cfg : PkCfg} {now : Int} (x : PkExec cfg now) (hf : PkFair x) (j : Nat) : ∀ (n : Nat) (b : PkJob), (x.state n).jobs[j]? = some b →
    ∃ m b', n ≤ m ∧ (x.state m).jobs[j]? = some b' ∧ b'.env = b.env ∧ ∃ r, b'.pc = .done r := by
  intro n b
  generalize hr : b.pc.rank = r
  induction r using rankLt_wf.induction generalizing n b with
  | _ r ih =>
    intro hj
    by_cases hd : ∃ r, b.pc = .done r
    · exact ⟨n, b, Nat.le_refl n, hj, rfl, hd⟩
    have hnd : ∀ r, b.pc ≠ .done r := fun r h => hd ⟨r, h⟩
    have : ∃ m, n ≤ m ∧ OfJob j (x.act m) := by
      refine Classical.byContradiction fun hno => ?_
      have hno' : ∀ k, n ≤ k → ¬ OfJob j (x.act k) := fun k hk h => hno ⟨k, hk, h⟩
      refine hno (hf j n fun m hm => ?_)
      obtain ⟨b', h1, _, _, h4⟩ := job_from x hj m hm
      rw [h4 fun k hk _ => hno' k hk] at h1
      exact job_enabled (x.alive m) (x.todoOk m) h1 hnd
    obtain ⟨m, hm, ho⟩ := this
    obtain ⟨b1, h1, h2, h3, _⟩ := job_from x hj m hm
    obtain ⟨b2, g1, g2, g3⟩ := job_step (x.next m) (x.alive (m + 1)) h1
    rcases g3 with ⟨h, _⟩ | ⟨_, hlt⟩
    · exact absurd ho h
    have hlt' : rankLt b2.pc.rank r := by
      rw [← hr]
      rcases h3 with rfl | h3
      · exact hlt
      · exact rankLt_trans hlt h3
    obtain ⟨m', b', k1, k2, k3, k4⟩ := ih _ hlt' (m + 1) b2 rfl g1
    exact ⟨m', b', by omega, k2, by rw [k3, g2, h2], k4⟩

/-- The updates that have begun come to an end. -/
theorem over_exists {cfg : PkCfg} {now : Int} (x : PkExec cfg now) (hf : PkFair x) (N : Nat) (e : Env) : ∃ M, Over x N M e := by
  have : ∀ l, l ≤ (x.state N).jobs.length → ∃ M, N ≤ M ∧ ∀ (j : Nat), j < l → ∃ b : PkJob, (x.state M).jobs[j]? = some b ∧ ∃ r, b.pc = .done r := by
    intro l
    induction l with
    | zero => exact fun _ => ⟨N, Nat.le_refl N, by simp⟩
    | succ l ih =>
      intro hl
      obtain ⟨M, hM, h⟩ := ih (by omega)
      obtain ⟨m, b', h1, h2, _, h4⟩ := job_ends x hf l N _ (List.getElem?_eq_getElem (by omega))
      refine ⟨M + m, by omega, fun j hj => ?_⟩
      by_cases hjl : j = l
      · subst hjl
        exact ⟨b', done_from x h2 h4 (by omega), h4⟩
      · obtain ⟨b, hb, hd⟩ := h j (by omega)
        exact ⟨b, done_from x hb hd (by omega), hd⟩
  obtain ⟨M, hM, h⟩ := this _ (Nat.le_refl _)
  refine ⟨M, hM, fun j b hj hb _ => ?_⟩
  obtain ⟨b2, h2, hd⟩ := h j hj
  rw [hb] at h2
  simp only [Option.some.injEq] at h2
  subst h2; exact hd

theorem over_later {cfg : PkCfg} {now : Int} (x : PkExec cfg now) {N M M' : Nat} {e : Env} (h : Over x N M e) (hm : M ≤ M') : Over x N M' e := by
  refine ⟨Nat.le_trans h.1 hm, fun j b hj hb he => ?_⟩
  obtain ⟨b0, hb0, he0, _, _⟩ := job_from x (List.getElem?_eq_getElem hj) M h.1
  obtain ⟨b1, hb1, he1, _, _⟩ := job_from x hb0 M' hm
  rw [hb] at hb1
  simp only [Option.some.injEq] at hb1
  subst hb1
  have hd := h.2 j b0 hj hb0 (by rw [← he1]; exact he)
  have := done_from x hb0 hd hm
  rw [hb] at this
  simp only [Option.some.injEq] at this
  subst this; exact hd

/-! ### What goroutines with the same list leave behind -/

/-- Every goroutine of `e` that is applying a list applies one that publishes `K`. -/
def AllApply (s : PkState) (e : Env) (K : Str → Option SigVerifier) : Prop :=
  ∀ (i : Nat) (b : PkJob) (cm : SMap SigVerifier), s.jobs[i]? = some b → b.env = e → b.pc.applying = some cm → ∀ id, cm.load id = K id

/-- A step changes a key only to what `K` says. -/
theorem keys_towards {cfg : PkCfg} {s s' : PkState} {a : PkAct} {e : Env} {K : Str → Option SigVerifier} (hs : pkStep cfg s a = some s')
    (hall : AllApply s e K) (id : Str) : (s'.keysOf e).load id = (s.keysOf e).load id ∨ (s'.keysOf e).load id = K id := by
  cases pkStep_effect hs with
  | store i order e' cm k todo v hi hv =>
    rw [keysOf_setKeys_jobs]
    by_cases he : e = e'
    · subst he
      rw [if_pos rfl, SMap.load_store]
      by_cases hid : id = k
      · subst hid
        right
        simp only [if_true]
        rw [← hall _ _ _ hi rfl rfl id, hv]
      · simp [hid]
    · rw [if_neg he]; exact .inl rfl
  | delete i order e' cm k todo hi hv =>
    rw [keysOf_setKeys_jobs]
    by_cases he : e = e'
    · subst he
      rw [if_pos rfl, SMap.load_delete]
      by_cases hid : id = k
      · subst hid
        right
        simp only [if_true]
        rw [← hall _ _ _ hi rfl rfl id, hv]
      · simp [hid]
    · rw [if_neg he]; exact .inl rfl
  | _ => left; simp

theorem inUse_step {cfg : PkCfg} {s s' : PkState} {a : PkAct} {e : Env} {K : Str → Option SigVerifier} (hs : pkStep cfg s a = some s')
    (hall : AllApply s e K) (h : InUse s e K) : InUse s' e K := by
  intro id
  have := h id
  rw [provider_eq] at this ⊢
  rcases keys_towards hs hall id with h1 | h1
  · rw [h1, this]
  · exact h1

/-- How far goroutine `j` of service `e` has come with a list that publishes `K`. -/
def Applied (s : PkState) (e : Env) (j : Nat) (K : Str → Option SigVerifier) : Prop :=
  (∃ cm todo, s.jobs[j]? = some ⟨e, .storing cm todo⟩ ∧ (∀ id, cm.load id = K id) ∧ ∀ id, (K id).isSome → id ∉ todo → (s.keysOf e).load id = K id) ∨
  (∃ cm todo, s.jobs[j]? = some ⟨e, .deleting cm todo⟩ ∧ (∀ id, cm.load id = K id) ∧ (∀ id, (K id).isSome → (s.keysOf e).load id = K id) ∧
    ∀ id, K id = none → id ∉ todo → (s.keysOf e).load id = none)

theorem applied_applying {s : PkState} {e : Env} {j : Nat} {K : Str → Option SigVerifier} (h : Applied s e j K) :
    ∃ b cm, s.jobs[j]? = some b ∧ b.env = e ∧ b.pc.applying = some cm ∧ ∀ id, cm.load id = K id := by
  rcases h with ⟨cm, todo, h1, h2, _⟩ | ⟨cm, todo, h1, h2, _⟩
  · exact ⟨_, cm, h1, rfl, rfl, h2⟩
  · exact ⟨_, cm, h1, rfl, rfl, h2⟩

/-- A goroutine that applies `K` among goroutines that apply `K` goes on applying it, or has brought `K` into use. -/
theorem applied_step {cfg : PkCfg} {s s' : PkState} {a : PkAct} {e : Env} {j : Nat} {K : Str → Option SigVerifier} (hs : pkStep cfg s a = some s')
    (hc : s'.crashed = false) (hall : AllApply s e K) (h : Applied s e j K) :
    Applied s' e j K ∨ (s'.jobs[j]? = some ⟨e, .done none⟩ ∧ InUse s' e K) := by
  have htow := keys_towards hs hall
  have hkeep1 : ∀ id, (s.keysOf e).load id = K id → (s'.keysOf e).load id = K id := by
    intro id h1; rcases htow id with h2 | h2
    · rw [h2, h1]
    · exact h2
  -- other goroutines move
  have hsame : s'.jobs[j]? = s.jobs[j]? → Applied s' e j K := by
    intro hj
    rcases h with ⟨cm, todo, h1, h2, h3⟩ | ⟨cm, todo, h1, h2, h3, h4⟩
    · exact .inl ⟨cm, todo, by rw [hj]; exact h1, h2, fun id g1 g2 => hkeep1 id (h3 id g1 g2)⟩
    · refine .inr ⟨cm, todo, by rw [hj]; exact h1, h2, fun id g1 => hkeep1 id (h3 id g1), fun id g1 g2 => ?_⟩
      have := hkeep1 id (by rw [h4 id g1 g2, g1])
      rw [this, g1]
  obtain ⟨b, cm0, hb, hbe, hba, hcm0⟩ := applied_applying h
  have hl : j < s.jobs.length := (List.getElem?_eq_some_iff.mp hb).1
  by_cases hof : OfJob j a
  · have hset : ∀ (b : PkJob), (s.jobs.set j b)[j]? = some b := fun b => by rw [List.getElem?_set_self hl]
    cases hE : pkStep_effect hs with
    | tick d => simp [OfJob, jobOf] at hof
    | update => simp [OfJob, jobOf] at hof
    | send i e' hi => simp only [OfJob, jobOf, Option.some.injEq] at hof; subst hof; rw [hi] at hb; cases hb; simp [PkPc.applying] at hba
    | refused i r order e' t err hi => simp only [OfJob, jobOf, Option.some.injEq] at hof; subst hof; rw [hi] at hb; cases hb; simp [PkPc.applying] at hba
    | notModified i x b' order e' t hi => simp only [OfJob, jobOf, Option.some.injEq] at hof; subst hof; rw [hi] at hb; cases hb; simp [PkPc.applying] at hba
    | crash304 => simp at hc
    | crashNull => simp at hc
    | badKeys i x b' order e' t es err hi => simp only [OfJob, jobOf, Option.some.injEq] at hof; subst hof; rw [hi] at hb; cases hb; simp [PkPc.applying] at hba
    | accept i x b' order e' t es cm hi => simp only [OfJob, jobOf, Option.some.injEq] at hof; subst hof; rw [hi] at hb; cases hb; simp [PkPc.applying] at hba
    | store i order e' cm k todo v hi hv =>
      simp only [OfJob, jobOf, Option.some.injEq] at hof; subst hof
      rcases h with ⟨cm', todo', h1, h2, h3⟩ | ⟨cm', todo', h1, h2, h3, h4⟩ <;> rw [h1] at hi <;>
        simp only [Option.some.injEq, PkJob.mk.injEq, PkPc.storing.injEq, reduceCtorEq, and_false] at hi
      obtain ⟨rfl, rfl, rfl⟩ := hi
      refine .inl (.inl ⟨cm', todo, hset _, h2, fun id g1 g2 => ?_⟩)
      by_cases hid : id = k
      · rw [keysOf_setKeys_jobs, if_pos rfl, SMap.load_store, if_pos hid, ← h2 id, hid, hv]
      · exact hkeep1 id (h3 id g1 (by simp [hid, g2]))
    | stored i order e' cm hi ho =>
      simp only [OfJob, jobOf, Option.some.injEq] at hof; subst hof
      rcases h with ⟨cm', todo', h1, h2, h3⟩ | ⟨cm', todo', h1, h2, h3, h4⟩ <;> rw [h1] at hi <;>
        simp only [Option.some.injEq, PkJob.mk.injEq, PkPc.storing.injEq, reduceCtorEq, and_false] at hi
      obtain ⟨rfl, rfl, rfl⟩ := hi
      refine .inl (.inr ⟨cm', order, hset _, h2, fun id g1 => hkeep1 id (h3 id g1 (by simp)), fun id g1 g2 => ?_⟩)
      rw [keysOf_jobs]
      cases hld : (s.keysOf e).load id with
      | none => rfl
      | some v => exact absurd (ho id (SMap.mem_keys.mpr (by simp [hld]))) g2
    | keep i order e' cm k todo hi hv =>
      simp only [OfJob, jobOf, Option.some.injEq] at hof; subst hof
      rcases h with ⟨cm', todo', h1, h2, h3⟩ | ⟨cm', todo', h1, h2, h3, h4⟩ <;> rw [h1] at hi <;>
        simp only [Option.some.injEq, PkJob.mk.injEq, PkPc.deleting.injEq, reduceCtorEq, and_false] at hi
      obtain ⟨rfl, rfl, rfl⟩ := hi
      refine .inl (.inr ⟨cm', todo, hset _, h2, fun id g1 => hkeep1 id (h3 id g1), fun id g1 g2 => ?_⟩)
      rw [keysOf_jobs]
      refine h4 id g1 ?_
      simp only [List.mem_cons, not_or]
      refine ⟨?_, g2⟩
      rintro rfl
      rw [h2, g1] at hv; simp at hv
    | delete i order e' cm k todo hi hv =>
      simp only [OfJob, jobOf, Option.some.injEq] at hof; subst hof
      rcases h with ⟨cm', todo', h1, h2, h3⟩ | ⟨cm', todo', h1, h2, h3, h4⟩ <;> rw [h1] at hi <;>
        simp only [Option.some.injEq, PkJob.mk.injEq, PkPc.deleting.injEq, reduceCtorEq, and_false] at hi
      obtain ⟨rfl, rfl, rfl⟩ := hi
      refine .inl (.inr ⟨cm', todo, hset _, h2, fun id g1 => hkeep1 id (h3 id g1), fun id g1 g2 => ?_⟩)
      rw [keysOf_setKeys_jobs, if_pos rfl, SMap.load_delete]
      by_cases hid : id = k
      · simp [hid]
      · simp only [hid, if_false]; exact h4 id g1 (by simp [hid, g2])
    | finish i order e' cm hi =>
      simp only [OfJob, jobOf, Option.some.injEq] at hof; subst hof
      rcases h with ⟨cm', todo', h1, h2, h3⟩ | ⟨cm', todo', h1, h2, h3, h4⟩ <;> rw [h1] at hi <;>
        simp only [Option.some.injEq, PkJob.mk.injEq, PkPc.deleting.injEq, reduceCtorEq, and_false] at hi
      obtain ⟨rfl, rfl, rfl⟩ := hi
      refine .inr ⟨hset _, fun id => ?_⟩
      rw [provider_eq, keysOf_jobs]
      cases hld : K id with
      | none => exact h4 id hld (by simp)
      | some v => rw [← hld]; exact h3 id (by simp [hld])
  · obtain ⟨b', h1, _, h3⟩ := job_step hs hc hb
    rcases h3 with ⟨_, rfl⟩ | ⟨ho, _⟩
    · exact .inl (hsame (by rw [h1, hb]))
    · exact absurd ho hof

/-- A goroutine that begins to apply a list that publishes `K`. -/
theorem applied_begin {cfg : PkCfg} {s s' : PkState} {j : Nat} {tag b : Str} {o : List Str} {K : Str → Option SigVerifier}
    (henv : ∀ (i : Nat) (b : PkJob), s.jobs[i]? = some b → b.env = jobEnv i)
    (hs : pkStep cfg s (.answer j (.answer 200 tag b) o) = some s') (hp : Publishes cfg b K) : Applied s' (jobEnv j) j K ∧ s'.crashed = false := by
  obtain ⟨es, hd, hcp, hpub⟩ := hp
  have hnc := pkStep_crashed hs
  cases pkStep_effect hs with
  | refused _ _ _ e t err hj h304 h200 => rw [h200 _ _ rfl] at hd; simp at hd
  | crashNull _ _ _ _ e t hj hb =>
    rcases hb with hb | ⟨es', hb, hk⟩
    · rw [hb] at hd; simp at hd
    · rw [hb] at hd; simp only [Option.some.injEq] at hd; subst hd
      obtain ⟨pre, post, heq, _⟩ := buildKeys_panic hk
      obtain ⟨q, hq, _⟩ := hcp none (by simp [heq])
      simp at hq
  | badKeys _ _ _ _ e t es' err hj hb hk =>
    rw [hb] at hd; simp only [Option.some.injEq] at hd; subst hd
    exact absurd hcp (buildKeys_err hk).1
  | accept _ _ _ _ e t es' cm hj hb hk ho =>
    rw [hb] at hd; simp only [Option.some.injEq] at hd; subst hd
    have hl : j < s.jobs.length := (List.getElem?_eq_some_iff.mp hj).1
    have he : e = jobEnv j := henv _ _ hj
    subst he
    refine ⟨.inl ⟨cm, o, List.getElem?_set_self hl, fun id => ?_, fun id h1 h2 => ?_⟩, hnc⟩
    · rw [(buildKeys_ok hk).2, hpub]
    · refine absurd (ho.mem_iff.mpr (SMap.mem_keys.mpr ?_)) h2
      rw [(buildKeys_ok hk).2, hpub]; exact h1

/-- A goroutine that applies a list has applied it before the step, or has just received it. -/
theorem applying_step {cfg : PkCfg} {s s' : PkState} {a : PkAct} {i : Nat} {b' : PkJob} {cm : SMap SigVerifier} (hs : pkStep cfg s a = some s')
    (hi : s'.jobs[i]? = some b') (hap : b'.pc.applying = some cm) :
    (∃ b, s.jobs[i]? = some b ∧ b.env = b'.env ∧ b.pc.applying = some cm) ∨
    ∃ tag body o es, a = .answer i (.answer 200 tag body) o ∧ cfg.decode body = some (some es) ∧ ∀ id, cm.load id = published cfg es id := by
  have hset : ∀ (k : Nat) (e : Env) (pc pc' : PkPc), s.jobs[k]? = some ⟨e, pc⟩ → (∀ cm, pc'.applying = some cm → pc.applying = some cm) →
      (s.jobs.set k ⟨e, pc'⟩)[i]? = some b' → ∃ b, s.jobs[i]? = some b ∧ b.env = b'.env ∧ b.pc.applying = some cm := by
    intro k e pc pc' hk hpc h
    rw [List.getElem?_set] at h
    by_cases hki : k = i
    · subst hki
      rw [if_pos rfl] at h
      split at h
      · simp only [Option.some.injEq] at h
        subst h
        exact ⟨_, hk, rfl, hpc _ hap⟩
      · simp at h
    · rw [if_neg hki] at h
      exact ⟨b', h, rfl, hap⟩
  cases pkStep_effect hs with
  | tick => exact .inl ⟨b', hi, rfl, hap⟩
  | update =>
    rcases jobs_append2 hi with hi | ⟨_, rfl⟩ | ⟨_, rfl⟩
    · exact .inl ⟨b', hi, rfl, hap⟩
    · simp [PkPc.applying] at hap
    · simp [PkPc.applying] at hap
  | send k e hk => exact .inl (hset _ _ _ _ hk (by simp [PkPc.applying]) hi)
  | refused k r order e t err hk => exact .inl (hset _ _ _ _ hk (by simp [PkPc.applying]) hi)
  | notModified k x b order e t hk => exact .inl (hset _ _ _ _ hk (by simp [PkPc.applying]) hi)
  | crash304 => exact .inl ⟨b', hi, rfl, hap⟩
  | crashNull => exact .inl ⟨b', hi, rfl, hap⟩
  | badKeys k x b order e t es err hk => exact .inl (hset _ _ _ _ hk (by simp [PkPc.applying]) hi)
  | accept k x b order e t es cm' hk hb hbk ho =>
    by_cases hki : k = i
    · subst hki
      have hl : k < s.jobs.length := (List.getElem?_eq_some_iff.mp hk).1
      simp only [List.getElem?_set_self hl, Option.some.injEq] at hi
      subst hi
      simp only [PkPc.applying, Option.some.injEq] at hap
      subst hap
      exact .inr ⟨x, b, order, es, rfl, hb, (buildKeys_ok hbk).2⟩
    · simp only at hi
      rw [List.getElem?_set_ne hki] at hi
      exact .inl ⟨b', hi, rfl, hap⟩
  | store k order e cm' k' todo v hk => exact .inl (hset _ _ _ _ hk (by simp [PkPc.applying]) hi)
  | stored k order e cm' hk => exact .inl (hset _ _ _ _ hk (by simp [PkPc.applying]) hi)
  | keep k order e cm' k' todo hk => exact .inl (hset _ _ _ _ hk (by simp [PkPc.applying]) hi)
  | delete k order e cm' k' todo hk => exact .inl (hset _ _ _ _ hk (by simp [PkPc.applying]) hi)
  | finish k order e cm' hk => exact .inl (hset _ _ _ _ hk (by simp [PkPc.applying]) hi)

/-- From the moment on at which the server has the keys `K`, later goroutines apply nothing else. -/
theorem new_apply {cfg : PkCfg} {now : Int} (x : PkExec cfg now) {N : Nat} {e : Env} {T : Str} {K : Str → Option SigVerifier} (hk : ServesKeys x N e T K) :
    ∀ n, N ≤ n → ∀ (i : Nat) (b : PkJob) (cm : SMap SigVerifier), (x.state N).jobs.length ≤ i → (x.state n).jobs[i]? = some b → b.env = e →
      b.pc.applying = some cm → ∀ id, cm.load id = K id := by
  refine from_ind ?_ ?_
  · intro i b cm hi hb
    rw [List.getElem?_eq_none hi] at hb; simp at hb
  intro n hn ih i b cm hi hb he hap
  rcases applying_step (x.next n) hb hap with ⟨b0, h1, h2, h3⟩ | ⟨tag, body, o, es, h1, h2, h3⟩
  · exact ih i b0 cm hi h1 (h2.trans he) h3
  · obtain ⟨-, es', h4, _, h5⟩ := (hk n hn i _ _ _ _ h1 (by rw [← x.env _ _ _ hb]; exact he)).1 rfl
    rw [h2] at h4
    simp only [Option.some.injEq] at h4
    subst h4
    intro id
    rw [h3, h5]

theorem all_apply {cfg : PkCfg} {now : Int} (x : PkExec cfg now) {N M : Nat} {e : Env} {T : Str} {K : Str → Option SigVerifier} (hk : ServesKeys x N e T K)
    (ho : Over x N M e) {n : Nat} (hn : M ≤ n) : AllApply (x.state n) e K := by
  intro i b cm hb he hap
  by_cases hi : (x.state N).jobs.length ≤ i
  · exact new_apply x hk n (Nat.le_trans ho.1 hn) i b cm hi hb he hap
  · obtain ⟨r, hr⟩ := (over_later x ho hn).2 i b (by omega) hb he
    rw [hr] at hap
    simp [PkPc.applying] at hap

theorem inUse_from {cfg : PkCfg} {now : Int} (x : PkExec cfg now) {N M : Nat} {e : Env} {T : Str} {K : Str → Option SigVerifier} (hk : ServesKeys x N e T K)
    (ho : Over x N M e) {n : Nat} (hn : M ≤ n) (h : InUse (x.state n) e K) : ∀ k, n ≤ k → InUse (x.state k) e K :=
  from_ind h fun k hk' ih => inUse_step (x.next k) (all_apply x hk ho (by omega)) ih

/-- A list that arrives when the updates begun before the change are over comes into use, and stays. -/
theorem delivered {cfg : PkCfg} {now : Int} (x : PkExec cfg now) (hf : PkFair x) {N M : Nat} {e : Env} {T : Str} {K : Str → Option SigVerifier}
    (hk : ServesKeys x N e T K) (ho : Over x N M e) {n j : Nat} {tag b : Str} {o : List Str} (hn : M ≤ n)
    (ha : x.act n = .answer j (.answer 200 tag b) o) (hj : jobEnv j = e) : ∃ m, n ≤ m ∧ ∀ k, m ≤ k → InUse (x.state k) e K := by
  have hp := ((hk n (Nat.le_trans ho.1 hn) j _ _ _ _ ha hj).1 rfl).2
  have hstep := x.next n
  rw [ha] at hstep
  have h0 := (applied_begin (x.env n) hstep hp).1
  rw [hj] at h0
  have hinv : ∀ k, n + 1 ≤ k → Applied (x.state k) e j K ∨ ((x.state k).jobs[j]? = some ⟨e, .done none⟩ ∧ InUse (x.state k) e K) := by
    refine from_ind (.inl h0) ?_
    intro k hk' ih
    rcases ih with ih | ⟨ih1, ih2⟩
    · exact applied_step (x.next k) (x.alive (k + 1)) (all_apply x hk ho (by omega)) ih
    · exact .inr ⟨done_from x ih1 ⟨_, rfl⟩ (by omega), inUse_step (x.next k) (all_apply x hk ho (by omega)) ih2⟩
  obtain ⟨b0, _, hb0, _⟩ := applied_applying h0
  obtain ⟨m, b', hm, hb', _, r, hr⟩ := job_ends x hf j (n + 1) b0 hb0
  have huse : InUse (x.state m) e K := by
    rcases hinv m hm with h | ⟨_, h⟩
    · obtain ⟨b2, cm, h1, _, h3, _⟩ := applied_applying h
      rw [hb'] at h1
      simp only [Option.some.injEq] at h1
      subst h1
      rw [hr] at h3
      simp [PkPc.applying] at h3
    · exact h
  exact ⟨m, by omega, inUse_from x hk ho (by omega) huse⟩

/-! ### ETags -/

/-- The ETag of a request is the one that was valid when the request was sent. -/
theorem sent_at {cfg : PkCfg} {now : Int} (x : PkExec cfg now) {n0 : Nat} : ∀ n, n0 ≤ n → ∀ (j : Nat) (e : Env) (t : Option Str),
    (x.state n0).jobs.length ≤ j → (x.state n).jobs[j]? = some ⟨e, .sent t⟩ →
    ∃ p, n0 ≤ p ∧ p < n ∧ x.act p = .send j ∧ t = (x.state p).eTags.get (x.state p).now e.name := by
  refine from_ind ?_ ?_
  · intro j e t hj hs
    rw [List.getElem?_eq_none hj] at hs; simp at hs
  intro n hn ih j e t hj hs
  have hold : (x.state n).jobs[j]? = some ⟨e, .sent t⟩ → ∃ p, n0 ≤ p ∧ p < n + 1 ∧ x.act p = .send j ∧
      t = (x.state p).eTags.get (x.state p).now e.name := by
    intro h
    obtain ⟨p, h1, h2, h3⟩ := ih j e t hj h
    exact ⟨p, h1, by omega, h3⟩
  have hset : ∀ (k : Nat) (b : PkJob), (∀ e t, b ≠ ⟨e, .sent t⟩) → ((x.state n).jobs.set k b)[j]? = some ⟨e, .sent t⟩ →
      (x.state n).jobs[j]? = some ⟨e, .sent t⟩ := by
    intro k b hb h
    rw [List.getElem?_set] at h
    by_cases hkj : k = j
    · rw [if_pos hkj] at h
      split at h
      · simp only [Option.some.injEq] at h; exact absurd h (hb _ _)
      · simp at h
    · rw [if_neg hkj] at h; exact h
  have he := pkStep_effect (x.next n)
  generalize hact : x.act n = a at he
  generalize x.state (n + 1) = s' at he hs
  cases he with
  | tick => exact hold hs
  | update =>
    rcases jobs_append2 hs with h | ⟨_, h⟩ | ⟨_, h⟩
    · exact hold h
    · simp at h
    · simp at h
  | send k e' hk =>
    by_cases hkj : k = j
    · subst hkj
      have hl : k < (x.state n).jobs.length := (List.getElem?_eq_some_iff.mp hk).1
      simp only [List.getElem?_set_self hl, Option.some.injEq, PkJob.mk.injEq, PkPc.sent.injEq] at hs
      obtain ⟨rfl, rfl⟩ := hs
      exact ⟨n, hn, by omega, hact, rfl⟩
    · simp only at hs
      rw [List.getElem?_set_ne hkj] at hs
      exact hold hs
  | crash304 => exact hold hs
  | crashNull => exact hold hs
  | _ => exact hold (hset _ _ (by simp) hs)

/-- The remembered ETag of `e` changes only with a `200` answer of `e` that can be decoded. -/
theorem tag_step {cfg : PkCfg} {s s' : PkState} {a : PkAct} {e : Env} (henv : ∀ (i : Nat) (b : PkJob), s.jobs[i]? = some b → b.env = jobEnv i)
    (hs : pkStep cfg s a = some s') :
    s'.eTags e.name = s.eTags e.name ∨ ∃ j tag b o, a = .answer j (.answer 200 tag b) o ∧ jobEnv j = e ∧ tag ≠ [] ∧ cfg.decode b ≠ none ∧
      s'.eTags e.name = some ⟨tag, if cfg.eTagExpiry > 0 then wrap64 (s.now + cfg.eTagExpiry) else cfg.eTagExpiry⟩ := by
  have htag : ∀ (j : Nat) (e' : Env) (t : Option Str) (x b : Str) (o : List Str), s.jobs[j]? = some ⟨e', .sent t⟩ → cfg.decode b ≠ none →
      a = .answer j (.answer 200 x b) o → tagged cfg s e' x e.name = s.eTags e.name ∨
      ∃ j tag b o, a = .answer j (.answer 200 tag b) o ∧ jobEnv j = e ∧ tag ≠ [] ∧ cfg.decode b ≠ none ∧
        tagged cfg s e' x e.name = some ⟨tag, if cfg.eTagExpiry > 0 then wrap64 (s.now + cfg.eTagExpiry) else cfg.eTagExpiry⟩ := by
    intro j e' t x b o hj hd ha
    by_cases hee : e = e'
    · by_cases hx : x = []
      · left; simp [tagged, hx]
      · right
        refine ⟨j, x, b, o, ha, by rw [← henv _ _ hj, hee], hx, hd, ?_⟩
        simp [tagged, hx, Gache.set, hee]
    · exact .inl (tagged_other hee)
  cases pkStep_effect hs with
  | crashNull j x b o e' t hj hb =>
    refine htag j e' t x b o hj ?_ rfl
    rcases hb with hb | ⟨es, hb, _⟩ <;> rw [hb] <;> simp
  | badKeys j x b o e' t es err hj hb => exact htag j e' t x b o hj (by rw [hb]; simp) rfl
  | accept j x b o e' t es cm hj hb => exact htag j e' t x b o hj (by rw [hb]; simp) rfl
  | store => left; simp only [setKeys_eTags]
  | delete => left; simp only [setKeys_eTags]
  | _ => exact .inl rfl

/-- A decodable `200` answer with an ETag is remembered. -/
theorem tag_set {cfg : PkCfg} {s s' : PkState} {j : Nat} {tag b : Str} {o : List Str}
    (henv : ∀ (i : Nat) (b : PkJob), s.jobs[i]? = some b → b.env = jobEnv i) (hs : pkStep cfg s (.answer j (.answer 200 tag b) o) = some s')
    (hd : cfg.decode b ≠ none) (ht : tag ≠ []) : ∃ ent : GEntry Str, s'.eTags (jobEnv j).name = some ent ∧ ent.val = tag := by
  cases pkStep_effect hs with
  | refused _ _ _ e t err hj h304 h200 => exact absurd (h200 _ _ rfl) hd
  | crashNull _ _ _ _ e t hj hb => rw [← henv _ _ hj]; exact tagged_same ht
  | badKeys _ _ _ _ e t es err hj hb => rw [← henv _ _ hj]; exact tagged_same ht
  | accept _ _ _ _ e t es cm hj hb => rw [← henv _ _ hj]; exact tagged_same ht

/-! ### One update at a time -/

/-- A goroutine that is at work has been at work before the step, or has just sent its request. -/
theorem active_step {cfg : PkCfg} {s s' : PkState} {a : PkAct} {i : Nat} {b' : PkJob} (hs : pkStep cfg s a = some s') (hc : s'.crashed = false)
    (hi : s'.jobs[i]? = some b') (hac : b'.pc.active = true) :
    (∃ b, s.jobs[i]? = some b ∧ b.env = b'.env ∧ b.pc.active = true) ∨ (a = .send i ∧ b'.pc.applying = none) := by
  have hset : ∀ (k : Nat) (e : Env) (pc pc' : PkPc), s.jobs[k]? = some ⟨e, pc⟩ → pc.active = true →
      (s.jobs.set k ⟨e, pc'⟩)[i]? = some b' → ∃ b, s.jobs[i]? = some b ∧ b.env = b'.env ∧ b.pc.active = true := by
    intro k e pc pc' hk hpc h
    rw [List.getElem?_set] at h
    by_cases hki : k = i
    · subst hki
      rw [if_pos rfl] at h
      split at h
      · simp only [Option.some.injEq] at h
        subst h
        exact ⟨_, hk, rfl, hpc⟩
      · simp at h
    · rw [if_neg hki] at h
      exact ⟨b', h, rfl, hac⟩
  cases pkStep_effect hs with
  | tick => exact .inl ⟨b', hi, rfl, hac⟩
  | update =>
    rcases jobs_append2 hi with hi | ⟨_, rfl⟩ | ⟨_, rfl⟩
    · exact .inl ⟨b', hi, rfl, hac⟩
    · simp [PkPc.active] at hac
    · simp [PkPc.active] at hac
  | send k e hk =>
    by_cases hki : k = i
    · subst hki
      have hl : k < s.jobs.length := (List.getElem?_eq_some_iff.mp hk).1
      simp only [List.getElem?_set_self hl, Option.some.injEq] at hi
      subst hi
      exact .inr ⟨rfl, rfl⟩
    · simp only at hi
      rw [List.getElem?_set_ne hki] at hi
      exact .inl ⟨b', hi, rfl, hac⟩
  | refused k r order e t err hk => exact .inl (hset _ _ _ _ hk rfl hi)
  | notModified k x b order e t hk => exact .inl (hset _ _ _ _ hk rfl hi)
  | crash304 => simp at hc
  | crashNull => simp at hc
  | badKeys k x b order e t es err hk => exact .inl (hset _ _ _ _ hk rfl hi)
  | accept k x b order e t es cm' hk hb hbk ho => exact .inl (hset _ _ _ _ hk rfl hi)
  | store k order e cm' k' todo v hk => exact .inl (hset _ _ _ _ hk rfl hi)
  | stored k order e cm' hk => exact .inl (hset _ _ _ _ hk rfl hi)
  | keep k order e cm' k' todo hk => exact .inl (hset _ _ _ _ hk rfl hi)
  | delete k order e cm' k' todo hk => exact .inl (hset _ _ _ _ hk rfl hi)
  | finish k order e cm' hk => exact .inl (hset _ _ _ _ hk rfl hi)

theorem active_of_applying {pc : PkPc} {cm : SMap SigVerifier} (h : pc.applying = some cm) : pc.active = true := by
  cases pc <;> simp [PkPc.applying] at h <;> rfl

/-- With one update at a time: at most one goroutine of `e` is at work, and if the version `T` is the one remembered then `K` is in use or
being brought into use. -/
structure SerInv (s : PkState) (e : Env) (T : Str) (K : Str → Option SigVerifier) : Prop where
  one : ∀ (i i' : Nat) (b b' : PkJob), s.jobs[i]? = some b → s.jobs[i']? = some b' → b.env = e → b'.env = e → b.pc.active = true →
    b'.pc.active = true → i = i'
  tag : ∀ ent : GEntry Str, s.eTags e.name = some ent → ent.val = T → (∃ j, Applied s e j K) ∨
    ((∀ (i : Nat) (b : PkJob), s.jobs[i]? = some b → b.env = e → b.pc.applying = none) ∧ InUse s e K)

theorem serInv {cfg : PkCfg} {now : Int} (x : PkExec cfg now) {e : Env} {T : Str} {K : Str → Option SigVerifier} (hone : OneAtATime x e)
    (hv : Versioned x e T K) : ∀ n, SerInv (x.state n) e T K := by
  intro n
  induction n with
  | zero => rw [x.init]; exact ⟨by simp [pkInit], by simp [pkInit, Gache.empty]⟩
  | succ n ih =>
    have hone' : ∀ (i i' : Nat) (b b' : PkJob), (x.state (n + 1)).jobs[i]? = some b → (x.state (n + 1)).jobs[i']? = some b' → b.env = e →
        b'.env = e → b.pc.active = true → b'.pc.active = true → i = i' := by
      intro i i' b b' hb hb' he he' ha ha'
      refine Classical.byContradiction fun hne => ?_
      have hsend : ∀ (i i' : Nat) (b b0 : PkJob), (x.state (n + 1)).jobs[i]? = some b → b.env = e → x.act n = .send i →
          (x.state n).jobs[i']? = some b0 → b0.env = e → b0.pc.active = true → i ≠ i' → False := by
        intro i i' b b0 hb he hs hb0 he0 ha0 hne
        rcases hone n i hs (by rw [← x.env _ _ _ hb]; exact he) i' b0 hb0 he0 (fun h => hne h.symm) with h | ⟨r, h⟩ <;>
          rw [h] at ha0 <;> simp [PkPc.active] at ha0
      rcases active_step (x.next n) (x.alive (n + 1)) hb ha with ⟨b0, h1, h2, h3⟩ | ⟨h1, _⟩
      · rcases active_step (x.next n) (x.alive (n + 1)) hb' ha' with ⟨b1, g1, g2, g3⟩ | ⟨g1, _⟩
        · exact hne (ih.one i i' b0 b1 h1 g1 (h2.trans he) (g2.trans he') h3 g3)
        · exact hsend i' i b' b0 hb' he' g1 h1 (h2.trans he) h3 (fun h => hne h.symm)
      · rcases active_step (x.next n) (x.alive (n + 1)) hb' ha' with ⟨b1, g1, g2, g3⟩ | ⟨g1, _⟩
        · exact hsend i i' b b1 hb he h1 g1 (g2.trans he') g3 hne
        · rw [h1] at g1
          simp only [PkAct.send.injEq] at g1
          exact hne g1
    refine ⟨hone', fun ent hent hT => ?_⟩
    by_cases hans : ∃ j tag b o, x.act n = .answer j (.answer 200 tag b) o ∧ jobEnv j = e ∧ cfg.decode b ≠ none
    · obtain ⟨j, tag, b, o, ha, hj, hd⟩ := hans
      obtain ⟨h1, h2⟩ := hv n j tag b o ha hj hd
      have hstep := x.next n
      rw [ha] at hstep
      obtain ⟨ent', h3, h4⟩ := tag_set (x.env n) hstep hd h1
      rw [hj, hent] at h3
      simp only [Option.some.injEq] at h3
      subst h3
      have := (applied_begin (x.env n) hstep (h2 (h4.symm.trans hT))).1
      rw [hj] at this
      exact .inl ⟨j, this⟩
    · have hent0 : (x.state n).eTags e.name = some ent := by
        rcases tag_step (e := e) (x.env n) (x.next n) with h | ⟨j, tag, b, o, h1, h2, _, h3, _⟩
        · rw [← h]; exact hent
        · exact absurd ⟨j, tag, b, o, h1, h2, h3⟩ hans
      have hold : ∀ (i : Nat) (b : PkJob) (cm : SMap SigVerifier), (x.state (n + 1)).jobs[i]? = some b → b.env = e → b.pc.applying = some cm →
          ∃ b0, (x.state n).jobs[i]? = some b0 ∧ b0.env = e ∧ b0.pc.applying = some cm := by
        intro i b cm hb he hap
        rcases applying_step (x.next n) hb hap with ⟨b0, h1, h2, h3⟩ | ⟨tag, body, o, es, h1, h2, _⟩
        · exact ⟨b0, h1, h2.trans he, h3⟩
        · exact absurd ⟨i, tag, body, o, h1, by rw [← x.env _ _ _ hb]; exact he, by rw [h2]; simp⟩ hans
      rcases ih.tag ent hent0 hT with ⟨j, hj⟩ | ⟨hno, huse⟩
      · obtain ⟨bj, cmj, hbj, hbe, hba, hcm⟩ := applied_applying hj
        have hall : AllApply (x.state n) e K := by
          intro i b cm hb he hap
          have hij := ih.one i j b bj hb hbj he hbe (active_of_applying hap) (active_of_applying hba)
          subst hij
          rw [hb] at hbj
          simp only [Option.some.injEq] at hbj
          subst hbj
          rw [hap] at hba
          simp only [Option.some.injEq] at hba
          subst hba
          exact hcm
        rcases applied_step (x.next n) (x.alive (n + 1)) hall hj with h | ⟨h1, h2⟩
        · exact .inl ⟨j, h⟩
        · refine .inr ⟨fun i b hb he => ?_, h2⟩
          cases hap : b.pc.applying with
          | none => rfl
          | some cm =>
            obtain ⟨b0, g1, g2, g3⟩ := hold i b cm hb he hap
            have hij := ih.one i j b0 bj g1 hbj g2 hbe (active_of_applying g3) (active_of_applying hba)
            subst hij
            rw [hb] at h1
            simp only [Option.some.injEq] at h1
            subst h1
            simp [PkPc.applying] at hap
      · refine .inr ⟨fun i b hb he => ?_, inUse_step (x.next n) ?_ huse⟩
        · cases hap : b.pc.applying with
          | none => rfl
          | some cm =>
            obtain ⟨b0, g1, g2, g3⟩ := hold i b cm hb he hap
            rw [hno i b0 g1 g2] at g3
            simp at g3
        · intro i b cm hb he hap
          rw [hno i b hb he] at hap
          simp at hap

/-- When `T` is the remembered version and a request is sent, `K` is in use. -/
theorem ser_send {cfg : PkCfg} {now : Int} (x : PkExec cfg now) {e : Env} {T : Str} {K : Str → Option SigVerifier} (hone : OneAtATime x e)
    (hv : Versioned x e T K) {n j : Nat} (hs : x.act n = .send j) (hj : jobEnv j = e) {ent : GEntry Str} (he : (x.state n).eTags e.name = some ent)
    (hT : ent.val = T) : InUse (x.state n) e K := by
  rcases (serInv x hone hv n).tag ent he hT with ⟨i, hi⟩ | ⟨_, h⟩
  · obtain ⟨b, cm, hb, hbe, hba, _⟩ := applied_applying hi
    have hne : i ≠ j := by
      rintro rfl
      have hstep := x.next n
      rw [hs] at hstep
      generalize x.state (n + 1) = s' at hstep
      cases pkStep_effect hstep with
      | send _ e' hi' =>
        rw [hb] at hi'
        simp only [Option.some.injEq] at hi'
        subst hi'
        simp [PkPc.applying] at hba
    rcases hone n j hs hj i b hb hbe hne with h | ⟨r, h⟩ <;> rw [h] at hba <;> simp [PkPc.applying] at hba
  · exact h

/-! ### Tags expire -/

theorem pkStep_now_le {cfg : PkCfg} {s s' : PkState} {a : PkAct} (hs : pkStep cfg s a = some s') : s.now ≤ s'.now := by
  cases pkStep_effect hs with
  | tick d => simp only; omega
  | store => simp only [setKeys_now]; exact Int.le_refl _
  | delete => simp only [setKeys_now]; exact Int.le_refl _
  | _ => exact Int.le_refl _

theorem Spec.PkExec.now_mono {cfg : PkCfg} {now : Int} (x : PkExec cfg now) {n m : Nat} (h : n ≤ m) : (x.state n).now ≤ (x.state m).now :=
  from_ind (P := fun m => (x.state n).now ≤ (x.state m).now) (Int.le_refl _) (fun k _ ih => Int.le_trans ih (pkStep_now_le (x.next k))) m h

/-- A remembered ETag expires at most the lifetime of ETags after now. -/
theorem tag_expires {cfg : PkCfg} {now : Int} (x : PkExec cfg now) (h0 : 0 ≤ now) (hexp : 0 < cfg.eTagExpiry) {M : Nat}
    (hM : (x.state M).now + cfg.eTagExpiry < 2 ^ 63) (e : Env) : ∀ n, n ≤ M → ∀ ent : GEntry Str, (x.state n).eTags e.name = some ent →
      0 < ent.expire ∧ ent.expire ≤ (x.state n).now + cfg.eTagExpiry := by
  intro n
  induction n with
  | zero => intro _ ent h; rw [x.init] at h; simp [pkInit, Gache.empty] at h
  | succ n ih =>
    intro hn ent hent
    have hm := x.now_mono (Nat.le_succ n)
    have hm2 := x.now_mono (Nat.le_of_succ_le hn)
    have hm0 := x.now_mono (Nat.zero_le n)
    rw [x.init] at hm0
    simp only [pkInit] at hm0
    rcases tag_step (e := e) (x.env n) (x.next n) with h | ⟨j, tag, b, o, _, _, _, _, h⟩
    · obtain ⟨h1, h2⟩ := ih (by omega) ent (by rw [← h]; exact hent)
      exact ⟨h1, by simp only [Nat.succ_eq_add_one] at hm; omega⟩
    · rw [hent] at h
      simp only [Option.some.injEq] at h
      subst h
      simp only [hexp, if_true]
      have : wrap64 ((x.state n).now + cfg.eTagExpiry) = (x.state n).now + cfg.eTagExpiry := by unfold wrap64; omega
      rw [this]
      simp only [Nat.succ_eq_add_one] at hm
      omega

end Athenz
