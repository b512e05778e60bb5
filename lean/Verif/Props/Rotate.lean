import Verif.Proofs.Rotate
import Verif.Props.Pubkey

/-! # C76: a change of the keys at a server comes into use -/

namespace Athenz
open Spec

/-! ## Updates end, and requests are answered -/

/-- **C76**, updates end.  In a fair execution every goroutine of an update comes to its end, and so there is a moment at which all updates
that had begun by a given moment are over. -/
theorem C76_ends {cfg : PkCfg} {now : Int} (x : PkExec cfg now) (hf : PkFair x) (N : Nat) (e : Env) : ∃ M, Over x N M e := over_exists x hf N e

/-- A goroutine that has come from its start to its end has been answered. -/
theorem answered_of_done {cfg : PkCfg} {now : Int} (x : PkExec cfg now) {n j : Nat} {e : Env} (h0 : (x.state n).jobs[j]? = some ⟨e, .start⟩) :
    ∀ m, n ≤ m → (∃ k r o, n ≤ k ∧ k < m ∧ x.act k = .answer j r o) ∨ (x.state m).jobs[j]? = some ⟨e, .start⟩ ∨
      ∃ t, (x.state m).jobs[j]? = some ⟨e, .sent t⟩ := by
  refine from_ind (.inr (.inl h0)) ?_
  intro m hm ih
  rcases ih with ⟨k, r, o, h1, h2, h3⟩ | ih
  · exact .inl ⟨k, r, o, h1, by omega, h3⟩
  have hex : ∃ b, (x.state m).jobs[j]? = some b := by rcases ih with h | ⟨t, h⟩ <;> exact ⟨_, h⟩
  obtain ⟨b, hb⟩ := hex
  by_cases hof : OfJob j (x.act m)
  · have he := pkStep_effect (x.next m)
    have hl : j < (x.state m).jobs.length := (List.getElem?_eq_some_iff.mp hb).1
    generalize hact : x.act m = a at he hof
    generalize x.state (m + 1) = s' at he ⊢
    cases he with
    | send k e' hk =>
      simp only [OfJob, jobOf, Option.some.injEq] at hof; subst hof
      have : e' = e := by
        rcases ih with h | ⟨t, h⟩ <;> rw [hk] at h <;> simp at h
        exact h
      subst this
      exact .inr (.inr ⟨_, List.getElem?_set_self hl⟩)
    | tick => simp [OfJob, jobOf] at hof
    | update => simp [OfJob, jobOf] at hof
    | refused k r o => simp only [OfJob, jobOf, Option.some.injEq] at hof; subst hof; exact .inl ⟨m, r, o, hm, by omega, hact⟩
    | notModified k x' b' o => simp only [OfJob, jobOf, Option.some.injEq] at hof; subst hof; exact .inl ⟨m, _, o, hm, by omega, hact⟩
    | crash304 k x' b' o => simp only [OfJob, jobOf, Option.some.injEq] at hof; subst hof; exact .inl ⟨m, _, o, hm, by omega, hact⟩
    | crashNull k x' b' o => simp only [OfJob, jobOf, Option.some.injEq] at hof; subst hof; exact .inl ⟨m, _, o, hm, by omega, hact⟩
    | badKeys k x' b' o => simp only [OfJob, jobOf, Option.some.injEq] at hof; subst hof; exact .inl ⟨m, _, o, hm, by omega, hact⟩
    | accept k x' b' o => simp only [OfJob, jobOf, Option.some.injEq] at hof; subst hof; exact .inl ⟨m, _, o, hm, by omega, hact⟩
    | store k o e' cm k' todo v hk => simp only [OfJob, jobOf, Option.some.injEq] at hof; subst hof; rcases ih with h | ⟨t, h⟩ <;> rw [hk] at h <;> simp at h
    | stored k o e' cm hk => simp only [OfJob, jobOf, Option.some.injEq] at hof; subst hof; rcases ih with h | ⟨t, h⟩ <;> rw [hk] at h <;> simp at h
    | keep k o e' cm k' todo hk => simp only [OfJob, jobOf, Option.some.injEq] at hof; subst hof; rcases ih with h | ⟨t, h⟩ <;> rw [hk] at h <;> simp at h
    | delete k o e' cm k' todo hk => simp only [OfJob, jobOf, Option.some.injEq] at hof; subst hof; rcases ih with h | ⟨t, h⟩ <;> rw [hk] at h <;> simp at h
    | finish k o e' cm hk => simp only [OfJob, jobOf, Option.some.injEq] at hof; subst hof; rcases ih with h | ⟨t, h⟩ <;> rw [hk] at h <;> simp at h
  · obtain ⟨b', h1, _, h3⟩ := job_step (x.next m) (x.alive (m + 1)) hb
    rcases h3 with ⟨_, rfl⟩ | ⟨ho, _⟩
    · right
      rw [hb] at ih
      rw [h1]; exact ih
    · exact absurd ho hof

theorem Spec.PkExec.jobs_mono {cfg : PkCfg} {now : Int} (x : PkExec cfg now) {n m : Nat} (h : n ≤ m) : (x.state n).jobs.length ≤ (x.state m).jobs.length := by
  refine Classical.byContradiction fun hlt => ?_
  obtain ⟨b, hb, _⟩ := job_from x (List.getElem?_eq_getElem (show (x.state m).jobs.length < (x.state n).jobs.length by omega)) m h
  rw [List.getElem?_eq_none (Nat.le_refl _)] at hb
  simp at hb

/-- **C76**, requests are answered.  If `Update` is called again and again, and from some moment on the server of `e` answers every request
that reaches it with `200` or `304`, then again and again a new update is answered so. -/
theorem C76_reached {cfg : PkCfg} {now : Int} (x : PkExec cfg now) (hf : PkFair x) (e : Env) (N : Nat) (hupd : ∀ n, ∃ m, n ≤ m ∧ x.act m = .update)
    (hans : ∀ n, N ≤ n → ∀ j r o, x.act n = .answer j r o → jobEnv j = e → ∃ st tag b, r = .answer st tag b ∧ (st = 200 ∨ st = 304)) :
    Reached x e := by
  intro n
  obtain ⟨m, hm, hu⟩ := hupd (n + N)
  have hlen := x.jobs_mono (show n ≤ m by omega)
  have hpar := (jobs_env (x.run m)).1
  have hborn : ∃ j, (x.state m).jobs.length ≤ j ∧ jobEnv j = e ∧ (x.state (m + 1)).jobs[j]? = some ⟨e, .start⟩ := by
    have hstep := x.next m
    rw [hu] at hstep
    have hs := pkStep_effect hstep
    generalize x.state (m + 1) = s' at hs
    cases hs with
    | update =>
      cases e with
      | zts => exact ⟨(x.state m).jobs.length, Nat.le_refl _, (jobEnv_even hpar).1, by simp⟩
      | zms => exact ⟨(x.state m).jobs.length + 1, Nat.le_succ _, (jobEnv_even hpar).2, by simp⟩
  obtain ⟨j, h1, h2, h3⟩ := hborn
  obtain ⟨k, b, hk, hb, _, r, hr⟩ := job_ends x hf j (m + 1) _ h3
  rcases answered_of_done x h3 k hk with ⟨k', r', o, g1, g2, g3⟩ | g | ⟨t, g⟩
  · obtain ⟨st, tag, bd, h4, h5⟩ := hans k' (by omega) j r' o g3 h2
    subst h4
    exact ⟨k', j, st, tag, bd, o, by omega, by omega, h2, g3, h5⟩
  · rw [hb] at g; simp only [Option.some.injEq] at g; subst g; simp at hr
  · rw [hb] at g; simp only [Option.some.injEq] at g; subst g; simp at hr

/-! ## Changes come into use -/

/-- The full statement: if from some moment on the server of `e` has the keys `K`, with an honest version `T`, the clock goes on, and again
and again an update gets an answer, then from some moment on `K` is in use. -/
def C76_statement : Prop :=
  ∀ (cfg : PkCfg) (now : Int) (x : PkExec cfg now) (N : Nat) (e : Env) (T : Str) (K : Str → Option SigVerifier), PkFair x → 0 ≤ now →
    (∀ n, ∃ m, n ≤ m ∧ (x.state n).now < (x.state m).now) → ServesKeys x N e T K → Reached x e → Versioned x e T K →
    ∃ m, ∀ k, m ≤ k → InUse (x.state k) e K

/-- **C76**, one update at a time.  If updates of the service do not overlap, `K` is in use from some moment on.  Nothing is assumed about the
lifetime of ETags.  The full statement does not ask that updates do not overlap. -/
theorem C76_serial_partial {cfg : PkCfg} {now : Int} (x : PkExec cfg now) (N : Nat) (e : Env) (T : Str) (K : Str → Option SigVerifier) (hf : PkFair x)
    (hk : ServesKeys x N e T K) (hr : Reached x e) (hv : Versioned x e T K) (hone : OneAtATime x e) : ∃ m, ∀ k, m ≤ k → InUse (x.state k) e K := by
  obtain ⟨M, hM⟩ := over_exists x hf N e
  by_cases h200 : ∃ n j tag b o, M ≤ n ∧ x.act n = .answer j (.answer 200 tag b) o ∧ jobEnv j = e
  · obtain ⟨n, j, tag, b, o, h1, h2, h3⟩ := h200
    obtain ⟨m, _, h⟩ := delivered x hf hk hM h1 h2 h3
    exact ⟨m, h⟩
  obtain ⟨m, j, st, tag, b, o, hm, hl, hj, ha, hst⟩ := hr M
  rcases hst with rfl | rfl
  · exact absurd ⟨m, j, tag, b, o, hm, ha, hj⟩ h200
  have hreq := (hk m (Nat.le_trans hM.1 hm) j _ _ _ _ ha hj).2 rfl
  have hsent : ∃ e', (x.state m).jobs[j]? = some ⟨e', .sent (some T)⟩ := by
    unfold requestTag at hreq
    split at hreq
    · rename_i e' t h; subst hreq; exact ⟨e', h⟩
    · simp at hreq
  obtain ⟨e', hsent⟩ := hsent
  have he' : e' = e := by rw [← hj]; exact x.env _ _ _ hsent
  subst he'
  obtain ⟨p, hp1, _, hp2, hp3⟩ := sent_at x m hm j e' _ hl hsent
  obtain ⟨ent, hent, hval⟩ := gache_get_entry hp3.symm
  exact ⟨p, inUse_from x hk hM hp1 (ser_send x hone hv hp2 hj hent hval)⟩

/-- **C76**, whatever overlaps.  Let the updates that had begun before the change be over at the moment `M`, which comes (`C76_ends`), and let
ETags expire.  Once the clock has passed the lifetime of the ETags remembered at `M`, `K` comes into use and stays.  The full statement
does not ask that ETags expire. -/
theorem C76_expiring_partial {cfg : PkCfg} {now : Int} (x : PkExec cfg now) (N M : Nat) (e : Env) (T : Str) (K : Str → Option SigVerifier)
    (hf : PkFair x) (h0 : 0 ≤ now) (hk : ServesKeys x N e T K) (hr : Reached x e) (hM : Over x N M e) (hexp : 0 < cfg.eTagExpiry)
    (hov : (x.state M).now + cfg.eTagExpiry < 2 ^ 63) (htime : ∃ m, (x.state M).now + cfg.eTagExpiry < (x.state m).now) :
    ∃ m, ∀ k, m ≤ k → InUse (x.state k) e K := by
  by_cases h200 : ∃ n j tag b o, M ≤ n ∧ x.act n = .answer j (.answer 200 tag b) o ∧ jobEnv j = e
  · obtain ⟨n, j, tag, b, o, h1, h2, h3⟩ := h200
    obtain ⟨m, _, h⟩ := delivered x hf hk hM h1 h2 h3
    exact ⟨m, h⟩
  exfalso
  obtain ⟨q, hq⟩ := htime
  have hMq : M ≤ q := by
    refine Classical.byContradiction fun h => ?_
    have := x.now_mono (show q ≤ M by omega)
    omega
  obtain ⟨m, j, st, tag, b, o, hm, hl, hj, ha, hst⟩ := hr q
  rcases hst with rfl | rfl
  · exact absurd ⟨m, j, tag, b, o, by omega, ha, hj⟩ h200
  have hreq := (hk m (by have := hM.1; omega) j _ _ _ _ ha hj).2 rfl
  have hsent : ∃ e', (x.state m).jobs[j]? = some ⟨e', .sent (some T)⟩ := by
    unfold requestTag at hreq
    split at hreq
    · rename_i e' t h; subst hreq; exact ⟨e', h⟩
    · simp at hreq
  obtain ⟨e', hsent⟩ := hsent
  have he' : e' = e := by rw [← hj]; exact x.env _ _ _ hsent
  subst he'
  obtain ⟨p, hp1, _, hp2, hp3⟩ := sent_at x m hm j e' _ hl hsent
  -- the entry is the one of the moment M
  have hsame : ∀ n, M ≤ n → (x.state n).eTags e'.name = (x.state M).eTags e'.name := by
    refine from_ind rfl ?_
    intro n hn ih
    rcases tag_step (e := e') (x.env n) (x.next n) with h | ⟨j, tag, b, o, h1, h2, _⟩
    · rw [h, ih]
    · exact absurd ⟨n, j, tag, b, o, hn, h1, h2⟩ h200
  have hnow := x.now_mono hp1
  unfold Gache.get at hp3
  rw [hsame p (by omega)] at hp3
  split at hp3
  · simp at hp3
  · rename_i ent hent
    obtain ⟨g1, g2⟩ := tag_expires x h0 hexp hov e' M (Nat.le_refl M) ent hent
    split at hp3
    · rename_i hval
      simp only [Gache.valid, Bool.or_eq_true, decide_eq_true_eq] at hval
      omega
    · simp at hp3

/-! ## Executions that go on for ever -/

namespace Ex

/-- The execution of a schedule that never gets stuck. -/
def rtExec (cfg : PkCfg) (now : Int) (act : Nat → PkAct)
    (h : ∀ n, ∃ m, n ≤ m ∧ (pkRun cfg (pkInit now) ((List.range m).map act)).isSome) : PkExec cfg now where
  state n := (pkRun cfg (pkInit now) ((List.range n).map act)).getD (pkInit now)
  act := act
  init := rfl
  next := by
    intro n
    obtain ⟨m, hm, hs⟩ := h (n + 1)
    obtain ⟨d, rfl⟩ : ∃ d, m = (n + 1) + d := ⟨m - (n + 1), by omega⟩
    obtain ⟨s2, hs2⟩ := Option.isSome_iff_exists.mp hs
    rw [List.range_add, List.map_append, pkRun_append] at hs2
    cases h1 : pkRun cfg (pkInit now) ((List.range (n + 1)).map act) with
    | none => rw [h1] at hs2; simp at hs2
    | some s1 =>
      have h1' := h1
      rw [List.range_succ, List.map_append] at h1'
      obtain ⟨s0, h0, hst⟩ := pkRun_snoc h1'
      rw [h0]
      exact hst

theorem rtExec_state {cfg : PkCfg} {now : Int} {act : Nat → PkAct}
    {h : ∀ n, ∃ m, n ≤ m ∧ (pkRun cfg (pkInit now) ((List.range m).map act)).isSome} {n : Nat} {s : PkState}
    (hs : pkRun cfg (pkInit now) ((List.range n).map act) = some s) : (rtExec cfg now act h).state n = s := by
  simp only [rtExec, hs, Option.getD_some]

/-- A schedule that begins with `pre` and goes on with rounds of six steps. -/
def rtAct (pre : List PkAct) (round : Nat → Nat → PkAct) (n : Nat) : PkAct :=
  if h : n < pre.length then pre[n] else round ((n - pre.length) / 6) ((n - pre.length) % 6)

theorem rtAct_late (pre : List PkAct) (round : Nat → Nat → PkAct) (q r : Nat) (hr : r < 6) : rtAct pre round (pre.length + (6 * q + r)) = round q r := by
  have h1 : ¬ (pre.length + (6 * q + r) < pre.length) := by omega
  have h2 : (pre.length + (6 * q + r) - pre.length) / 6 = q := by omega
  have h3 : (pre.length + (6 * q + r) - pre.length) % 6 = r := by omega
  simp only [rtAct, h1, dite_false, h2, h3]

theorem rtAct_pre (pre : List PkAct) (round : Nat → Nat → PkAct) : (List.range pre.length).map (rtAct pre round) = pre := by
  apply List.ext_getElem
  · simp
  · intro i h1 h2
    simp only [List.getElem_map, List.getElem_range, rtAct, h2, dite_true]

theorem rtAct_split (pre : List PkAct) (round : Nat → Nat → PkAct) (q : Nat) :
    (List.range (pre.length + 6 * (q + 1))).map (rtAct pre round) =
      (List.range (pre.length + 6 * q)).map (rtAct pre round) ++ [round q 0, round q 1, round q 2, round q 3, round q 4, round q 5] := by
  rw [show pre.length + 6 * (q + 1) = (pre.length + 6 * q) + 6 by omega, List.range_add, List.map_append]
  congr 1
  have h : ∀ r, r < 6 → rtAct pre round (pre.length + 6 * q + r) = round q r := fun r hr => by
    rw [Nat.add_assoc]; exact rtAct_late pre round q r hr
  have h0 : rtAct pre round (pre.length + 6 * q) = round q 0 := h 0 (by omega)
  simp [List.range_succ, h, h0]

/-- The key lists of the examples, with ETags that never expire (`WithETagExpiry("0s")`). -/
def rtCfg : PkCfg := { pkCfg with eTagExpiry := 0 }

/-- A round: time passes, `Update` is called, ZTS answers "not modified", ZMS cannot be reached. -/
def rtRound (d first : Nat) (q : Nat) : Nat → PkAct
  | 0 => .tick d
  | 1 => .update
  | 2 => .send (first + 2 * q)
  | 3 => .answer (first + 2 * q) (.answer 304 [] []) []
  | 4 => .send (first + 2 * q + 1)
  | _ => .answer (first + 2 * q + 1) (.fail (.other "unreachable")) []

theorem rt_get0 {l : List PkJob} {a b : PkJob} : (l ++ [a, b])[l.length]? = some a := by simp
theorem rt_get1 {l : List PkJob} {a b : PkJob} : (l ++ [a, b])[l.length + 1]? = some b := by simp
theorem rt_set0 {l : List PkJob} {a b c : PkJob} : (l ++ [a, b]).set l.length c = l ++ [c, b] := by simp
theorem rt_set1 {l : List PkJob} {a b c : PkJob} : (l ++ [a, b]).set (l.length + 1) c = l ++ [a, c] := by simp

/-- A round with an ETag that is remembered all the time changes nothing but the clock. -/
theorem rt_round {cfg : PkCfg} {s : PkState} {d first q : Nat} {t : Str} {ent : GEntry Str} (hc : s.crashed = false) (hl : s.jobs.length = first + 2 * q)
    (ht : s.eTags Env.zts.name = some ent) (hv : ent.val = t) (he : ent.expire ≤ 0 ∨ (d = 0 ∧ s.now ≤ ent.expire)) :
    pkRun cfg s [rtRound d first q 0, rtRound d first q 1, rtRound d first q 2, rtRound d first q 3, rtRound d first q 4, rtRound d first q 5] =
      some { s with now := s.now + d, jobs := s.jobs ++ [⟨.zts, .done none⟩, ⟨.zms, .done (some (.other "unreachable"))⟩] } := by
  have hg : s.eTags.get (s.now + d) Env.zts.name = some t := by
    have : ent.expire ≤ 0 ∨ s.now + d ≤ ent.expire := by omega
    simp [Gache.get, ht, Gache.valid, this, hv]
  simp only [rtRound, ← hl, pkRun, pkStep, hc, Bool.false_eq_true, if_false, rt_get0, rt_get1, rt_set0, rt_set1, hg, if_true]

/-- The states after the rounds. -/
def rtBase (d : Nat) (s0 : PkState) : Nat → PkState
  | 0 => s0
  | q + 1 =>
    { rtBase d s0 q with
      now := (rtBase d s0 q).now + d,
      jobs := (rtBase d s0 q).jobs ++ [⟨.zts, .done none⟩, ⟨.zms, .done (some (.other "unreachable"))⟩] }

/-- What the rounds need of the state in which they begin. -/
structure RtOk (d : Nat) (s : PkState) (t : Str) : Prop where
  alive : s.crashed = false
  tag : ∃ ent : GEntry Str, s.eTags Env.zts.name = some ent ∧ ent.val = t ∧ (ent.expire ≤ 0 ∨ (d = 0 ∧ s.now ≤ ent.expire))
  done : ∀ b ∈ s.jobs, ∃ r, b.pc = .done r

theorem rtBase_ok {d : Nat} {s0 : PkState} {t : Str} (h : RtOk d s0 t) (q : Nat) : RtOk d (rtBase d s0 q) t ∧ (rtBase d s0 q).jobs.length = s0.jobs.length + 2 * q ∧
    (rtBase d s0 q).now = s0.now + d * q ∧ ∀ e, (rtBase d s0 q).keysOf e = s0.keysOf e := by
  induction q with
  | zero => exact ⟨h, rfl, by simp [rtBase], fun _ => rfl⟩
  | succ q ih =>
    obtain ⟨h1, h2, h3, h4⟩ := ih
    refine ⟨⟨h1.alive, ?_, ?_⟩, ?_, ?_, fun e => ?_⟩
    · obtain ⟨ent, g1, g2, g3⟩ := h1.tag
      exact ⟨ent, g1, g2, by simp only [rtBase]; omega⟩
    · intro b hb
      simp only [rtBase, List.mem_append, List.mem_cons, List.not_mem_nil, or_false] at hb
      rcases hb with hb | rfl | rfl
      · exact h1.done b hb
      · exact ⟨_, rfl⟩
      · exact ⟨_, rfl⟩
    · simp only [rtBase, List.length_append, List.length_cons, List.length_nil, h2]; omega
    · simp only [rtBase, h3]; push_cast; rw [Int.mul_add]; omega
    · rw [← h4 e]; cases e <;> rfl

theorem rt_run {cfg : PkCfg} {d : Nat} {pre : List PkAct} {s0 : PkState} {t : Str} {now : Int} (hp : pkRun cfg (pkInit now) pre = some s0) (h : RtOk d s0 t) (q : Nat) :
    pkRun cfg (pkInit now) ((List.range (pre.length + 6 * q)).map (rtAct pre (rtRound d s0.jobs.length))) = some (rtBase d s0 q) := by
  induction q with
  | zero => simp only [Nat.mul_zero, Nat.add_zero, rtAct_pre]; exact hp
  | succ q ih =>
    rw [rtAct_split, pkRun_append, ih]
    obtain ⟨h1, h2, _, _⟩ := rtBase_ok h q
    obtain ⟨ent, g1, g2, g3⟩ := h1.tag
    exact rt_round h1.alive h2 g1 g2 g3

/-- The execution that begins with `pre` and goes on with such rounds. -/
def rtFrom {cfg : PkCfg} {d : Nat} {pre : List PkAct} {s0 : PkState} {t : Str} {now : Int} (hp : pkRun cfg (pkInit now) pre = some s0) (h : RtOk d s0 t) : PkExec cfg now :=
  rtExec cfg now (rtAct pre (rtRound d s0.jobs.length)) fun n => ⟨pre.length + 6 * n, by omega, by rw [rt_run hp h n]; rfl⟩

variable {cfg : PkCfg} {d : Nat} {pre : List PkAct} {s0 : PkState} {t : Str} {now : Int} (hp : pkRun cfg (pkInit now) pre = some s0) (h : RtOk d s0 t)

theorem rtFrom_base (q : Nat) : (rtFrom hp h).state (pre.length + 6 * q) = rtBase d s0 q := rtExec_state (rt_run hp h q)

theorem rtFrom_late (q r : Nat) (hr : r < 6) : (rtFrom hp h).act (pre.length + (6 * q + r)) = rtRound d s0.jobs.length q r := rtAct_late _ _ q r hr

theorem rtFrom_pre (n : Nat) (hn : n < pre.length) : (rtFrom hp h).act n = pre[n] := by
  show rtAct pre _ n = _
  simp only [rtAct, hn, dite_true]

theorem rtFrom_fair : PkFair (rtFrom hp h) := by
  intro j n hen
  exfalso
  obtain ⟨a, ha, hs⟩ := hen (pre.length + 6 * (n + j + 1)) (by omega)
  rw [rtFrom_base hp h] at hs
  obtain ⟨h1, h2, _, _⟩ := rtBase_ok h (n + j + 1)
  obtain ⟨s', hs'⟩ := Option.isSome_iff_exists.mp hs
  have hex : ∃ b, (rtBase d s0 (n + j + 1)).jobs[j]? = some b := ⟨_, List.getElem?_eq_getElem (by omega)⟩
  obtain ⟨b, hb⟩ := hex
  obtain ⟨r, hr⟩ := h1.done b (List.mem_of_getElem? hb)
  obtain ⟨e, pc⟩ := b
  simp only at hr
  subst hr
  cases a with
  | tick => simp [OfJob, jobOf] at ha
  | update => simp [OfJob, jobOf] at ha
  | send i => simp only [OfJob, jobOf, Option.some.injEq] at ha; subst ha; simp [pkStep, h1.alive, hb] at hs'
  | answer i r o => simp only [OfJob, jobOf, Option.some.injEq] at ha; subst ha; simp [pkStep, h1.alive, hb] at hs'
  | step i o => simp only [OfJob, jobOf, Option.some.injEq] at ha; subst ha; simp [pkStep, h1.alive, hb] at hs'

theorem rtFrom_clock (hd : 0 < d) : ∀ n, ∃ m, n ≤ m ∧ ((rtFrom hp h).state n).now < ((rtFrom hp h).state m).now := by
  intro n
  refine ⟨pre.length + 6 * (n + 1), by omega, ?_⟩
  have h1 := (rtFrom hp h).now_mono (show n ≤ pre.length + 6 * n by omega)
  rw [rtFrom_base] at h1 ⊢
  have h2 := (rtBase_ok h n).2.2.1
  have h3 := (rtBase_ok h (n + 1)).2.2.1
  rw [h2] at h1
  rw [h3]
  push_cast
  rw [Int.mul_add]
  omega

theorem rt_late {p n : Nat} (hn : p ≤ n) : ∃ q r, r < 6 ∧ n = p + (6 * q + r) := ⟨(n - p) / 6, (n - p) % 6, by omega, by omega⟩

/-- The only answers with `200` or `304` after the beginning are those to the requests to ZTS. -/
theorem rtFrom_answer {n j st : Nat} {tag b : Str} {o : List Str} (hn : pre.length ≤ n) (ha : (rtFrom hp h).act n = .answer j (.answer st tag b) o) :
    ∃ q, n = pre.length + (6 * q + 3) ∧ j = s0.jobs.length + 2 * q ∧ st = 304 := by
  obtain ⟨q, r, hr, rfl⟩ := rt_late hn
  rw [rtFrom_late hp h q r hr] at ha
  have hcases : r = 0 ∨ r = 1 ∨ r = 2 ∨ r = 3 ∨ r = 4 ∨ r = 5 := by omega
  rcases hcases with rfl | rfl | rfl | rfl | rfl | rfl <;> simp [rtRound] at ha
  exact ⟨q, rfl, ha.1.symm, ha.2.1.1.symm⟩

theorem rtFrom_sent (q : Nat) : ((rtFrom hp h).state (pre.length + (6 * q + 3))).jobs[s0.jobs.length + 2 * q]? = some ⟨.zts, .sent (some t)⟩ := by
  obtain ⟨h1, h2, _, _⟩ := rtBase_ok h q
  obtain ⟨ent, g1, g2, g3⟩ := h1.tag
  have e0 := (rtFrom hp h).next (pre.length + 6 * q)
  have e1 := (rtFrom hp h).next (pre.length + 6 * q + 1)
  have e2 := (rtFrom hp h).next (pre.length + 6 * q + 2)
  rw [show (rtFrom hp h).act (pre.length + 6 * q) = .tick d from rtFrom_late hp h q 0 (by omega), rtFrom_base] at e0
  rw [show (rtFrom hp h).act (pre.length + 6 * q + 1) = .update from rtFrom_late hp h q 1 (by omega)] at e1
  rw [show (rtFrom hp h).act (pre.length + 6 * q + 2) = .send (s0.jobs.length + 2 * q) from rtFrom_late hp h q 2 (by omega)] at e2
  simp only [pkStep, h1.alive, Bool.false_eq_true, if_false, Option.some.injEq] at e0
  rw [← e0] at e1
  simp only [pkStep, Bool.false_eq_true, if_false, Option.some.injEq] at e1
  rw [show pre.length + 6 * q + 1 + 1 = pre.length + 6 * q + 2 from rfl] at e1
  rw [← e1] at e2
  have hg : (rtBase d s0 q).eTags.get ((rtBase d s0 q).now + d) Env.zts.name = some t := by
    have : ent.expire ≤ 0 ∨ (rtBase d s0 q).now + d ≤ ent.expire := by omega
    simp [Gache.get, g1, Gache.valid, this, g2]
  simp only [pkStep, Bool.false_eq_true, if_false, ← h2, rt_get0, rt_set0, hg, Option.some.injEq] at e2
  rw [show pre.length + (6 * q + 3) = pre.length + 6 * q + 2 + 1 from by omega, ← e2, ← h2]
  exact rt_get0

theorem rtFrom_reached (hev : s0.jobs.length % 2 = 0) : Reached (rtFrom hp h) .zts := by
  intro n
  refine ⟨pre.length + (6 * n + 3), s0.jobs.length + 2 * n, 304, [], [], [], by omega, ?_, ?_, rtFrom_late hp h n 3 (by omega), .inr rfl⟩
  · have := (rtFrom hp h).jobs_mono (show n ≤ pre.length + 6 * n by omega)
    rw [rtFrom_base, (rtBase_ok h n).2.1] at this
    exact this
  · exact (jobEnv_even (by omega)).1

theorem rtFrom_mem {n : Nat} (hn : n < pre.length) : (rtFrom hp h).act n ∈ pre := by rw [rtFrom_pre hp h n hn]; exact List.getElem_mem hn

theorem rtFrom_drop {N n : Nat} (hN : N ≤ n) (hn : n < pre.length) : (rtFrom hp h).act n ∈ pre.drop N := by
  rw [rtFrom_pre hp h n hn, List.mem_iff_getElem]
  exact ⟨n - N, by rw [List.length_drop]; omega, by rw [List.getElem_drop]; congr 1; omega⟩

/-- The keys of list `B`. -/
def rtKeys : Str → Option SigVerifier := published pkCfg [some ("1".toList, "b1".toList), some ("2".toList, "b2".toList)]

theorem rtPublishes (hc : cfg.decode = pkCfg.decode) (hv : cfg.newVerifier = pkCfg.newVerifier) : Publishes cfg "B".toList rtKeys :=
  ⟨[some ("1".toList, "b1".toList), some ("2".toList, "b2".toList)], by rw [hc]; rfl,
    by intro p hp; simp only [List.mem_cons, List.not_mem_nil, or_false] at hp; rcases hp with rfl | rfl <;> exact ⟨_, rfl, by rw [hv]; rfl⟩,
    by intro id; unfold published rtKeys published; rw [hv]⟩

/-- An overlap: the first update has received list `A` when the server changes to `B`; the second brings `B` into use and remembers its
version; then the first goes on. -/
def rtOverlap : List PkAct := [.update, .update, .send 0, .answer 0 (.answer 200 "ta".toList "A".toList) ["1".toList, "0".toList],
  .send 2, .answer 2 (.answer 200 "tb".toList "B".toList) ["1".toList, "2".toList], .step 2 [], .step 2 [], .step 2 ["1".toList, "2".toList],
  .step 2 [], .step 2 [], .step 2 [],
  .step 0 [], .step 0 [], .step 0 ["0".toList, "1".toList, "2".toList], .step 0 [], .step 0 [], .step 0 [], .step 0 [],
  .send 1, .answer 1 (.fail (.other "unreachable")) [], .send 3, .answer 3 (.fail (.other "unreachable")) []]

/-- After the overlap, with ETags that live 1000 ns: later the version of `B` is forgotten, and `B` is fetched again. -/
def rtForget : List PkAct := rtOverlap ++ [.tick 2000, .update, .send 4, .answer 4 (.answer 200 "tb".toList "B".toList) ["1".toList, "2".toList],
  .step 4 [], .step 4 [], .step 4 ["0".toList, "1".toList, "2".toList], .step 4 [], .step 4 [], .step 4 [], .step 4 [],
  .send 5, .answer 5 (.fail (.other "unreachable")) []]

/-- No overlap: `A`, then `B`. -/
def rtSerial : List PkAct := loadA ++ [.send 1, .answer 1 (.fail (.other "unreachable")) []] ++ loadB ++
  [.send 3, .answer 3 (.fail (.other "unreachable")) []]

def rtOkB (d : Nat) (s : PkState) (t : Str) : Bool :=
  !s.crashed && (match s.eTags Env.zts.name with | some ent => ent.val == t && decide (ent.expire ≤ 0 ∨ (d = 0 ∧ s.now ≤ ent.expire)) | none => false) &&
    s.jobs.all fun b => match b.pc with | .done _ => true | _ => false

theorem rtOk_of {s : PkState} {t : Str} (h : rtOkB d s t = true) : RtOk d s t := by
  simp only [rtOkB, Bool.and_eq_true, Bool.not_eq_true', List.all_eq_true] at h
  obtain ⟨⟨h1, h2⟩, h3⟩ := h
  refine ⟨h1, ?_, fun b hb => ?_⟩
  · cases he : s.eTags Env.zts.name with
    | none => rw [he] at h2; simp at h2
    | some ent =>
      rw [he] at h2
      simp only [Bool.and_eq_true, beq_iff_eq, decide_eq_true_eq] at h2
      exact ⟨ent, rfl, h2.1, h2.2⟩
  · have := h3 b hb
    cases hpc : b.pc with
    | done r => exact ⟨r, rfl⟩
    | _ => rw [hpc] at this; simp at this

theorem rtOverlap_run : ∃ s, pkRun rtCfg (pkInit 0) rtOverlap = some s ∧ (rtOkB 1 s "tb".toList && decide (s.jobs.length = 4) &&
    keyIs (s.zts.load "0".toList) "a0" && keyIs (s.zts.load "1".toList) "a1" && (s.zts.load "2".toList).isNone) = true :=
  exists_of_map (by decide +kernel)

theorem rtSerial_run : ∃ s, pkRun rtCfg (pkInit 0) rtSerial = some s ∧ (rtOkB 1 s "tb".toList && decide (s.jobs.length = 4) &&
    keyIs (s.zts.load "1".toList) "b1" && keyIs (s.zts.load "2".toList) "b2" && (s.zts.load "0".toList).isNone) = true :=
  exists_of_map (by decide +kernel)

theorem rtForget_run : ∃ s, pkRun pkCfg (pkInit 0) rtForget = some s ∧ (rtOkB 0 s "tb".toList && decide (s.jobs.length = 6)) = true :=
  exists_of_map (by decide +kernel)

/-- The server has the list `B` as its version `tb` after all these beginnings. -/
theorem rtFrom_serves {N : Nat} (hc : cfg.decode = pkCfg.decode) (hv : cfg.newVerifier = pkCfg.newVerifier) (ht : t = "tb".toList)
    (hpre : ∀ a ∈ pre.drop N, ∀ j st tag b o, a = .answer j (.answer st tag b) o → st = 200 ∧ tag = "tb".toList ∧ b = "B".toList) :
    ServesKeys (rtFrom hp h) N .zts "tb".toList rtKeys := by
  intro n hn j st tag b o ha hj
  by_cases hnp : n < pre.length
  · obtain ⟨h1, h2, h3⟩ := hpre _ (rtFrom_drop hp h hn hnp) j st tag b o ha
    subst h1; subst h2; subst h3
    exact ⟨fun _ => ⟨rfl, rtPublishes hc hv⟩, by simp⟩
  · obtain ⟨q, rfl, rfl, rfl⟩ := rtFrom_answer hp h (by omega) ha
    refine ⟨by simp, fun _ => ?_⟩
    unfold requestTag
    rw [rtFrom_sent hp h q, ht]

theorem rtFrom_versioned (hc : cfg.decode = pkCfg.decode) (hv : cfg.newVerifier = pkCfg.newVerifier)
    (hpre : ∀ a ∈ pre, ∀ j tag b o, a = .answer j (.answer 200 tag b) o → tag ≠ [] ∧ (tag = "tb".toList → b = "B".toList)) :
    Versioned (rtFrom hp h) .zts "tb".toList rtKeys := by
  intro n j tag b o ha _ _
  by_cases hnp : n < pre.length
  · obtain ⟨h1, h2⟩ := hpre _ (rtFrom_mem hp h hnp) j tag b o ha
    exact ⟨h1, fun ht => by rw [h2 ht]; exact rtPublishes hc hv⟩
  · obtain ⟨q, _, _, h304⟩ := rtFrom_answer hp h (by omega) ha
    simp at h304

end Ex

/-- Overlapping updates can undo a change of keys for good: an update that received the old keys before the change applies them after a
second update has brought the new keys into use and remembered their version.  From then on the server, rightly, says "not modified", and
the withdrawn key stays in use as long as the version is remembered; here for ever. -/
theorem C76_refuted : ¬ C76_statement := by
  intro hst
  obtain ⟨s0, hp, hs⟩ := Ex.rtOverlap_run
  simp only [Bool.and_eq_true, decide_eq_true_eq] at hs
  obtain ⟨⟨⟨⟨h1, h2⟩, h3⟩, h4⟩, h5⟩ := hs
  have hok := Ex.rtOk_of h1
  obtain ⟨m, hm⟩ := hst Ex.rtCfg 0 (Ex.rtFrom hp hok) 4 .zts "tb".toList Ex.rtKeys (Ex.rtFrom_fair hp hok) (by omega) (Ex.rtFrom_clock hp hok (by omega))
    (Ex.rtFrom_serves hp hok rfl rfl rfl (by simp [Ex.rtOverlap]; rintro _ _ _ _ _ rfl rfl rfl rfl rfl; simp)) (Ex.rtFrom_reached hp hok (by omega))
    (Ex.rtFrom_versioned hp hok rfl rfl (by
      simp [Ex.rtOverlap]; constructor <;> (rintro _ _ _ _ rfl rfl rfl rfl; simp)))
  have := hm (Ex.rtOverlap.length + 6 * m) (by omega) "0".toList
  rw [Ex.rtFrom_base, provider_eq, (Ex.rtBase_ok hok m).2.2.2] at this
  have hk : Ex.rtKeys "0".toList = none := by decide +kernel
  rw [hk] at this
  rw [show s0.zts = s0.keysOf .zts from rfl, this] at h3
  simp [Ex.keyIs] at h3

/-- The hypotheses of `C76_serial_partial` are met by an execution in which `B` replaces `A`. -/
theorem Ex.rtSerial_exec : ∃ x : PkExec Ex.rtCfg 0, PkFair x ∧ ServesKeys x 11 .zts "tb".toList Ex.rtKeys ∧ Reached x .zts ∧ Versioned x .zts "tb".toList Ex.rtKeys ∧
    OneAtATime x .zts ∧ ¬ InUse (x.state 11) .zts Ex.rtKeys := by
  obtain ⟨s0, hp, hs⟩ := Ex.rtSerial_run
  simp only [Bool.and_eq_true, decide_eq_true_eq] at hs
  obtain ⟨⟨⟨⟨h1, h2⟩, h3⟩, h4⟩, h5⟩ := hs
  have hok := Ex.rtOk_of h1
  refine ⟨Ex.rtFrom hp hok, Ex.rtFrom_fair hp hok, Ex.rtFrom_serves hp hok rfl rfl rfl (by
      simp [Ex.rtSerial, Ex.loadA, Ex.loadB]; rintro _ _ _ _ _ rfl rfl rfl rfl rfl; simp),
    Ex.rtFrom_reached hp hok (by omega), Ex.rtFrom_versioned hp hok rfl rfl (by
      simp [Ex.rtSerial, Ex.loadA, Ex.loadB]; constructor <;> (rintro _ _ _ _ rfl rfl rfl rfl; simp)), ?_, ?_⟩
  · have hseq := sequential_of_check (cfg := Ex.rtCfg) (s := pkInit 0) (h := Ex.rtSerial) (by decide +kernel)
    intro n j ha hj i b hb he hne
    by_cases hnp : n < Ex.rtSerial.length
    · have hrun := (Ex.rtFrom hp hok).run n
      have hh : (Ex.rtFrom hp hok).hist n = Ex.rtSerial.take n := by
        apply List.ext_getElem
        · simp [PkExec.hist]; omega
        · intro k h1 h2
          simp only [PkExec.hist, List.getElem_map, List.getElem_range, List.getElem_take]
          exact Ex.rtFrom_pre hp hok k (by rw [List.length_take] at h2; omega)
      rw [hh] at hrun
      refine hseq (Ex.rtSerial.take n) j (Ex.rtSerial.drop (n + 1)) _ ?_ hrun i b hb (he.trans hj.symm) hne
      rw [← ha, Ex.rtFrom_pre hp hok n hnp, List.getElem_cons_drop, List.take_append_drop]
    · obtain ⟨q, r, hr, rfl⟩ := Ex.rt_late (Nat.le_of_not_lt hnp)
      obtain ⟨g1, g2, _, _⟩ := Ex.rtBase_ok hok q
      have hlt := (Ex.rtFrom hp hok).jobs_mono (show Ex.rtSerial.length + 6 * q ≤ Ex.rtSerial.length + (6 * q + r) by omega)
      rw [Ex.rtFrom_base, g2] at hlt
      have hold : i < s0.jobs.length + 2 * q → ∃ r, b.pc = .done r := by
        intro hi
        have hex : ∃ b0, (Ex.rtBase 1 s0 q).jobs[i]? = some b0 := ⟨_, List.getElem?_eq_getElem (by omega)⟩
        obtain ⟨b0, hb0⟩ := hex
        have hd := g1.done b0 (List.mem_of_getElem? hb0)
        have := done_from (Ex.rtFrom hp hok) (n := Ex.rtSerial.length + 6 * q) (m := Ex.rtSerial.length + (6 * q + r)) (j := i) (b := b0)
          (by rw [Ex.rtFrom_base]; exact hb0) hd (by omega)
        rw [hb] at this
        simp only [Option.some.injEq] at this
        subst this
        exact hd
      rw [Ex.rtFrom_late hp hok q r hr] at ha
      have hcases : r = 0 ∨ r = 1 ∨ r = 2 ∨ r = 3 ∨ r = 4 ∨ r = 5 := by omega
      rcases hcases with rfl | rfl | rfl | rfl | rfl | rfl <;> simp [Ex.rtRound] at ha
      · -- the request to ZTS
        by_cases hi : i < s0.jobs.length + 2 * q
        · exact .inr (hold hi)
        · have hup := (Ex.rtFrom hp hok).jobs_mono (show Ex.rtSerial.length + (6 * q + 2) ≤ Ex.rtSerial.length + 6 * (q + 1) by omega)
          rw [Ex.rtFrom_base, (Ex.rtBase_ok hok (q + 1)).2.1] at hup
          have hil := (List.getElem?_eq_some_iff.mp hb).1
          have hi' : i = s0.jobs.length + 2 * q + 1 := by omega
          have := (Ex.rtFrom hp hok).env _ _ _ hb
          rw [he, hi', (jobEnv_even (by omega)).2] at this
          simp at this
      · -- the request to ZMS
        rw [← ha, (jobEnv_even (by omega)).2] at hj
        simp at hj
  · intro huse
    have := huse "0".toList
    have hst : ∃ s, pkRun Ex.rtCfg (pkInit 0) (Ex.rtSerial.take 11) = some s ∧ (s.provider .zts "0".toList).isSome = true :=
      Ex.exists_of_map (by decide +kernel)
    obtain ⟨s, hs1, hs2⟩ := hst
    have hrun := (Ex.rtFrom hp hok).run 11
    have hh : (Ex.rtFrom hp hok).hist 11 = Ex.rtSerial.take 11 := rfl
    rw [hh, hs1] at hrun
    simp only [Option.some.injEq] at hrun
    rw [← hrun] at this
    rw [this] at hs2
    revert hs2
    decide +kernel

/-- The hypotheses of `C76_expiring_partial` are met by an execution with an overlap, after which `A` is in use again for a while. -/
theorem Ex.rtForget_exec : ∃ x : PkExec Ex.pkCfg 0, PkFair x ∧ ServesKeys x 4 .zts "tb".toList Ex.rtKeys ∧ Reached x .zts ∧ Over x 4 23 .zts ∧
    (x.state 23).now + Ex.pkCfg.eTagExpiry < 2 ^ 63 ∧ (∃ m, (x.state 23).now + Ex.pkCfg.eTagExpiry < (x.state m).now) ∧
    ¬ InUse (x.state 23) .zts Ex.rtKeys ∧ ¬ OneAtATime x .zts := by
  obtain ⟨s0, hp, hs⟩ := Ex.rtForget_run
  simp only [Bool.and_eq_true, decide_eq_true_eq] at hs
  obtain ⟨h1, h2⟩ := hs
  have hok := Ex.rtOk_of h1
  have hpre : ∀ (n : Nat) (p : PkState → Bool), (pkRun Ex.pkCfg (pkInit 0) (Ex.rtForget.take n)).map p = some true → n ≤ Ex.rtForget.length →
      p ((Ex.rtFrom hp hok).state n) = true := by
    intro n p hpn hn
    have hrun := (Ex.rtFrom hp hok).run n
    have hh : (Ex.rtFrom hp hok).hist n = Ex.rtForget.take n := by
      apply List.ext_getElem
      · simp [PkExec.hist]; omega
      · intro k h1 h2
        simp only [PkExec.hist, List.getElem_map, List.getElem_range, List.getElem_take]
        exact Ex.rtFrom_pre hp hok k (by rw [List.length_take] at h2; omega)
    rw [hh] at hrun
    rw [hrun] at hpn
    simpa using hpn
  have h23 := hpre 23 (fun s => decide (s.now = 0) && (s.provider .zts "0".toList).isSome && s.jobs.all fun b => match b.pc with | .done _ => true | _ => false)
    (by decide +kernel) (by decide)
  have h24 := hpre 24 (fun s => decide (s.now = 2000)) (by decide +kernel) (by decide)
  have h4 := hpre 4 (fun s => match Ex.jobPc s 0 with | some (.storing _ _) => true | _ => false) (by decide +kernel) (by decide)
  simp only [Bool.and_eq_true, decide_eq_true_eq, List.all_eq_true] at h23 h24
  refine ⟨Ex.rtFrom hp hok, Ex.rtFrom_fair hp hok, Ex.rtFrom_serves hp hok rfl rfl rfl (by
      simp [Ex.rtForget, Ex.rtOverlap]; constructor <;> (rintro _ _ _ _ _ rfl rfl rfl rfl rfl; simp)),
    Ex.rtFrom_reached hp hok (by omega), ⟨by omega, ?_⟩, ?_, ⟨24, ?_⟩, ?_, ?_⟩
  · intro j b _ hb _
    have := h23.2 b (List.mem_of_getElem? hb)
    cases hpc : b.pc with
    | done r => exact ⟨r, rfl⟩
    | _ => rw [hpc] at this; simp at this
  · rw [h23.1.1]; decide
  · rw [h23.1.1, h24]; decide
  · intro huse
    have h := h23.1.2
    rw [huse "0".toList] at h
    revert h
    decide +kernel
  · intro hone
    cases hj : ((Ex.rtFrom hp hok).state 4).jobs[0]? with
    | none => simp [Ex.jobPc, hj] at h4
    | some b =>
      simp only [Ex.jobPc, hj, Option.map_some] at h4
      have hact : (Ex.rtFrom hp hok).act 4 = .send 2 := by rw [Ex.rtFrom_pre hp hok 4 (by decide)]; rfl
      rcases hone 4 2 hact rfl 0 b hj ((Ex.rtFrom hp hok).env _ _ _ hj) (by omega) with h | ⟨r, h⟩ <;> rw [h] at h4 <;> simp at h4

end Athenz
