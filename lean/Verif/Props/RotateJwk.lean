import Verif.Proofs.RotateJwk
import Verif.Props.Access

/-! # C77: a change of a set of JSON web keys comes into use

Updates of the JWK daemon may overlap, and then an old set can be stored over a newer one (`C29_refuted`).  There are no ETags, so that the next
update puts this right. -/

namespace Athenz
open Spec

/-- **C77**, updates end.  In a fair execution every call of `Update` returns. -/
theorem C77_ends {cfg : JwkCfg} (x : JwkExec cfg) (hf : JwkFair x) (n j : Nat) (hj : j < (x.state n).jobs.length) :
    ∃ m b e, n ≤ m ∧ (x.state m).jobs[j]? = some b ∧ b.result = some e := by
  obtain ⟨m, b, h1, h2, h3⟩ := jwkJob_ends x hf j n _ (List.getElem?_eq_getElem hj)
  exact ⟨m, b, _, h1, h2, by rw [JwkJob.result, if_pos h3]⟩

/-- The URLs that an update has not asked. -/
def JwkJob.unasked (b : JwkJob) : List Str := if b.got.isSome then b.todo.tail else b.todo

/-- **C77**, requests are made.  If `Update` is called again and again, and from some moment on requests to the configured URL succeed, then
again and again a request to the URL succeeds. -/
theorem C77_reached {cfg : JwkCfg} (x : JwkExec cfg) (hf : JwkFair x) (url : Str) (hurl : ConfiguredURL cfg url) (N : Nat)
    (hupd : ∀ n, ∃ m, n ≤ m ∧ x.act m = some .update)
    (hans : ∀ n, N ≤ n → ∀ j out, x.act n = some (.fetch j out) → WorksOn (x.state n) j url → out.isSome) : ReachedJwk x url := by
  intro n
  have hurl := mem_targets.mpr hurl
  obtain ⟨m, hm, hu⟩ := hupd (n + N)
  have hborn : (x.state (m + 1)).jobs[(x.state m).jobs.length]? = some ⟨cfg.targets, none, []⟩ := by
    have := x.next m
    rw [hu] at this
    simp only [jwkStep, Option.some.injEq] at this
    rw [← this]
    simp
  generalize (x.state m).jobs.length = j at hborn
  obtain ⟨k, b, hk, hb, hd⟩ := jwkJob_ends x hf j (m + 1) _ hborn
  have key : ∀ k, m + 1 ≤ k → (∃ i set, m ≤ i ∧ x.act i = some (.fetch j (some set)) ∧ WorksOn (x.state i) j url) ∨
      ∃ b : JwkJob, (x.state k).jobs[j]? = some b ∧ url ∈ b.unasked := by
    refine from_ind (.inr ⟨_, hborn, by simpa [JwkJob.unasked] using hurl⟩) ?_
    intro k hk ih
    rcases ih with ih | ⟨b, h1, h2⟩
    · exact .inl ih
    rcases x.step k with ⟨_, h⟩ | ⟨a, ha, h⟩
    · rw [h]; exact .inr ⟨b, h1, h2⟩
    · by_cases ho : OfJwkJob j a
      · have hl := lt_of_getElem? h1
        generalize x.state (k + 1) = s' at h ⊢
        cases h with
        | update => simp [OfJwkJob] at ho
        | failed i u r f hi =>
          simp only [OfJwkJob] at ho; subst ho
          rw [h1] at hi
          simp only [Option.some.injEq] at hi
          subst hi
          simp only [JwkJob.unasked, Option.isSome_none, Bool.false_eq_true, if_false, List.mem_cons] at h2
          rcases h2 with rfl | h2
          · have := hans k (by omega) i none ha ⟨_, _, h1, rfl⟩
            simp at this
          · exact .inr ⟨_, List.getElem?_set_self hl, by simpa [JwkJob.unasked] using h2⟩
        | got i u r f st hi =>
          simp only [OfJwkJob] at ho; subst ho
          rw [h1] at hi
          simp only [Option.some.injEq] at hi
          subst hi
          simp only [JwkJob.unasked, Option.isSome_none, Bool.false_eq_true, if_false, List.mem_cons] at h2
          rcases h2 with rfl | h2
          · exact .inl ⟨k, st, by omega, ha, ⟨_, _, h1, rfl⟩⟩
          · exact .inr ⟨_, List.getElem?_set_self hl, by simpa [JwkJob.unasked] using h2⟩
        | stored i u r f st hi =>
          simp only [OfJwkJob] at ho; subst ho
          rw [h1] at hi
          simp only [Option.some.injEq] at hi
          subst hi
          simp only [JwkJob.unasked, Option.isSome_some, if_true, List.tail_cons] at h2
          exact .inr ⟨_, List.getElem?_set_self hl, by simpa [JwkJob.unasked] using h2⟩
      · obtain ⟨b2, h3, _, h5⟩ := jwkJob_step h h1
        rw [h5 ho] at h3
        exact .inr ⟨b, h3, h2⟩
  rcases key k hk with ⟨i, set, h1, h2, h3⟩ | ⟨b', h1, h2⟩
  · exact ⟨i, j, set, by omega, h2, h3⟩
  · rw [hb] at h1
    simp only [Option.some.injEq] at h1
    subst h1
    simp [JwkJob.unasked, hd] at h2

theorem inUseJwk_of_load {cfg : JwkCfg} {s : JwkState} {url : Str} {set : JwkSet} (h : s.keys.load url = some set) : InUseJwk cfg s url set := by
  intro kid jku hu k
  unfold getKey
  by_cases hk : kid = []
  · simp [hk]
  · rw [if_neg hk, show (if jku = [] then cfg.athenzURL else jku) = url from hu, h]
    exact ⟨fun h => ⟨hk, lookup_iff.mp h⟩, fun h => lookup_iff.mpr h.2⟩

/-- **C77**.  If from some moment on the server gives the set, and again and again a request succeeds, then from some moment on the keys of
the set are in use for the URL, and no others.  Nothing is asked of the updates: they may overlap, and fail. -/
theorem C77_in_use {cfg : JwkCfg} (x : JwkExec cfg) (hf : JwkFair x) (N : Nat) (url : Str) (set : JwkSet) (hs : ServesSet x N url set)
    (hr : ReachedJwk x url) : ∃ m, ∀ k, m ≤ k → InUseJwk cfg (x.state k) url set := by
  obtain ⟨M, hM, ho⟩ := jwk_over x hf N
  have hg := allGot x hs hM ho
  obtain ⟨m, j, set', hm, ha, hw⟩ := hr M
  obtain ⟨k, hk, hl⟩ := jwk_delivers x hf hg hm ha hw
  exact ⟨k, fun i hi => inUseJwk_of_load (jwk_stays x hg (by omega) hl i hi)⟩

/-- **C77**, the other side.  Sets do not expire: if from some moment on no request to the URL succeeds, and no update holds a set for it that
it has not stored, lookups for the URL give for ever what they gave at that moment. -/
theorem C77_unreachable {cfg : JwkCfg} (x : JwkExec cfg) (N : Nat) (url : Str)
    (hfail : ∀ n, N ≤ n → ∀ j set, x.act n = some (.fetch j (some set)) → ¬ WorksOn (x.state n) j url)
    (hidle : ∀ (j : Nat) (b : JwkJob), (x.state N).jobs[j]? = some b → WorksOn (x.state N) j url → b.got = none) (n : Nat) (hn : N ≤ n)
    (kid jku : Str) (hu : lookupURL cfg jku = url) : getKey cfg (x.state n) kid jku = getKey cfg (x.state N) kid jku := by
  have hgot : ∀ n, N ≤ n → ∀ (j : Nat) (b : JwkJob) (rest : List Str), (x.state n).jobs[j]? = some b → b.todo = url :: rest → b.got = none := by
    refine from_ind (fun j b rest hb ht => hidle j b hb ⟨b, rest, hb, ht⟩) ?_
    intro n hn ih j b rest hb ht
    rcases x.step n with ⟨_, h⟩ | ⟨a, ha, h⟩
    · rw [h] at hb; exact ih j b rest hb ht
    · generalize x.state (n + 1) = s' at h hb
      cases h with
      | update =>
        rcases getElem?_append_cases hb with hb | ⟨_, rfl⟩
        · exact ih j b rest hb ht
        · rfl
      | failed i u r f hi =>
        rcases getElem?_set_cases' hb with ⟨_, rfl⟩ | ⟨_, hb⟩
        · rfl
        · exact ih j b rest hb ht
      | got i u r f st hi =>
        rcases getElem?_set_cases' hb with ⟨_, rfl⟩ | ⟨_, hb⟩
        · simp only [List.cons.injEq] at ht
          obtain ⟨rfl, _⟩ := ht
          exact absurd ⟨_, _, hi, rfl⟩ (hfail n hn i st ha)
        · exact ih j b rest hb ht
      | stored i u r f st hi =>
        rcases getElem?_set_cases' hb with ⟨_, rfl⟩ | ⟨_, hb⟩
        · rfl
        · exact ih j b rest hb ht
  have hkeys : ∀ n, N ≤ n → (x.state n).keys.load url = (x.state N).keys.load url := by
    refine from_ind rfl ?_
    intro n hn ih
    rcases x.step n with ⟨_, h⟩ | ⟨a, ha, h⟩
    · rw [h]; exact ih
    · generalize x.state (n + 1) = s' at h
      cases h with
      | stored i u r f st hi =>
        simp only [SMap.load_store]
        split
        · rename_i hu
          subst hu
          have := hgot n hn i _ _ hi rfl
          simp at this
        · exact ih
      | _ => exact ih
  unfold getKey
  rw [show (if jku = [] then cfg.athenzURL else jku) = url from hu, hkeys n hn]

/-! ## An execution -/

namespace Ex

theorem jwkRun_append {cfg : JwkCfg} {s : JwkState} {l l' : List JwkAct} : jwkRun cfg s (l ++ l') = (jwkRun cfg s l).bind fun s => jwkRun cfg s l' := by
  induction l generalizing s with
  | nil => rfl
  | cons a l ih =>
    simp only [List.cons_append, jwkRun]
    split
    · exact ih
    · rfl

/-- The execution of a schedule that never gets stuck. -/
def rjExec (cfg : JwkCfg) (act : Nat → JwkAct) (h : ∀ n, ∃ m, n ≤ m ∧ (jwkRun cfg jwkInit ((List.range m).map act)).isSome) : JwkExec cfg where
  state n := (jwkRun cfg jwkInit ((List.range n).map act)).getD jwkInit
  act n := some (act n)
  init := rfl
  next := by
    intro n
    obtain ⟨m, hm, hs⟩ := h (n + 1)
    obtain ⟨d, rfl⟩ : ∃ d, m = (n + 1) + d := ⟨m - (n + 1), by omega⟩
    obtain ⟨s2, hs2⟩ := Option.isSome_iff_exists.mp hs
    rw [List.range_add, List.map_append, jwkRun_append] at hs2
    cases h1 : jwkRun cfg jwkInit ((List.range (n + 1)).map act) with
    | none => rw [h1] at hs2; simp at hs2
    | some s1 =>
      have h1' := h1
      rw [List.range_succ, List.map_append, jwkRun_append] at h1'
      cases h0 : jwkRun cfg jwkInit ((List.range n).map act) with
      | none => rw [h0] at h1'; simp at h1'
      | some s0 =>
        rw [h0] at h1'
        simp only [Option.bind_some, List.map_cons, List.map_nil, jwkRun] at h1'
        simp only [Option.getD_some]
        split at h1'
        · rename_i s' hs'
          rw [hs']; exact h1'
        · simp at h1'

/-- One URL, the one of Athenz. -/
def rjCfg : JwkCfg := { athenzURL := "athenz".toList, urls := [] }

/-- An update gets the old set; another one gets the new set and stores it; the first stores the old set.  Then updates that get the new set
follow one after the other. -/
def rjAct (n : Nat) : JwkAct :=
  if n < 6 then jkRace.getD n .update
  else match (n - 6) % 3 with
    | 0 => .update
    | 1 => .fetch (2 + (n - 6) / 3) (some jkB)
    | _ => .store (2 + (n - 6) / 3)

theorem rjAct_late (q : Nat) : rjAct (6 + 3 * q) = .update ∧ rjAct (6 + 3 * q + 1) = .fetch (2 + q) (some jkB) ∧ rjAct (6 + 3 * q + 2) = .store (2 + q) := by
  have h : ∀ r, r < 3 → ¬ (6 + 3 * q + r < 6) ∧ (6 + 3 * q + r - 6) % 3 = r ∧ (6 + 3 * q + r - 6) / 3 = q := fun r hr => ⟨by omega, by omega, by omega⟩
  obtain ⟨a0, b0, c0⟩ := h 0 (by omega)
  obtain ⟨a1, b1, c1⟩ := h 1 (by omega)
  obtain ⟨a2, b2, c2⟩ := h 2 (by omega)
  simp only [Nat.add_zero] at a0 b0 c0
  refine ⟨?_, ?_, ?_⟩
  · simp only [rjAct, if_neg a0, b0]
  · simp only [rjAct, if_neg a1, b1, c1]
  · simp only [rjAct, if_neg a2, b2, c2]

theorem rj_round {s : JwkState} :
    ∃ s', jwkRun rjCfg s [.update, .fetch s.jobs.length (some jkB), .store s.jobs.length] = some s' ∧ s'.jobs = s.jobs ++ [⟨[], none, []⟩] := by
  have ht : rjCfg.targets = ["athenz".toList] := by decide
  simp [jwkRun, jwkStep, ht]

theorem rj_run (q : Nat) : ∃ s, jwkRun rjCfg jwkInit ((List.range (6 + 3 * q)).map rjAct) = some s ∧ s.jobs.length = 2 + q ∧ ∀ b ∈ s.jobs, b.todo = [] := by
  induction q with
  | zero =>
    obtain ⟨s, hs, hp⟩ := Ex.exists_of_map (o := jwkRun rjCfg jwkInit ((List.range (6 + 3 * 0)).map rjAct))
      (p := fun s => decide (s.jobs.length = 2) && s.jobs.all (fun b => b.todo.isEmpty)) (by decide +kernel)
    simp only [Bool.and_eq_true, decide_eq_true_eq, List.all_eq_true] at hp
    exact ⟨s, hs, hp.1, fun b hb => by simpa using hp.2 b hb⟩
  | succ q ih =>
    obtain ⟨s, h1, h2, h3⟩ := ih
    obtain ⟨s', g1, g2⟩ := rj_round (s := s)
    obtain ⟨a0, a1, a2⟩ := rjAct_late q
    refine ⟨s', ?_, by rw [g2]; simp [h2]; omega, ?_⟩
    · rw [show 6 + 3 * (q + 1) = (6 + 3 * q) + 3 by omega, List.range_add, List.map_append, jwkRun_append, h1]
      rw [h2] at g1
      simpa [List.range_succ, a0, a1, a2] using g1
    · intro b hb
      rw [g2] at hb
      simp only [List.mem_append, List.mem_singleton] at hb
      rcases hb with hb | rfl
      · exact h3 b hb
      · rfl

def rjX : JwkExec rjCfg := rjExec rjCfg rjAct fun n => ⟨6 + 3 * n, by omega, by obtain ⟨s, h, _⟩ := rj_run n; rw [h]; rfl⟩

theorem rjX_base (q : Nat) : (rjX.state (6 + 3 * q)).jobs.length = 2 + q ∧ ∀ b ∈ (rjX.state (6 + 3 * q)).jobs, b.todo = [] := by
  obtain ⟨s, h1, h2, h3⟩ := rj_run q
  have : rjX.state (6 + 3 * q) = s := by simp only [rjX, rjExec, h1, Option.getD_some]
  rw [this]; exact ⟨h2, h3⟩

theorem rjX_fair : JwkFair rjX := by
  intro j n hen
  exfalso
  obtain ⟨a, ha, hs⟩ := hen (6 + 3 * (n + j)) (by omega)
  obtain ⟨s', hs'⟩ := Option.isSome_iff_exists.mp hs
  obtain ⟨h1, h2⟩ := rjX_base (n + j)
  have he := jwkStep_effect hs'
  cases he with
  | update => simp [OfJwkJob] at ha
  | failed i u r f hi => have := h2 _ (List.mem_of_getElem? hi); simp at this
  | got i u r f st hi => have := h2 _ (List.mem_of_getElem? hi); simp at this
  | stored i u r f st hi => have := h2 _ (List.mem_of_getElem? hi); simp at this

theorem rjX_act {n : Nat} (hn : 2 ≤ n) {j : Nat} {set : JwkSet} (h : rjX.act n = some (.fetch j (some set))) : set = jkB := by
  have h' : rjAct n = .fetch j (some set) := by simpa [rjX, rjExec] using h
  unfold rjAct at h'
  split at h'
  · have : n = 2 ∨ n = 3 ∨ n = 4 ∨ n = 5 := by omega
    rcases this with rfl | rfl | rfl | rfl <;> simp [jkRace] at h'
    exact h'.2.symm
  · split at h' <;> simp at h'
    exact h'.2.symm

theorem rjX_worksOn (q : Nat) : rjX.act (6 + 3 * q + 1) = some (.fetch (2 + q) (some jkB)) ∧ WorksOn (rjX.state (6 + 3 * q + 1)) (2 + q) "athenz".toList := by
  refine ⟨by show some _ = _; rw [(rjAct_late q).2.1], ?_⟩
  have h := rjX.next (6 + 3 * q)
  rw [show rjX.act (6 + 3 * q) = some .update by show some _ = _; rw [(rjAct_late q).1]] at h
  simp only [jwkStep, Option.some.injEq] at h
  refine ⟨⟨rjCfg.targets, none, []⟩, [], ?_, by decide⟩
  rw [← h, ← (rjX_base q).1]
  simp

end Ex

/-- An execution to which `C77_in_use` applies: the old set is stored over the new one, and the updates go on. -/
example : JwkFair Ex.rjX ∧ ServesSet Ex.rjX 2 "athenz".toList Ex.jkB ∧ ReachedJwk Ex.rjX "athenz".toList ∧
    getKey Ex.rjCfg (Ex.rjX.state 6) "k".toList [] = some ⟨.rsaPublic, "S".toList⟩ ∧ ¬ InUseJwk Ex.rjCfg (Ex.rjX.state 6) "athenz".toList Ex.jkB := by
  have hk : getKey Ex.rjCfg (Ex.rjX.state 6) "k".toList [] = some ⟨.rsaPublic, "S".toList⟩ := by decide +kernel
  refine ⟨Ex.rjX_fair, fun n hn j set h _ => Ex.rjX_act hn h, fun n => ⟨6 + 3 * n + 1, 2 + n, Ex.jkB, by omega, Ex.rjX_worksOn n⟩, hk, fun h => ?_⟩
  obtain ⟨_, pre, e, post, h1, _, h2, _⟩ := (h "k".toList [] rfl _).mp hk
  have hm : e ∈ Ex.jkB := by rw [h1]; simp
  simp only [Ex.jkB, List.mem_cons, List.not_mem_nil, or_false] at hm
  rcases hm with rfl | rfl <;> exact absurd h2 (by decide)

/-- The same execution meets the conditions of `C77_ends` and `C77_reached`. -/
example : JwkFair Ex.rjX ∧ 0 < (Ex.rjX.state 6).jobs.length ∧ ConfiguredURL Ex.rjCfg "athenz".toList ∧ (∀ n, ∃ m, n ≤ m ∧ Ex.rjX.act m = some .update) ∧
    ∀ n, 0 ≤ n → ∀ j out, Ex.rjX.act n = some (.fetch j out) → WorksOn (Ex.rjX.state n) j "athenz".toList → out.isSome := by
  refine ⟨Ex.rjX_fair, by rw [(Ex.rjX_base 0).1]; decide, .inl rfl, fun n => ⟨6 + 3 * n, by omega, ?_⟩, ?_⟩
  · show some _ = _
    rw [(Ex.rjAct_late n).1]
  · intro n _ j out h _
    have h' : Ex.rjAct n = .fetch j out := by simpa [Ex.rjX, Ex.rjExec] using h
    unfold Ex.rjAct at h'
    split at h'
    · have : n = 0 ∨ n = 1 ∨ n = 2 ∨ n = 3 ∨ n = 4 ∨ n = 5 := by omega
      rcases this with rfl | rfl | rfl | rfl | rfl | rfl <;> simp [Ex.jkRace] at h' <;> rw [← h'.2] <;> rfl
    · split at h' <;> simp at h'
      rw [← h'.2]; rfl

namespace Ex

/-- An update gets the set; after that the server fails. -/
def rjFail (n : Nat) : JwkAct :=
  if n < 3 then [JwkAct.update, .fetch 0 (some jkA), .store 0].getD n .update
  else match (n - 3) % 2 with
    | 0 => .update
    | _ => .fetch (1 + (n - 3) / 2) none

theorem rjFail_late (q : Nat) : rjFail (3 + 2 * q) = .update ∧ rjFail (3 + 2 * q + 1) = .fetch (1 + q) none := by
  have h : ∀ r, r < 2 → ¬ (3 + 2 * q + r < 3) ∧ (3 + 2 * q + r - 3) % 2 = r ∧ (3 + 2 * q + r - 3) / 2 = q := fun r hr => ⟨by omega, by omega, by omega⟩
  obtain ⟨a0, b0, c0⟩ := h 0 (by omega)
  obtain ⟨a1, b1, c1⟩ := h 1 (by omega)
  simp only [Nat.add_zero] at a0 b0 c0
  exact ⟨by simp only [rjFail, if_neg a0, b0], by simp only [rjFail, if_neg a1, b1, c1]⟩

theorem rjFail_run (q : Nat) : ∃ s, jwkRun rjCfg jwkInit ((List.range (3 + 2 * q)).map rjFail) = some s ∧ s.jobs.length = 1 + q := by
  induction q with
  | zero =>
    obtain ⟨s, hs, hp⟩ := Ex.exists_of_map (o := jwkRun rjCfg jwkInit ((List.range (3 + 2 * 0)).map rjFail))
      (p := fun s => decide (s.jobs.length = 1)) (by decide +kernel)
    exact ⟨s, hs, by simpa using hp⟩
  | succ q ih =>
    obtain ⟨s, h1, h2⟩ := ih
    obtain ⟨a0, a1⟩ := rjFail_late q
    have ht : rjCfg.targets = ["athenz".toList] := by decide
    rw [show 3 + 2 * (q + 1) = (3 + 2 * q) + 2 by omega, List.range_add, List.map_append, jwkRun_append, h1]
    have : List.map rjFail (List.map (fun x => 3 + 2 * q + x) (List.range 2)) = [.update, .fetch s.jobs.length none] := by
      simp [List.range_succ, a0, a1, h2]
    rw [this]
    simp [jwkRun, jwkStep, ht, h2]
    omega

def rjY : JwkExec rjCfg := rjExec rjCfg rjFail fun n => ⟨3 + 2 * n, by omega, by obtain ⟨s, h, _⟩ := rjFail_run n; rw [h]; rfl⟩

end Ex

/-- An execution to which `C77_unreachable` applies: the key is handed out for ever. -/
example : (∀ n, 3 ≤ n → ∀ j set, Ex.rjY.act n = some (.fetch j (some set)) → ¬ WorksOn (Ex.rjY.state n) j "athenz".toList) ∧
    (∀ (j : Nat) (b : JwkJob), (Ex.rjY.state 3).jobs[j]? = some b → WorksOn (Ex.rjY.state 3) j "athenz".toList → b.got = none) ∧
    getKey Ex.rjCfg (Ex.rjY.state 3) "k".toList [] = some ⟨.rsaPublic, "S".toList⟩ := by
  refine ⟨?_, ?_, by decide +kernel⟩
  · intro n hn j set h
    exfalso
    have h' : Ex.rjFail n = .fetch j (some set) := by simpa [Ex.rjY, Ex.rjExec] using h
    unfold Ex.rjFail at h'
    rw [if_neg (by omega)] at h'
    split at h' <;> simp at h'
  · intro j b hb _
    have h : (Ex.rjY.state 3).jobs.all (fun b => b.got.isNone) = true := by decide +kernel
    simpa using List.all_eq_true.mp h b (List.mem_of_getElem? hb)

end Athenz
