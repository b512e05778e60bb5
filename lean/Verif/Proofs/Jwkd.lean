import Verif.Spec.Access
import Verif.Proofs.Policyd

/-! Lemmas about jwk/daemon.go. -/

namespace Athenz
open Spec

theorem latest_append {α : Type} (url : Str) (l l' : List (Str × α)) : latest url (l ++ l') = (latest url l').or (latest url l) := by
  induction l with
  | nil => simp [latest]
  | cons p l ih => simp only [List.cons_append, latest, ih, Option.or_assoc]

theorem latest_mem {α : Type} {url : Str} {l : List (Str × α)} {v : α} (h : latest url l = some v) : (url, v) ∈ l := by
  induction l with
  | nil => simp [latest] at h
  | cons p l ih =>
    simp only [latest] at h
    rcases Option.or_eq_some_iff.mp h with h | ⟨_, h⟩
    · exact List.mem_cons_of_mem _ (ih h)
    · split at h
      · rename_i hp
        simp only [Option.some.injEq] at h
        rw [← h, ← hp]; simp
      · simp at h

theorem latest_none {α : Type} {url : Str} {l : List (Str × α)} : latest url l = none ↔ ∀ v, (url, v) ∉ l := by
  induction l with
  | nil => simp [latest]
  | cons p l ih =>
    simp only [latest, Option.or_eq_none_iff, ih, List.mem_cons, not_or]
    constructor
    · rintro ⟨h1, h2⟩ v
      refine ⟨?_, h1 v⟩
      rintro rfl
      simp at h2
    · intro h
      refine ⟨fun v => (h v).2, ?_⟩
      split
      · rename_i hp; exact absurd (show (url, p.2) = p by rw [← hp]) (h p.2).1
      · rfl

theorem fetchesOf_append (j : Nat) (l l' : List JwkEvent) : fetchesOf j (l ++ l') = fetchesOf j l ++ fetchesOf j l' := by
  induction l with
  | nil => rfl
  | cons e l ih =>
    cases e with
    | fetched i url out =>
      simp only [List.cons_append, fetchesOf, ih]
      split <;> simp
    | stored i url set => simp only [List.cons_append, fetchesOf, ih]

theorem okFetches_append (l l' : List JwkEvent) : okFetches (l ++ l') = okFetches l ++ okFetches l' := by
  induction l with
  | nil => rfl
  | cons e l ih =>
    cases e with
    | fetched i url out => cases out <;> simp only [List.cons_append, okFetches, ih]
    | stored i url set => simp only [List.cons_append, okFetches, ih]

theorem stores_append (l l' : List JwkEvent) : stores (l ++ l') = stores l ++ stores l' := by
  induction l with
  | nil => rfl
  | cons e l ih =>
    cases e with
    | fetched i url out => simp only [List.cons_append, stores, ih]
    | stored i url set => simp only [List.cons_append, stores, ih]

theorem isContain_iff {ts : List Str} {key : Str} : isContain ts key = true ↔ key ∈ ts := by
  induction ts with
  | nil => simp [isContain]
  | cons t ts ih =>
    simp only [isContain, List.mem_cons]
    split
    · rename_i h; simp [h]
    · rename_i h; rw [ih]; simp [Ne.symm h]

theorem mem_targets {cfg : JwkCfg} {url : Str} : url ∈ cfg.targets ↔ url = cfg.athenzURL ∨ url ∈ cfg.urls := by
  unfold JwkCfg.targets
  split
  · rename_i h
    have := isContain_iff.mp h
    constructor
    · exact .inr
    · rintro (rfl | h)
      · exact this
      · exact h
  · simp

/-- What a step does. -/
inductive JwkEffect (cfg : JwkCfg) (s : JwkState) : JwkAct → JwkState → Prop
  | update : JwkEffect cfg s .update { s with jobs := s.jobs ++ [⟨cfg.targets, none, []⟩] }
  | failed (j url rest failed) (hj : s.jobs[j]? = some ⟨url :: rest, none, failed⟩) :
      JwkEffect cfg s (.fetch j none) { s with jobs := s.jobs.set j ⟨rest, none, failed ++ [url]⟩, log := s.log ++ [.fetched j url none] }
  | got (j url rest failed set) (hj : s.jobs[j]? = some ⟨url :: rest, none, failed⟩) :
      JwkEffect cfg s (.fetch j (some set))
        { s with jobs := s.jobs.set j ⟨url :: rest, some set, failed⟩, log := s.log ++ [.fetched j url (some set)] }
  | stored (j url rest failed set) (hj : s.jobs[j]? = some ⟨url :: rest, some set, failed⟩) :
      JwkEffect cfg s (.store j)
        { keys := s.keys.store url set, jobs := s.jobs.set j ⟨rest, none, failed⟩, log := s.log ++ [.stored j url set] }

theorem jwkStep_effect {cfg : JwkCfg} {s s' : JwkState} {a : JwkAct} (h : jwkStep cfg s a = some s') : JwkEffect cfg s a s' := by
  cases a with
  | update =>
    simp only [jwkStep, Option.some.injEq] at h
    subst h; exact .update
  | fetch j out =>
    simp only [jwkStep] at h
    split at h
    · rename_i url rest failed hj
      cases out with
      | none =>
        simp only [Option.some.injEq] at h
        subst h; exact .failed j url rest failed hj
      | some set =>
        simp only [Option.some.injEq] at h
        subst h; exact .got j url rest failed set hj
    · simp at h
  | store j =>
    simp only [jwkStep] at h
    split at h
    · rename_i url rest set failed hj
      simp only [Option.some.injEq] at h
      subst h; exact .stored j url rest failed set hj
    · simp at h

theorem jwkRun_ind {cfg : JwkCfg} {P : JwkState → Prop} (hstep : ∀ s a s', P s → jwkStep cfg s a = some s' → P s') {s s' : JwkState}
    {acts : List JwkAct} (h0 : P s) (h : jwkRun cfg s acts = some s') : P s' := by
  induction acts generalizing s with
  | nil => simp only [jwkRun, Option.some.injEq] at h; exact h ▸ h0
  | cons a as ih =>
    simp only [jwkRun] at h
    split at h
    · rename_i s1 hs1
      exact ih (hstep s a s1 h0 hs1) h
    · simp at h

/-- The map always holds what was stored last. -/
def JwkKeysInv (s : JwkState) : Prop := ∀ url, s.keys.load url = latest url (stores s.log)

theorem jwkKeysInv_step {cfg : JwkCfg} {s s' : JwkState} {a : JwkAct} (hi : JwkKeysInv s) (h : jwkStep cfg s a = some s') : JwkKeysInv s' := by
  intro url
  cases jwkStep_effect h with
  | update => exact hi url
  | failed j u rest failed hj =>
    have : stores [JwkEvent.fetched j u none] = [] := rfl
    simp only [stores_append, this, List.append_nil]; exact hi url
  | got j u rest failed set hj =>
    have : stores [JwkEvent.fetched j u (some set)] = [] := rfl
    simp only [stores_append, this, List.append_nil]; exact hi url
  | stored j u rest failed set hj =>
    have : stores [JwkEvent.stored j u set] = [(u, set)] := rfl
    simp only [stores_append, this, latest_append, SMap.load_store, hi url, latest, Option.none_or]
    by_cases hu : url = u
    · simp [hu]
    · simp [hu, Ne.symm hu]

/-- The relation between a job and the trace. -/
structure JwkJobInv (cfg : JwkCfg) (j : Nat) (b : JwkJob) (log : List JwkEvent) : Prop where
  order : cfg.targets = (fetchesOf j log).map (·.1) ++ (if b.got.isSome then b.todo.tail else b.todo)
  failed : b.failed = ((fetchesOf j log).filter fun p => p.2.isNone).map (·.1)
  pending : ∀ set, b.got = some set → ∃ url rest pre, b.todo = url :: rest ∧ fetchesOf j log = pre ++ [(url, some set)]

def JwkJobsInv (cfg : JwkCfg) (s : JwkState) : Prop :=
  (∀ j b, s.jobs[j]? = some b → JwkJobInv cfg j b s.log) ∧ ∀ j, s.jobs.length ≤ j → fetchesOf j s.log = []

theorem fetchesOf_one {j i : Nat} {url : Str} {out : Option JwkSet} :
    fetchesOf j [.fetched i url out] = if i = j then [(url, out)] else [] := rfl

theorem lt_of_getElem? {α : Type} {l : List α} {j : Nat} {b : α} (h : l[j]? = some b) : j < l.length :=
  (List.getElem?_eq_some_iff.mp h).1

theorem jwkJobsInv_step {cfg : JwkCfg} {s s' : JwkState} {a : JwkAct} (hi : JwkJobsInv cfg s) (h : jwkStep cfg s a = some s') : JwkJobsInv cfg s' := by
  obtain ⟨h1, h2⟩ := hi
  cases jwkStep_effect h with
  | update =>
    refine ⟨?_, fun j hj => h2 j (by simp at hj; omega)⟩
    intro j b hb
    rcases getElem?_append_cases hb with hb | ⟨hj, hb⟩
    · exact h1 j b hb
    · subst hb
      have := h2 j (by omega)
      exact ⟨by simp [this], by simp [this], by simp⟩
  | failed j u rest failed hj =>
    refine ⟨?_, ?_⟩
    · intro i b hb
      rcases getElem?_set_cases' hb with ⟨rfl, rfl⟩ | ⟨hne, hb⟩
      · obtain ⟨o, f, p⟩ := h1 _ _ hj
        refine ⟨?_, ?_, by simp⟩
        · simpa [fetchesOf_append, fetchesOf_one] using o
        · simp only [fetchesOf_append, fetchesOf_one, if_true, List.filter_append, List.map_append]
          simp only at f
          rw [← f]; simp
      · obtain ⟨o, f, p⟩ := h1 _ _ hb
        have : fetchesOf i (s.log ++ [.fetched j u none]) = fetchesOf i s.log := by rw [fetchesOf_append, fetchesOf_one, if_neg hne]; simp
        exact ⟨by rw [this]; exact o, by rw [this]; exact f, by rw [this]; exact p⟩
    · intro i hi
      simp only [List.length_set] at hi
      have := lt_of_getElem? hj
      rw [fetchesOf_append, fetchesOf_one, if_neg (by omega), h2 i hi]; rfl
  | got j u rest failed set hj =>
    refine ⟨?_, ?_⟩
    · intro i b hb
      rcases getElem?_set_cases' hb with ⟨rfl, rfl⟩ | ⟨hne, hb⟩
      · obtain ⟨o, f, p⟩ := h1 _ _ hj
        refine ⟨?_, ?_, ?_⟩
        · simpa [fetchesOf_append, fetchesOf_one] using o
        · simp only [fetchesOf_append, fetchesOf_one, if_true, List.filter_append, List.map_append]
          simp only at f
          rw [← f]; simp
        · intro set' hs
          simp only [Option.some.injEq] at hs
          subst hs
          exact ⟨u, rest, fetchesOf j s.log, rfl, by rw [fetchesOf_append, fetchesOf_one, if_pos rfl]⟩
      · obtain ⟨o, f, p⟩ := h1 _ _ hb
        have : fetchesOf i (s.log ++ [.fetched j u (some set)]) = fetchesOf i s.log := by rw [fetchesOf_append, fetchesOf_one, if_neg hne]; simp
        exact ⟨by rw [this]; exact o, by rw [this]; exact f, by rw [this]; exact p⟩
    · intro i hi
      simp only [List.length_set] at hi
      have := lt_of_getElem? hj
      rw [fetchesOf_append, fetchesOf_one, if_neg (by omega), h2 i hi]; rfl
  | stored j u rest failed set hj =>
    have hl : ∀ i, fetchesOf i (s.log ++ [.stored j u set]) = fetchesOf i s.log := by intro i; rw [fetchesOf_append]; simp [fetchesOf]
    refine ⟨?_, ?_⟩
    · intro i b hb
      rcases getElem?_set_cases' hb with ⟨rfl, rfl⟩ | ⟨hne, hb⟩
      · obtain ⟨o, f, p⟩ := h1 _ _ hj
        exact ⟨by rw [hl]; simpa using o, by rw [hl]; exact f, by simp⟩
      · obtain ⟨o, f, p⟩ := h1 _ _ hb
        exact ⟨by rw [hl]; exact o, by rw [hl]; exact f, by rw [hl]; exact p⟩
    · intro i hi
      simp only [List.length_set] at hi
      rw [hl]; exact h2 i hi

/-- Every stored set was fetched by the same job, from the same URL, which is a target. -/
def JwkStoredInv (cfg : JwkCfg) (s : JwkState) : Prop :=
  (∀ j url set, .stored j url set ∈ s.log → .fetched j url (some set) ∈ s.log ∧ url ∈ cfg.targets) ∧
  (∀ (j : Nat) (b : JwkJob) url rest, s.jobs[j]? = some b → b.todo = url :: rest → ∀ set, b.got = some set → .fetched j url (some set) ∈ s.log) ∧
  (∀ (j : Nat) (b : JwkJob), s.jobs[j]? = some b → ∀ url ∈ b.todo, url ∈ cfg.targets)

theorem jwkStoredInv_step {cfg : JwkCfg} {s s' : JwkState} {a : JwkAct} (hi : JwkStoredInv cfg s) (h : jwkStep cfg s a = some s') :
    JwkStoredInv cfg s' := by
  obtain ⟨h1, h2, h3⟩ := hi
  cases jwkStep_effect h with
  | update =>
    refine ⟨h1, ?_, ?_⟩
    · intro j b url rest hb ht set hs
      rcases getElem?_append_cases hb with hb | ⟨_, rfl⟩
      · exact h2 j b url rest hb ht set hs
      · simp at hs
    · intro j b hb
      rcases getElem?_append_cases hb with hb | ⟨_, rfl⟩
      · exact h3 j b hb
      · exact fun url hu => hu
  | failed j u rest failed hj =>
    refine ⟨?_, ?_, ?_⟩
    · intro i url set hm
      simp only [List.mem_append, List.mem_singleton, reduceCtorEq, or_false] at hm
      obtain ⟨a, b⟩ := h1 i url set hm
      exact ⟨List.mem_append_left _ a, b⟩
    · intro i b url r hb ht set hs
      rcases getElem?_set_cases' hb with ⟨rfl, rfl⟩ | ⟨hne, hb⟩
      · simp at hs
      · exact List.mem_append_left _ (h2 i b url r hb ht set hs)
    · intro i b hb
      rcases getElem?_set_cases' hb with ⟨rfl, rfl⟩ | ⟨hne, hb⟩
      · intro url hu
        exact h3 _ _ hj url (List.mem_cons_of_mem _ hu)
      · exact h3 i b hb
  | got j u rest failed set hj =>
    refine ⟨?_, ?_, ?_⟩
    · intro i url set' hm
      simp only [List.mem_append, List.mem_singleton, reduceCtorEq, or_false] at hm
      obtain ⟨a, b⟩ := h1 i url set' hm
      exact ⟨List.mem_append_left _ a, b⟩
    · intro i b url r hb ht set' hs
      rcases getElem?_set_cases' hb with ⟨rfl, rfl⟩ | ⟨hne, hb⟩
      · simp only [Option.some.injEq, List.cons.injEq] at hs ht
        obtain ⟨rfl, rfl⟩ := ht
        subst hs
        simp
      · exact List.mem_append_left _ (h2 i b url r hb ht set' hs)
    · intro i b hb
      rcases getElem?_set_cases' hb with ⟨rfl, rfl⟩ | ⟨hne, hb⟩
      · exact fun url hu => h3 _ _ hj url hu
      · exact h3 i b hb
  | stored j u rest failed set hj =>
    refine ⟨?_, ?_, ?_⟩
    · intro i url set' hm
      simp only [List.mem_append, List.mem_singleton, JwkEvent.stored.injEq] at hm
      rcases hm with hm | ⟨rfl, rfl, rfl⟩
      · obtain ⟨a, b⟩ := h1 i url set' hm
        exact ⟨List.mem_append_left _ a, b⟩
      · exact ⟨List.mem_append_left _ (h2 _ _ _ _ hj rfl _ rfl), h3 _ _ hj _ (by simp)⟩
    · intro i b url r hb ht set' hs
      rcases getElem?_set_cases' hb with ⟨rfl, rfl⟩ | ⟨hne, hb⟩
      · simp at hs
      · exact List.mem_append_left _ (h2 i b url r hb ht set' hs)
    · intro i b hb
      rcases getElem?_set_cases' hb with ⟨rfl, rfl⟩ | ⟨hne, hb⟩
      · intro url hu
        exact h3 _ _ hj url (List.mem_cons_of_mem _ hu)
      · exact h3 i b hb

theorem mem_stores {log : List JwkEvent} {url : Str} {set : JwkSet} : (url, set) ∈ stores log ↔ ∃ j, .stored j url set ∈ log := by
  induction log with
  | nil => simp [stores]
  | cons e l ih =>
    cases e with
    | fetched i u out =>
      simp only [stores, ih, List.mem_cons, reduceCtorEq, false_or]
    | stored i u st =>
      simp only [stores, List.mem_cons, ih, Prod.mk.injEq, JwkEvent.stored.injEq]
      constructor
      · rintro (⟨rfl, rfl⟩ | ⟨j, h⟩)
        · exact ⟨i, .inl ⟨rfl, rfl, rfl⟩⟩
        · exact ⟨j, .inr h⟩
      · rintro ⟨j, ⟨rfl, rfl, rfl⟩ | h⟩
        · exact .inl ⟨rfl, rfl⟩
        · exact .inr ⟨j, h⟩

/-! ### Updates one after the other -/

/-- The set that a job has fetched but not stored. -/
def JwkJob.pending (b : JwkJob) : List (Str × JwkSet) :=
  match b.todo, b.got with
  | url :: _, some set => [(url, set)]
  | _, _ => []

/-- At most one job is running, and the stores are the successful requests except its pending one. -/
def JwkSeqInv (s : JwkState) : Prop :=
  (Idle s ∧ okFetches s.log = stores s.log) ∨
  (∃ (j : Nat) (b : JwkJob), s.jobs[j]? = some b ∧ (∀ (i : Nat) (c : JwkJob), s.jobs[i]? = some c → i ≠ j → c.todo = []) ∧ okFetches s.log = stores s.log ++ b.pending)

theorem idle_getElem {s : JwkState} (h : Idle s) {j : Nat} {b : JwkJob} (hb : s.jobs[j]? = some b) : b.todo = [] :=
  h b (List.mem_of_getElem? hb)

theorem jwkSeqInv_step {cfg : JwkCfg} {s s' : JwkState} {a : JwkAct} (hi : JwkSeqInv s) (hq : a = .update → Idle s) (h : jwkStep cfg s a = some s') :
    JwkSeqInv s' := by
  have move : ∀ (j : Nat) (b b' : JwkJob) (url : Str) (rest : List Str), s.jobs[j]? = some b → b.todo = url :: rest →
      (okFetches s.log = stores s.log ++ b.pending ∧
        ∀ i c, (s.jobs.set j b')[i]? = some c → i ≠ j → c.todo = []) := by
    intro j b b' url rest hb ht
    rcases hi with ⟨hid, hlog⟩ | ⟨j0, b0, hj0, ho, hlog⟩
    · rw [idle_getElem hid hb] at ht; simp at ht
    · have hjj : j = j0 := by
        refine Classical.byContradiction fun hne => ?_
        rw [ho j b hb hne] at ht; simp at ht
      subst hjj
      rw [hb] at hj0
      simp only [Option.some.injEq] at hj0
      subst hj0
      refine ⟨hlog, ?_⟩
      intro i c hc hne
      rcases getElem?_set_cases' hc with ⟨rfl, _⟩ | ⟨_, hc⟩
      · exact absurd rfl hne
      · exact ho i c hc hne
  cases jwkStep_effect h with
  | update =>
    have hid := hq rfl
    have hlog : okFetches s.log = stores s.log := by
      rcases hi with ⟨_, hlog⟩ | ⟨j0, b0, hj0, ho, hlog⟩
      · exact hlog
      · have : b0.pending = [] := by simp [JwkJob.pending, idle_getElem hid hj0]
        rw [hlog, this]; simp
    right
    refine ⟨s.jobs.length, ⟨cfg.targets, none, []⟩, by simp, ?_, ?_⟩
    · intro i c hc hne
      rcases getElem?_append_cases hc with hc | ⟨hj, _⟩
      · exact idle_getElem hid hc
      · exact absurd hj hne
    · simp [JwkJob.pending, hlog]
  | failed j u rest failed hj =>
    obtain ⟨hlog, ho⟩ := move j _ ⟨rest, none, failed ++ [u]⟩ u rest hj rfl
    right
    refine ⟨j, ⟨rest, none, failed ++ [u]⟩, by simp [lt_of_getElem? hj], ho, ?_⟩
    rw [okFetches_append, stores_append, hlog]
    simp [JwkJob.pending, okFetches, stores]
  | got j u rest failed set hj =>
    obtain ⟨hlog, ho⟩ := move j _ ⟨u :: rest, some set, failed⟩ u rest hj rfl
    right
    refine ⟨j, ⟨u :: rest, some set, failed⟩, by simp [lt_of_getElem? hj], ho, ?_⟩
    rw [okFetches_append, stores_append, hlog]
    simp [JwkJob.pending, okFetches, stores]
  | stored j u rest failed set hj =>
    obtain ⟨hlog, ho⟩ := move j _ ⟨rest, none, failed⟩ u rest hj rfl
    right
    refine ⟨j, ⟨rest, none, failed⟩, by simp [lt_of_getElem? hj], ho, ?_⟩
    rw [okFetches_append, stores_append, hlog]
    simp [JwkJob.pending, okFetches, stores]

theorem jwkSeqInv_run {cfg : JwkCfg} {s s' : JwkState} {acts : List JwkAct} (hi : JwkSeqInv s) (hq : SeqUpdates cfg s acts)
    (h : jwkRun cfg s acts = some s') : JwkSeqInv s' := by
  induction acts generalizing s with
  | nil => simp only [jwkRun, Option.some.injEq] at h; exact h ▸ hi
  | cons a as ih =>
    simp only [jwkRun] at h
    split at h
    · rename_i s1 hs1
      refine ih (jwkSeqInv_step hi ?_ hs1) (hq.2 s1 hs1) h
      rintro rfl
      exact hq.1
    · simp at h

theorem jwkSeqInv_idle {s : JwkState} (h : JwkSeqInv s) (hid : ∀ b ∈ s.jobs, b.got = none) : okFetches s.log = stores s.log := by
  rcases h with ⟨_, h⟩ | ⟨j, b, hj, _, h⟩
  · exact h
  · have : b.pending = [] := by
      unfold JwkJob.pending
      rw [hid b (List.mem_of_getElem? hj)]
      cases b.todo <;> rfl
    rw [h, this]; simp

/-! ### One update alone -/

/-- While only job `j` runs, the trace grows by events of `j`. -/
structure JwkAloneInv (s0 : JwkState) (j : Nat) (s : JwkState) : Prop where
  others : ∀ (i : Nat) (b : JwkJob), s.jobs[i]? = some b → i ≠ j → b.todo = []
  log : ∃ ev, s.log = s0.log ++ ev ∧ okFetches ev = succeeded (fetchesOf j ev) ∧
    ∃ b : JwkJob, s.jobs[j]? = some b ∧ okFetches ev = stores ev ++ b.pending

theorem succeeded_append (l l' : List (Str × Option JwkSet)) : succeeded (l ++ l') = succeeded l ++ succeeded l' := by
  induction l with
  | nil => rfl
  | cons p l ih =>
    obtain ⟨u, o⟩ := p
    cases o <;> simp [succeeded, ih]

theorem jwkAloneInv_step {cfg : JwkCfg} {s0 s s' : JwkState} {j : Nat} {a : JwkAct} (hi : JwkAloneInv s0 j s) (ha : a ≠ .update)
    (h : jwkStep cfg s a = some s') : JwkAloneInv s0 j s' := by
  obtain ⟨ho, ev, hlog, hok, b, hb, hp⟩ := hi
  have sel : ∀ (i : Nat) (c : JwkJob) (url : Str) (rest : List Str), s.jobs[i]? = some c → c.todo = url :: rest → i = j ∧ c = b := by
    intro i c url rest hc ht
    have hij : i = j := by
      refine Classical.byContradiction fun hne => ?_
      rw [ho i c hc hne] at ht; simp at ht
    subst hij
    rw [hb] at hc
    exact ⟨rfl, (Option.some.inj hc).symm⟩
  have oth : ∀ b', ∀ i c, (s.jobs.set j b')[i]? = some c → i ≠ j → c.todo = [] := by
    intro b' i c hc hne
    rcases getElem?_set_cases' hc with ⟨rfl, _⟩ | ⟨_, hc⟩
    · exact absurd rfl hne
    · exact ho i c hc hne
  cases jwkStep_effect h with
  | update => exact absurd rfl ha
  | failed i u rest failed hj =>
    obtain ⟨rfl, rfl⟩ := sel i _ u rest hj rfl
    refine ⟨oth _, ev ++ [.fetched i u none], by simp [hlog], ?_, _, by simp [lt_of_getElem? hj]; rfl, ?_⟩
    · rw [okFetches_append, fetchesOf_append, succeeded_append, hok]
      simp [okFetches, fetchesOf, succeeded]
    · rw [okFetches_append, stores_append, hp]
      simp [JwkJob.pending, okFetches, stores]
  | got i u rest failed set hj =>
    obtain ⟨rfl, rfl⟩ := sel i _ u rest hj rfl
    refine ⟨oth _, ev ++ [.fetched i u (some set)], by simp [hlog], ?_, _, by simp [lt_of_getElem? hj]; rfl, ?_⟩
    · rw [okFetches_append, fetchesOf_append, succeeded_append, hok]
      simp [okFetches, fetchesOf, succeeded]
    · rw [okFetches_append, stores_append, hp]
      simp [JwkJob.pending, okFetches, stores]
  | stored i u rest failed set hj =>
    obtain ⟨rfl, rfl⟩ := sel i _ u rest hj rfl
    refine ⟨oth _, ev ++ [.stored i u set], by simp [hlog], ?_, _, by simp [lt_of_getElem? hj]; rfl, ?_⟩
    · rw [okFetches_append, fetchesOf_append, succeeded_append, hok]
      simp [okFetches, fetchesOf, succeeded]
    · rw [okFetches_append, stores_append, hp]
      simp [JwkJob.pending, okFetches, stores]

theorem jwkAloneInv_run {cfg : JwkCfg} {s0 s s' : JwkState} {j : Nat} {acts : List JwkAct} (hi : JwkAloneInv s0 j s) (ha : .update ∉ acts)
    (h : jwkRun cfg s acts = some s') : JwkAloneInv s0 j s' := by
  induction acts generalizing s with
  | nil => simp only [jwkRun, Option.some.injEq] at h; exact h ▸ hi
  | cons a as ih =>
    simp only [jwkRun] at h
    simp only [List.mem_cons, not_or] at ha
    split at h
    · rename_i s1 hs1
      exact ih (jwkAloneInv_step hi (Ne.symm ha.1) hs1) ha.2 h
    · simp at h

/-! ### Lookup -/

theorem lookup_iff {set : JwkSet} {kid : Str} {k : JKey} :
    (match lookupKeyID set kid with | some e => e.raw | none => none) = some k ↔ KeyIn set kid k := by
  unfold lookupKeyID KeyIn
  constructor
  · intro h
    split at h
    · rename_i e he
      obtain ⟨h1, pre, post, h2, h3⟩ := List.find?_eq_some_iff_append.mp he
      refine ⟨pre, e, post, h2, ?_, by simpa using h1, h⟩
      intro x hx
      have := h3 x hx
      simpa using this
    · simp at h
  · rintro ⟨pre, e, post, rfl, h2, h3, h4⟩
    have : (pre ++ e :: post).find? (fun x => x.kid == kid) = some e := by
      rw [List.find?_eq_some_iff_append]
      refine ⟨by simpa using h3, pre, post, rfl, ?_⟩
      intro x hx
      simpa using h2 x hx
    rw [this]; exact h4

end Athenz
