import Verif.Proofs.RefreshDeny
import Verif.Spec.RefreshDeny
import Verif.Props.Policyd

/-! # C82: what a refreshed policy denies is denied -/

namespace Athenz
open Spec

/-- **C82**, a consequence of the full statement: no refresh was under way in `s0`, all refreshes since then got the document `d`, and one of them,
begun in `s1`, had ended without error in `s2`.  Then a check that loads the policies after that is not granted what the document denies, as long as
the document is valid and no update succeeds. -/
def C82_statement : Prop :=
  ∀ (U : CaseFns) (n0 : Int) (domains : List Str) (h0 h1 h2 h3 h4 : List PdAct) (s0 s1 s2 s3 s : PdState) (n k : Nat) (d : PolicyDoc) (c : Chk)
    (rs : List Str), 0 ≤ n0 →
    pdRun U (pdInit n0 domains) h0 = some s0 → NoRefresh s0 → pdRun U s0 h1 = some s1 → pdRun U s1 (.hook n (some d) :: h2) = some s2 →
    RefreshDone s2 s1.tasks.length → pdRun U s2 h3 = some s3 → NoUpdateBetween s0 s3 → pdRun U s3 (.load k :: h4) = some s →
    s.checks[k]? = some c → ValidAt s.now d → (∀ m f, .hook m f ∈ h1 ++ h2 ++ h3 ++ h4 → f = some d) → DeniesClearly U d c.q →
    c.cs.coll ≠ .ret (.ok rs)

namespace Ex

/-- The document that the refreshes get: role `r` may read what starts with x, but not what starts with xy. -/
def rdDoc : PolicyDoc := ⟨[[allowR, denyXY]], 5000⟩

/-- The document of the update says something about two roles, whose entries expire together, so that two refreshes run. -/
def rdPre : List PdAct :=
  [.update [some ⟨[[allowR, allowS]], 1000⟩], .task 0 (.job 0 [])] ++ fillActs 0 [allowR, allowS] ++
  [.task 0 (.job 0 []), .task 0 (.job 0 []), .task 0 (.job 0 []), .finish 0, .tick 1990, .expire 1 "d:role.r".toList, .expire 1 "d:role.s".toList]

/-- Both refreshes fetch and merge; the second one's writes of the deny and of the allow enclose those of the first one. -/
def rdRace : List PdAct :=
  [.hook 0 (some rdDoc), .task 1 (.job 0 []), .task 1 (.merge 0 0), .task 1 (.merge 0 0), .task 1 (.merge 0 0), .task 1 (.merge 0 0),
   .task 2 (.job 0 []), .task 2 (.merge 0 0), .task 2 (.merge 0 0), .task 2 (.merge 0 0), .task 2 (.merge 0 0),
   .task 1 (.job 0 [allowR, denyXY]), .task 2 (.job 0 [denyXY, allowR]),
   .task 1 (.job 0 []), -- the first one finds nothing
   .task 2 (.job 0 []), .task 2 (.job 0 []), -- the second one writes the deny
   .task 1 (.job 0 []), -- the first one writes the allow, and the deny is lost
   .task 2 (.job 0 []), -- the second one finds the allow
   .task 1 (.job 0 []), .task 1 (.job 0 []), .task 1 (.job 0 []), -- the first one writes the deny, and ends
   .task 2 (.job 0 []), .task 2 (.job 0 [])] -- the second one writes the allow, and the deny is lost again

theorem rdDoc_denies : DeniesClearly asciiCase rdDoc reqR := by
  refine ⟨"r".toList, by simp [reqR], denyXY, by simp [rdDoc], applies_of (by decide) (by decide +kernel), by decide,
    single_policy_denySafe asciiCase [allowR, denyXY] 5000 denyXY (by simp) (by decide), ?_⟩
  intro b hb he
  simp [rdDoc] at hb
  rcases hb with rfl | rfl
  · exact absurd he (by decide)
  · exact ⟨rfl, rfl, rfl⟩

/-- Executable forms of the conditions. -/
def rdQuiet (s : PdState) : Bool := s.tasks.all fun t => t.allDone
def rdDone (s : PdState) (i : Nat) : Bool := match s.tasks[i]? with
  | some t => !t.isUpdate && decide (t.jobs = [.done none])
  | none => false

theorem ended_of_allDone {t : Task} (h : t.allDone = true) : Ended t := by
  intro j hj
  have := List.all_eq_true.mp h j hj
  cases j <;> simp_all

theorem rdQuiet_sound {s : PdState} (h : rdQuiet s = true) : NoRefresh s :=
  fun _ t ht _ => ended_of_allDone (List.all_eq_true.mp h t (List.mem_of_getElem? ht))

theorem rdDone_sound {s : PdState} {i : Nat} (h : rdDone s i = true) : RefreshDone s i := by
  unfold rdDone at h
  split at h
  · rename_i t ht
    simp only [Bool.and_eq_true, Bool.not_eq_true', decide_eq_true_eq] at h
    exact ⟨t, ht, h.1, h.2⟩
  · simp at h

theorem noUpdateBetween_of {s s' : PdState} (h : s'.tasks.map (·.ret) = s.tasks.map (·.ret) ++ List.replicate (s'.tasks.length - s.tasks.length) none) :
    NoUpdateBetween s s' := by
  intro i t' ht' hr
  have h1 : (s'.tasks.map (·.ret))[i]? = some (some true) := by rw [List.getElem?_map, ht']; simp [hr]
  rw [h, List.getElem?_append] at h1
  split at h1
  · rename_i hlt
    rw [List.getElem?_map, Option.map_eq_some_iff] at h1
    exact h1
  · rw [List.getElem?_replicate] at h1
    split at h1 <;> simp at h1

end Ex

/-- **C82** is false: two refreshes of the same domain read and write the same lists in turn, and each of them overwrites the deny that the other
one has written.  Both have ended without error, the document is valid, and the request that it denies is granted. -/
theorem C82_refuted : ¬ C82_statement := by
  intro h
  obtain ⟨s0, hs0, hp⟩ := Ex.exists_of_map (o := pdRun asciiCase (pdInit 10 ["d".toList]) Ex.rdPre)
    (p := fun s0 => Ex.rdQuiet s0 &&
      ((pdRun asciiCase s0 [.hook 0 (some Ex.rdDoc)]).bind fun s1 => (pdRun asciiCase s1 Ex.rdRace).bind fun s2 =>
        (pdRun asciiCase s2 [.check Ex.reqR]).bind fun s3 => (pdRun asciiCase s3 (.load 0 :: Ex.schedR.map (.chk 0))).map fun s =>
          Ex.rdDone s2 s1.tasks.length && decide (s3.tasks.map (·.ret) = s0.tasks.map (·.ret) ++ List.replicate (s3.tasks.length - s0.tasks.length) none) &&
          decide (Ex.ck0 s = some (.ret (.ok ["r".toList]), Ex.reqR)) && decide (s.now < 5000)) == some true) (by decide +kernel)
  simp only [Bool.and_eq_true, decide_eq_true_eq, beq_iff_eq, Option.bind_eq_some_iff, Option.map_eq_some_iff] at hp
  obtain ⟨hq, s1, hs1, s2, hs2, s3, hs3, s, hs, ⟨⟨hd, hret⟩, hck⟩, hnow⟩ := hp
  obtain ⟨c, hc, hcoll, hcq⟩ := Ex.ck0_some hck
  refine h asciiCase 10 ["d".toList] Ex.rdPre [.hook 0 (some Ex.rdDoc)] (Ex.rdRace.drop 1) [.check Ex.reqR] (Ex.schedR.map (.chk 0)) s0 s1 s2 s3 s 0 0
    Ex.rdDoc c ["r".toList] (by decide) hs0 (Ex.rdQuiet_sound hq) hs1 hs2 (Ex.rdDone_sound hd) hs3 (Ex.noUpdateBetween_of hret) hs hc
    ⟨hnow, ?_⟩ ?_ (by rw [hcq]; exact Ex.rdDoc_denies) hcoll
  · show (5000 : Int) + s.now < 2 ^ 63
    omega
  · intro m f hf
    simp [Ex.rdRace, Ex.schedR] at hf
    exact hf.2

theorem aloneAt_of {o : Nat} {s : PdState} (h : OneWrites o s) : AloneAt o s := by
  have w : ∀ t : Task, t.jobs.any Job.writes = true → Writes t := by
    intro t ht
    obtain ⟨j, hj, hw⟩ := List.any_eq_true.mp ht
    cases j with
    | fill ttl todo pc => exact ⟨_, hj, ttl, todo, pc, rfl⟩
    | _ => simp [Job.writes] at hw
  exact fun i i' t t' h1 h2 h3 h4 h5 h6 => h i i' t t' h1 h2 h3 h4 (w t h5) (w t' h6)

/-- **C82**, if no two refreshes write into the cache at the same time: no refresh was under way in `s0`; the documents that refreshes got since then
stay valid up to the end (they need not be the same); the refresh that began in `s1` with the document `d` had ended without error in `s2`.  Then a
check that loads the policies after that is not granted what the document clearly denies, as long as no update succeeds.  Missing: refreshes whose
writes overlap (`C82_refuted`). -/
theorem C82_denied_partial (U : CaseFns) (n0 : Int) (domains : List Str) (h0 h1 h2 h3 h4 : List PdAct) (s0 s1 s2 s3 s : PdState) (n k : Nat)
    (d : PolicyDoc) (c : Chk) (rs : List Str) (hn0 : 0 ≤ n0)
    (r0 : pdRun U (pdInit n0 domains) h0 = some s0) (hq : NoRefresh s0) (r1 : pdRun U s0 h1 = some s1)
    (r2 : pdRun U s1 (.hook n (some d) :: h2) = some s2) (hd : RefreshDone s2 s1.tasks.length) (r3 : pdRun U s2 h3 = some s3)
    (hup : NoUpdateBetween s0 s3) (r4 : pdRun U s3 (.load k :: h4) = some s) (hc : s.checks[k]? = some c)
    (hval : ∀ m d', .hook m (some d') ∈ h1 ++ .hook n (some d) :: h2 ++ h3 ++ h4 → ValidAt s.now d')
    (hone : ∀ h h' sm, h1 ++ .hook n (some d) :: h2 ++ h3 ++ .load k :: h4 = h ++ h' → pdRun U s0 h = some sm → OneWrites s0.live sm)
    (hden : DeniesClearly U d c.q) : c.cs.coll ≠ .ret (.ok rs) := by
  obtain ⟨role, hrole, a, ha, hap, hda, hall, hun⟩ := hden
  have hb : Brought U a d := by
    have hsame : ∀ b ∈ d.policies.flatten, b.key = a.key → SameTriple a b := fun b hb he => hun b hb (by rw [joined_eq, joined_eq]; exact he)
    exact ⟨ha, hsame, keySafe_of hsame hall⟩
  have hn0' : 0 ≤ s0.now := by
    have := pdRun_now_le r0
    have : (pdInit n0 domains).now = n0 := rfl
    omega
  have hgot : ∀ m d', .hook m (some d') ∈ h1 ++ .hook n (some d) :: h2 ++ h3 ++ h4 → DocLasts s0.now s.now d' := fun m d' hm =>
    ⟨hn0', (hval m d' hm).1, (hval m d' hm).2⟩
  have hsound := (pdInit_sound U n0 domains).run r0
  obtain ⟨g0, hg0⟩ := getElem?_of_lt hsound.live
  have i0 : DenyInv U a d s0.now s.now s0.live s1.tasks.length False s0 := by
    refine ⟨Int.le_refl _, g0, hg0, ?_, ?_, False.elim⟩
    · obtain ⟨D, hD⟩ := getElem?_of_lt (hsound.len ▸ hsound.live : s0.live < s0.srcs.length)
      exact fun e he => (hsound.objs _ g0 D hg0 hD a.role e he).denyFirst _ rfl
    · intro i t ht ho
      left
      refine List.all_eq_true.mpr fun j hj => ?_
      obtain ⟨e, rfl⟩ := hq i t ht ho j hj
      rfl
  have t4 := pdRun_now_le r4
  have t3 := pdRun_now_le r3
  have t2 := pdRun_now_le r2
  -- up to the beginning of the refresh
  have i1 := i0.run hb (by omega) (fun as1 as2 sm he hr => aloneAt_of (hone as1 (as2 ++ .hook n (some d) :: h2 ++ h3 ++ .load k :: h4) sm
    (by rw [he]; simp) hr)) (fun m d' hm => hgot m d' (by simp [hm])) r1
  have run1 : ∀ as sm, pdRun U s1 as = some sm → pdRun U s0 (h1 ++ as) = some sm := fun as sm hr => by
    rw [pdRun_append, r1]; exact hr
  have hlive1 : s1.live = s0.live := pdRun_live r1 fun i t' ht' hr => by
    obtain ⟨t1, h5, h6⟩ := pdRun_retStays r2 ht' hr
    obtain ⟨t2, h7, h8⟩ := pdRun_retStays r3 h5 h6
    exact hup i t2 h7 h8
  -- the refresh begins
  have r2' := r2
  simp only [pdRun] at r2
  split at r2
  · simp at r2
  rename_i sh hsh
  have tsh := pdRun_now_le r2
  obtain ⟨t, ht, _, hjobs⟩ := hd
  have ish := i1.step hb (by omega) (aloneAt_of (hone h1 _ s1 (by simp; rfl) r1)) (fun m d' he _ => hgot m d' (by
    simp only [PdAct.hook.injEq] at he
    simp [he.1, he.2])) hsh
  have ibr : DenyInv U a d s0.now s.now s0.live s1.tasks.length True sh := by
    refine ⟨ish.clock, ?_⟩
    obtain ⟨g, h5, h6, h7, _⟩ := ish.obj
    refine ⟨g, h5, h6, h7, fun _ => .inr ?_⟩
    rcases pdStep_hook hsh with rfl | ⟨_, _, rfl⟩
    · cases h2 with
      | nil =>
        simp only [pdRun, Option.some.injEq] at r2; subst r2
        exact absurd (lt_of_getElem? ht) (by simp)
      | cons x xs =>
        simp [pdRun, pdStep] at r2
    · exact ⟨_, .fetching (some d), by simp only; rw [List.getElem?_append_right (Nat.le_refl _)]; simp; rfl, hlive1, rfl, rfl⟩
  have runh : ∀ as sm, pdRun U sh as = some sm → pdRun U s1 (.hook n (some d) :: as) = some sm := fun as sm hr => by
    simp only [pdRun, hsh]; exact hr
  -- the refresh ends, and the check begins
  have i2 := ibr.run hb (by omega) (fun as1 as2 sm he hr => aloneAt_of (hone (h1 ++ .hook n (some d) :: as1) (as2 ++ h3 ++ .load k :: h4) sm
    (by rw [he]; simp) (run1 _ _ (runh _ _ hr)))) (fun m d' hm => hgot m d' (by simp [hm])) r2
  have run2 : ∀ as sm, pdRun U s2 as = some sm → pdRun U s0 (h1 ++ .hook n (some d) :: h2 ++ as) = some sm := fun as sm hr => by
    rw [List.append_assoc]
    refine run1 _ _ ?_
    rw [pdRun_append, r2']; exact hr
  have i3 := i2.run hb (by omega) (fun as1 as2 sm he hr => aloneAt_of (hone (h1 ++ .hook n (some d) :: h2 ++ as1) (as2 ++ .load k :: h4) sm
    (by rw [he]; simp) (run2 _ _ hr))) (fun m d' hm => hgot m d' (by simp [hm])) r3
  obtain ⟨t3', ht3, hj3⟩ := pdRun_ended r3 ht hjobs
  have run3 : ∀ as sm, pdRun U s3 as = some sm → pdRun U s0 (h1 ++ .hook n (some d) :: h2 ++ h3 ++ as) = some sm := fun as sm hr => by
    rw [List.append_assoc]
    refine run2 _ _ ?_
    rw [pdRun_append, r3]; exact hr
  have hlive3 : s3.live = s0.live := pdRun_live (run2 _ _ r3) hup
  -- the check loads the policies
  simp only [pdRun] at r4
  split at r4
  · simp at r4
  rename_i sl hsl
  have tsl := pdRun_now_le r4
  have tls := pdStep_now_le hsl
  obtain ⟨g, hg, hh⟩ := i3.held ht3 hj3
  have il := i3.step hb (by omega) (aloneAt_of (hone _ (.load k :: h4) s3 rfl (run2 _ _ r3))) (fun m d' he _ => by simp at he) hsl
  obtain ⟨tl, htl, _, _, _, _, _, hjl⟩ := pdStep_task hsl ht3
  have hjl : tl.jobs = [.done none] := by rw [hjl (by simp [Task.allDone, hj3]), hj3]
  have hchk : ∃ q, DenyChk U a s0.live k q sl := by
    unfold pdStep at hsl
    split at hsl
    · simp at hsl
    simp only at hsl
    split at hsl
    · simp at hsl
    · rename_i c0 hc0
      split at hsl
      · simp at hsl
      · simp only [Option.some.injEq] at hsl; subst hsl
        refine ⟨c0.q, ⟨c0.q, some (s3.live, s3.now, (s3.objs[s3.live]?).getD Gache.empty),
          c0.q.init (viewOf ((s3.objs[s3.live]?).getD Gache.empty) s3.now)⟩,
          by simp only; rw [List.getElem?_set_self (lt_of_getElem? hc0)], rfl, ⟨_, _, by rw [hlive3]⟩, ?_⟩
        simp only
        refine CheckReq.init_inv U c0.q _ _ ?_
        rw [hlive3, hg, Option.getD_some]
        exact hh.at (by omega)
  obtain ⟨q, hchk⟩ := hchk
  have hfin := hchk.run il htl hjl hb (Int.le_refl _) (fun as1 as2 sm he hr => aloneAt_of (hone (h1 ++ .hook n (some d) :: h2 ++ h3 ++ .load k :: as1)
    as2 sm (by rw [he]; simp) (run3 _ _ (by simp only [pdRun, hsl]; exact hr)))) (fun m d' hm => hgot m d' (by simp [hm])) r4
  obtain ⟨c', hc', hqc, _⟩ := id hfin
  rw [hc] at hc'
  obtain rfl := Option.some.inj hc'
  subst hqc
  exact hfin.refused hc hrole hap rs

namespace Ex

/-- The refreshes fetch and merge at the same time, but write one after the other. -/
def rdTurns : List PdAct :=
  [.hook 0 (some rdDoc), .task 1 (.job 0 []), .task 1 (.merge 0 0), .task 1 (.merge 0 0), .task 1 (.merge 0 0), .task 1 (.merge 0 0),
   .task 2 (.job 0 []), .task 2 (.merge 0 0), .task 2 (.merge 0 0), .task 2 (.merge 0 0), .task 2 (.merge 0 0),
   .task 1 (.job 0 [allowR, denyXY]), .task 1 (.job 0 []), .task 1 (.job 0 []), .task 1 (.job 0 []), .task 1 (.job 0 []), .task 1 (.job 0 []),
   .task 2 (.job 0 [denyXY, allowR]), .task 2 (.job 0 []), .task 2 (.job 0 []), .task 2 (.job 0 []), .task 2 (.job 0 []), .task 2 (.job 0 [])]

def rdChk : List CheckAct := [.worker 0, .worker 0, .recv]

/-- At most one task writes, executably. -/
def rdOne (o : Nat) (s : PdState) : Bool :=
  decide ((s.tasks.filter fun t => decide (t.obj = o) && t.jobs.any Job.writes).length ≤ 1)

theorem filter_two {α : Type} {p : α → Bool} {l : List α} {i i' : Nat} {x x' : α} (hi : l[i]? = some x) (hi' : l[i']? = some x') (hx : p x = true)
    (hx' : p x' = true) (hlt : i < i') : 2 ≤ (l.filter p).length := by
  induction l generalizing i i' with
  | nil => simp at hi
  | cons y l ih =>
    cases i' with
    | zero => omega
    | succ i' =>
      cases i with
      | zero =>
        simp at hi hi'
        subst hi
        rw [List.filter_cons_of_pos hx]
        have : 0 < (l.filter p).length := List.length_pos_of_mem (List.mem_filter.mpr ⟨List.mem_of_getElem? hi', hx'⟩)
        simp only [List.length_cons]; omega
      | succ i =>
        simp at hi hi'
        have := ih hi hi' (by omega)
        rw [List.filter_cons]
        split
        · simp only [List.length_cons]; omega
        · exact this

theorem rdOne_sound {o : Nat} {s : PdState} (h : rdOne o s = true) : OneWrites o s := by
  simp only [rdOne, decide_eq_true_eq] at h
  have hp : ∀ t : Task, t.obj = o → Writes t → (decide (t.obj = o) && t.jobs.any Job.writes) = true := by
    rintro t ho ⟨j, hj, ttl, todo, pc, rfl⟩
    simp only [Bool.and_eq_true, decide_eq_true_eq, List.any_eq_true]
    exact ⟨ho, _, hj, rfl⟩
  intro i i' t t' h1 h2 h3 h4 h5 h6
  rcases Nat.lt_trichotomy i i' with hlt | he | hlt
  · have := filter_two (p := fun t : Task => decide (t.obj = o) && t.jobs.any Job.writes) h1 h2 (hp t h3 h5) (hp t' h4 h6) hlt; omega
  · exact he
  · have := filter_two (p := fun t : Task => decide (t.obj = o) && t.jobs.any Job.writes) h2 h1 (hp t' h4 h6) (hp t h3 h5) hlt; omega

/-- At most one task writes, all along the schedule. -/
def rdAll (o : Nat) (s : PdState) : List PdAct → Bool
  | [] => rdOne o s
  | a :: as => rdOne o s && match pdStep asciiCase s a with
    | none => false
    | some s' => rdAll o s' as

theorem rdAll_sound {o : Nat} {s : PdState} {as : List PdAct} (h : rdAll o s as = true) {h1 h2 : List PdAct} {sm : PdState} (he : as = h1 ++ h2)
    (hr : pdRun asciiCase s h1 = some sm) : OneWrites o sm := by
  induction h1 generalizing s as with
  | nil =>
    simp only [pdRun, Option.some.injEq] at hr; subst hr
    cases as with
    | nil => exact rdOne_sound h
    | cons a as => simp only [rdAll, Bool.and_eq_true] at h; exact rdOne_sound h.1
  | cons a h1 ih =>
    subst he
    simp only [List.cons_append, rdAll, Bool.and_eq_true] at h
    simp only [pdRun] at hr
    split at hr
    · simp at hr
    · rename_i s' hs'
      have := h.2
      rw [hs'] at this
      exact ih this rfl hr

end Ex

/-- The hypotheses are met: two refreshes run at the same time, and the request is refused. -/
example : ∃ (s0 s1 s2 s3 s : PdState) (c : Chk), pdRun asciiCase (pdInit 10 ["d".toList]) Ex.rdPre = some s0 ∧ NoRefresh s0 ∧
    pdRun asciiCase s0 [.hook 0 (some Ex.rdDoc)] = some s1 ∧ pdRun asciiCase s1 Ex.rdTurns = some s2 ∧ RefreshDone s2 s1.tasks.length ∧
    pdRun asciiCase s2 [.check Ex.reqR] = some s3 ∧ NoUpdateBetween s0 s3 ∧ pdRun asciiCase s3 (.load 0 :: Ex.rdChk.map (.chk 0)) = some s ∧
    s.checks[0]? = some c ∧ ValidAt s.now Ex.rdDoc ∧
    (∀ h h' sm, [.hook 0 (some Ex.rdDoc)] ++ Ex.rdTurns ++ [.check Ex.reqR] ++ .load 0 :: Ex.rdChk.map (.chk 0) = h ++ h' →
      pdRun asciiCase s0 h = some sm → OneWrites s0.live sm) ∧
    DeniesClearly asciiCase Ex.rdDoc c.q ∧ c.cs.coll = .ret (.err .denyByPolicy) := by
  obtain ⟨s0, hs0, hp⟩ := Ex.exists_of_map (o := pdRun asciiCase (pdInit 10 ["d".toList]) Ex.rdPre)
    (p := fun s0 => Ex.rdQuiet s0 &&
      Ex.rdAll s0.live s0 ([.hook 0 (some Ex.rdDoc)] ++ Ex.rdTurns ++ [.check Ex.reqR] ++ .load 0 :: Ex.rdChk.map (.chk 0)) &&
      ((pdRun asciiCase s0 [.hook 0 (some Ex.rdDoc)]).bind fun s1 => (pdRun asciiCase s1 Ex.rdTurns).bind fun s2 =>
        (pdRun asciiCase s2 [.check Ex.reqR]).bind fun s3 => (pdRun asciiCase s3 (.load 0 :: Ex.rdChk.map (.chk 0))).map fun s =>
          Ex.rdDone s2 s1.tasks.length && decide (s3.tasks.map (·.ret) = s0.tasks.map (·.ret) ++ List.replicate (s3.tasks.length - s0.tasks.length) none) &&
          decide (Ex.ck0 s = some (.ret (.err .denyByPolicy), Ex.reqR)) && decide (s.now < 5000)) == some true) (by decide +kernel)
  simp only [Bool.and_eq_true, decide_eq_true_eq, beq_iff_eq, Option.bind_eq_some_iff, Option.map_eq_some_iff] at hp
  obtain ⟨⟨hq, hall⟩, s1, hs1, s2, hs2, s3, hs3, s, hs, ⟨⟨hd, hret⟩, hck⟩, hnow⟩ := hp
  obtain ⟨c, hc, hcoll, hcq⟩ := Ex.ck0_some hck
  refine ⟨s0, s1, s2, s3, s, c, hs0, Ex.rdQuiet_sound hq, hs1, hs2, Ex.rdDone_sound hd, hs3, Ex.noUpdateBetween_of hret, hs, hc, ⟨hnow, ?_⟩,
    fun h h' sm he hr => Ex.rdAll_sound hall he hr, by rw [hcq]; exact Ex.rdDoc_denies, hcoll⟩
  show (5000 : Int) + s.now < 2 ^ 63
  omega

end Athenz
