import Verif.Props.Policyd
import Verif.Props.Local
import Verif.Spec.Decision

/-! # C12 for the caller's roles, whatever the documents say about other roles -/

namespace Athenz
open Spec

/-- The views that represent the assertions `A` as far as the request is concerned. -/
def RepView (U : CaseFns) (A : List RawAssertion) (q : CheckReq) (v : PolicyView) : Prop :=
  ∀ role ∈ q.roles, RepKey U A (roleKey q.domain role) (v (roleKey q.domain role))

/-- A check decides as the assertions prescribe if the cache represents them all the time, however it changes. -/
theorem decision_changing {U : CaseFns} {A : List RawAssertion} {q : CheckReq} {parent : Bool} {r : Res (List Str)}
    (h : RetOk U q (RepView U A q) parent r) : Decision U A q r := by
  have hv : ∀ role ∈ q.roles, ∀ v, RepView U A q v → _ := fun role hr v hv => verdict_rep (q := q) (hv role hr)
  cases r with
  | panic => exact h.elim
  | ok rs =>
    obtain ⟨hne, os, h1, h2, h3⟩ := h
    have hrole : ∀ o ∈ os, o.1 ∈ q.roles := fun o ho => by rw [← h1]; exact List.mem_map_of_mem ho
    have hnden : ¬ ∃ role ∈ q.roles, Denied U A q.domain role q.action q.resource := by
      rintro ⟨role, hr, hd⟩
      rw [← h1] at hr
      obtain ⟨o, ho, rfl⟩ := List.mem_map.mp hr
      obtain ⟨⟨v, hv', hvd⟩, he⟩ := h2 o ho
      exact he _ (hvd.symm.trans ((hv _ (hrole o ho) v hv').1.mpr hd))
    have hmem : ∀ role, role ∈ rs ↔ role ∈ q.roles ∧ Allowed U A q.domain role q.action q.resource := by
      intro role
      rw [h3.mem_iff, List.mem_filterMap]
      constructor
      · rintro ⟨o, ho, hor⟩
        split at hor
        · rename_i hn
          simp only [Option.some.injEq] at hor
          subst hor
          obtain ⟨⟨v, hv', hvd⟩, _⟩ := h2 o ho
          exact ⟨hrole o ho, ((hv _ (hrole o ho) v hv').2.1.mp (hvd.trans hn)).1⟩
        · simp at hor
      · rintro ⟨hr, ha⟩
        rw [← h1] at hr
        obtain ⟨o, ho, rfl⟩ := List.mem_map.mp hr
        obtain ⟨⟨v, hv', hvd⟩, _⟩ := h2 o ho
        refine ⟨o, ho, ?_⟩
        rw [if_pos (hvd.symm.trans ((hv _ (hrole o ho) v hv').2.1.mpr ⟨ha, fun hd => hnden ⟨_, hrole o ho, hd⟩⟩))]
    refine ⟨?_, hnden, hmem⟩
    cases rs with
    | nil => exact absurd rfl hne
    | cons x xs => exact ⟨x, (hmem x).mp (by simp)⟩
  | err e =>
    rcases h with ⟨role, hr, v, hv', hvd⟩ | ⟨rfl, _⟩ | ⟨rfl, hall⟩
    · obtain ⟨rfl, hden⟩ := verdict_deny_sound ⟨(hv' role hr).denyFirst, (hv' role hr).sound⟩ hvd
      exact .inr (.inl ⟨rfl, role, hr, hden⟩)
    · exact .inl rfl
    · refine .inr (.inr ⟨rfl, fun role hr => ?_⟩)
      obtain ⟨v, hv', hvd⟩ := hall role hr
      exact (hv role hr v hv').2.2.mp hvd

theorem OwnerAt.earlier {docs : List (Option PolicyDoc)} {n0 now T0 T t : Int} {k : Str} {i : Nat} {d : PolicyDoc} (h : OwnerAt docs n0 now now k i d)
    (h0 : 0 ≤ n0) (hT0 : n0 ≤ T0) (hT : T ≤ now) (ht : t ≤ now) : OwnerAt docs T0 T t k i d := by
  refine ⟨h.doc, h.only, ?_⟩
  rcases h.live with h1 | ⟨h1, h2, h3, h4⟩
  · exact .inl (by omega)
  · exact .inr ⟨by omega, by omega, by omega, by omega⟩

theorem RegularAt.earlier {U : CaseFns} {docs : List (Option PolicyDoc)} {n0 now T0 T t : Int} {k : Str} (h : RegularAt U docs n0 now now k)
    (h0 : 0 ≤ n0) (hT0 : n0 ≤ T0) (hT : T ≤ now) (ht : t ≤ now) : RegularAt U docs T0 T t k := by
  rcases h with h | ⟨i, d, ho, hr⟩
  · exact .inl h
  · exact .inr ⟨i, d, ho.earlier h0 hT0 hT ht, hr⟩

theorem pdStep_now_le {U : CaseFns} {s s' : PdState} {a : PdAct} (hs : pdStep U s a = some s') : s.now ≤ s'.now := by
  unfold pdStep at hs
  split at hs
  · simp at hs
  cases a with
  | tick d => simp only [Option.some.injEq] at hs; subst hs; simp only; omega
  | _ =>
    simp only at hs
    repeat' split at hs
    all_goals first
      | (simp only [Option.some.injEq] at hs; subst hs; exact Int.le_refl _)
      | simp at hs

theorem pdRun_now_le {U : CaseFns} {as : List PdAct} {s s' : PdState} (hr : pdRun U s as = some s') : s.now ≤ s'.now := by
  induction as generalizing s with
  | nil => simp only [pdRun, Option.some.injEq] at hr; subst hr; exact Int.le_refl _
  | cons a as ih =>
    simp only [pdRun] at hr
    split at hr
    · simp at hr
    · rename_i x hx
      exact Int.le_trans (pdStep_now_le hx) (ih hr)

/-- **C12** and **C02** together, for the caller's roles: if the documents in force when the check loaded the pointer are regular for the
roles asked for, then a check decides exactly as they say, whatever happens concurrently and whatever they say about other roles.
Missing: irregular documents (C10) and background refreshes (C13). -/
theorem C12_check_local_partial (U : CaseFns) (n0 : Int) (hn0 : 0 ≤ n0) (domains : List Str) (pre post : List PdAct) (k : Nat)
    (hnh : ∀ a ∈ pre ++ post, a.notHook) (s1 s2 s3 : PdState) (h1 : pdRun U (pdInit n0 domains) pre = some s1)
    (h2 : pdStep U s1 (.load k) = some s2) (h3 : pdRun U s2 post = some s3) (c : Chk) (hc : s3.checks[k]? = some c)
    (r : Res (List Str)) (hret : c.cs.coll = .ret r)
    (hreg : ∀ role ∈ c.q.roles, RegularAt U s1.liveDocs n0 s3.now s3.now (c.q.domain ++ ":role.".toList ++ role)) :
    Decision U (allAssertions s1.liveDocs) c.q r := by
  obtain ⟨sched, ⟨cs, hrun, hcoll⟩, hm⟩ := C12_check_one_version U n0 domains pre post k hnh s1 s2 s3 h1 h2 h3 c hc r hret
  have h13 : s1.now ≤ s3.now := by
    exact Int.le_trans (pdStep_now_le h2) (pdRun_now_le h3)
  have hrep : ∀ t, s1.now ≤ t → t ≤ s3.now → RepView U (allAssertions s1.liveDocs) c.q (viewOf s1.liveObj t) := by
    intro t ht1 ht2 role hrole
    rcases C12_live_is_version U n0 domains pre (fun a ha => hnh a (by simp [ha])) s1 h1 with ⟨e1, e2, _⟩ | ⟨T0, u, hT0, hun, hU, _, hsame⟩
    · rw [e1, e2]
      exact ⟨by simp [viewOf, Gache.get, Gache.empty], by simp [viewOf, Gache.get, Gache.empty], by simp [allAssertions]⟩
    · rw [hsame t ht1]
      exact ((hreg role hrole).earlier hn0 hT0 (by omega) ht2).rep hU
  have hinv := (CheckReq.init_inv U c.q (RepView U (allAssertions s1.liveDocs) c.q) _ (hrep _ (Int.le_refl _) h13)).run (as := sched) (by
    intro a ha
    cases a with
    | mutate v =>
      obtain ⟨t, ht1, ht2, rfl⟩ := hm v ha
      exact hrep t ht1 ht2
    | _ => trivial) hrun
  exact decision_changing (hinv.ret r hcoll)

namespace Ex

/-- `mixDoc` is loaded in the order in which the merge loses the deny of role `s`; then `r` is checked. -/
def mixPre : List PdAct := [.update [some mixDoc]] ++ mixUpd.map (.task 0) ++ [.finish 0, .check reqR]

theorem mixDoc_regular15 : RegularAt asciiCase [some mixDoc] 10 15 15 "d:role.r".toList := by
  rcases mixDoc_regularAt ⟨10, false, Gache.empty, []⟩ rfl with h | ⟨i, d, ho, hr⟩
  · exact .inl h
  · refine .inr ⟨i, d, ⟨ho.doc, ho.only, .inr ?_⟩, hr⟩
    have hd : d = mixDoc := by
      have := ho.doc
      match i with
      | 0 => simpa using this.symm
      | n + 1 => simp at this
    subst hd
    decide

end Ex

/-- The hypotheses of `C12_check_local_partial` in a history in which an update of the same domain runs while the check does; the document
as a whole is not regular. -/
example : ∃ s1 s2 s3 c, pdRun asciiCase (pdInit 10 ["d".toList]) Ex.mixPre = some s1 ∧ pdStep asciiCase s1 (.load 0) = some s2 ∧
    pdRun asciiCase s2 ([.tick 5, .update [none], .task 1 (.job 0 [])] ++ [CheckAct.worker 0, .worker 0, .recv].map (.chk 0)) = some s3 ∧
    s3.checks[0]? = some c ∧ c.cs.coll = .ret (.err .denyByPolicy) ∧
    (∀ role ∈ c.q.roles, RegularAt asciiCase s1.liveDocs 10 s3.now s3.now (c.q.domain ++ ":role.".toList ++ role)) := by
  obtain ⟨s1, hs1, hp⟩ := Ex.exists_of_map (o := pdRun asciiCase (pdInit 10 ["d".toList]) Ex.mixPre)
    (p := fun s1 => decide (s1.liveDocs = [some Ex.mixDoc]) &&
      (((pdStep asciiCase s1 (.load 0)).bind fun s2 =>
        (pdRun asciiCase s2 ([.tick 5, .update [none], .task 1 (.job 0 [])] ++ [CheckAct.worker 0, .worker 0, .recv].map (.chk 0))).map
          fun s3 => decide (Ex.ck0 s3 = some (.ret (.err .denyByPolicy), Ex.reqR)) && decide (s3.now = 15)) == some true)) (by decide +kernel)
  simp only [Bool.and_eq_true, decide_eq_true_eq, beq_iff_eq, Option.bind_eq_some_iff, Option.map_eq_some_iff] at hp
  obtain ⟨h1, s2, hs2, s3, hs3, hk, h4⟩ := hp
  obtain ⟨c, hc, hcoll, hq⟩ := Ex.ck0_some hk
  refine ⟨s1, s2, s3, c, hs1, hs2, hs3, hc, hcoll, ?_⟩
  rw [hq, h1, h4]
  intro role hr
  simp [Ex.reqR] at hr
  subst hr
  exact Ex.mixDoc_regular15

end Athenz
