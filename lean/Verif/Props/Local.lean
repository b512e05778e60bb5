import Verif.Props.Limits
import Verif.Proofs.MergeLost
import Verif.Proofs.RoleLocal

/-! # C01, C02, C08, C10: exactly which denies can be lost, and decisions about one role whatever else the documents contain -/

namespace Athenz

/-! ## C10 -/

theorem eq_of_nodup_map {α β : Type} {f : α → β} {l : List α} (h : (l.map f).Nodup) {x y : α} (hx : x ∈ l) (hy : y ∈ l)
    (he : f x = f y) : x = y := by
  induction l with
  | nil => simp at hx
  | cons z l ih =>
    simp only [List.map_cons, List.nodup_cons] at h
    rcases List.mem_cons.mp hx with hx1 | hx1 <;> rcases List.mem_cons.mp hy with hy1 | hy1
    · rw [hx1, hy1]
    · exact absurd (List.mem_map.mpr ⟨y, hy1, by rw [← he, hx1]⟩) h.1
    · exact absurd (List.mem_map.mpr ⟨x, hx1, by rw [he, hy1]⟩) h.1
    · exact ih h.2 hx1 hy1

/-- **C10**, exactly: in a document without commas in roles and actions, the deny of a triple survives every interleaving if and only
if every policy that mentions the triple denies it. If one policy only allows it, then some interleaving loses the deny. -/
theorem C10_exact (U : CaseFns) (d : PolicyDoc) (hC : CommaFree d.policies.flatten) (a : RawAssertion) (ha : a ∈ d.policies.flatten) :
    (∀ (sched : List Nat) (s : MergeState), mergeRun U d.mergeInit sched = some s → s.finished = true →
      ∃ b ∈ s.map.map (·.2), Spec.SameTriple a b ∧ Spec.IsDeny U b) ↔
    Spec.DeniedByAll U d.policies a := by
  have hkey : ∀ b ∈ d.policies.flatten, b.key = a.key → Spec.SameTriple a b := fun b hb hk => key_inj hk (hC b hb) (hC a ha)
  constructor
  · intro h p hp hb
    by_cases hex : ∃ b ∈ p, Spec.SameTriple a b ∧ Spec.IsDeny U b
    · exact hex
    · exfalso
      obtain ⟨b0, hb0, hs0⟩ := hb
      obtain ⟨sched, s, c, hr, hf, hl, hc⟩ := merge_lost (U := U) hp ⟨b0, hb0, hs0.key⟩ (by
        intro x hx hk
        cases hd : x.isDeny U with
        | false => rfl
        | true =>
          exact absurd ⟨x, hx, hkey x (List.mem_flatten.mpr ⟨p, hp, hx⟩) hk, (isDeny_iff U x).mp hd⟩ hex)
      obtain ⟨b, hb, hbt, hbd⟩ := h sched s hr hf
      have hm := mergeRun_merged hr hf
      have hcm : c ∈ s.map.map (·.2) := List.mem_map.mpr ⟨_, AssMap.mem_of_load hl, rfl⟩
      obtain ⟨cons, hi⟩ := mergeRun_inv (mergeInit_inv U d) hr
      have hck : c.key = a.key := ((hi.sub _ (AssMap.mem_of_load hl)).1).symm
      have : b = c := eq_of_nodup_map hm.nodup hb hcm (hbt.key.trans hck.symm)
      subst this
      rw [(isDeny_iff U b).mpr hbd] at hc
      simp at hc
  · intro h sched s hr hf
    have hm := mergeRun_merged hr hf
    obtain ⟨b, hb, hk, hbd⟩ := hm.deny a ha (by
      intro p hp hex
      obtain ⟨b, hb, hk⟩ := hex
      obtain ⟨c, hc, hct, hcd⟩ := h p hp ⟨b, hb, hkey b (List.mem_flatten.mpr ⟨p, hp, hb⟩) hk⟩
      exact ⟨c, hc, hct.key, (isDeny_iff U c).mpr hcd⟩)
    exact ⟨b, hb, hkey b (hm.sub b hb) hk, (isDeny_iff U b).mp hbd⟩

namespace Ex

def allowSame : RawAssertion := ⟨"d:role.s".toList, "*".toList, "d:xy?".toList, "allow".toList⟩
/-- Both policies deny the triple of role `r`, the first one allows it as well; the triple of role `s` races. -/
def mixDoc : PolicyDoc := ⟨[[denyR, allowR, allowSame], [denyR, denyS]], 1000⟩

theorem mixDoc_commaFree : CommaFree mixDoc.policies.flatten := by
  intro a ha
  simp [mixDoc] at ha
  rcases ha with rfl | rfl | rfl | rfl | rfl <;> decide

end Ex

/-- In `mixDoc` no interleaving loses the deny of role `r`, and some interleaving loses that of role `s`. -/
example : (∀ p ∈ Ex.mixDoc.policies, (∃ b ∈ p, Spec.SameTriple Ex.denyR b) → ∃ b ∈ p, Spec.SameTriple Ex.denyR b ∧ Spec.IsDeny asciiCase b) ∧
    ¬ (∀ p ∈ Ex.mixDoc.policies, (∃ b ∈ p, Spec.SameTriple Ex.denyS b) → ∃ b ∈ p, Spec.SameTriple Ex.denyS b ∧ Spec.IsDeny asciiCase b) := by
  constructor
  · intro p hp _
    simp [Ex.mixDoc] at hp
    rcases hp with rfl | rfl
    · exact ⟨Ex.denyR, by simp, ⟨rfl, rfl, rfl⟩, by decide⟩
    · exact ⟨Ex.denyR, by simp, ⟨rfl, rfl, rfl⟩, by decide⟩
  · intro h
    obtain ⟨b, hb, hs, hd⟩ := h [Ex.denyR, Ex.allowR, Ex.allowSame] (by simp [Ex.mixDoc]) ⟨Ex.allowSame, by simp, rfl, rfl, rfl⟩
    simp at hb
    rcases hb with rfl | rfl | rfl
    · exact absurd hs.1 (by decide)
    · exact absurd hs.1 (by decide)
    · exact absurd hd (by decide)

/-! ## One role -/

/-- No document speaks about role `k`. -/
def Silent (docs : List (Option PolicyDoc)) (k : Str) : Prop := ∀ a ∈ allAssertions docs, a.role ≠ k

/-- Document number `i` is the only one that speaks about role `k`; while the update runs and up to `t` it is valid, or it had expired
before the update began (then what the update stores never expires). -/
structure OwnerAt (docs : List (Option PolicyDoc)) (T0 T t : Int) (k : Str) (i : Nat) (d : PolicyDoc) : Prop where
  doc : docs[i]? = some (some d)
  only : OwnedBy docs k i
  live : d.expires ≤ T0 ∨ (0 ≤ T0 ∧ T < d.expires ∧ d.expires + T < 2 ^ 63 ∧ t ≤ d.expires)

/-- No assertion of the document about another triple gives the same text when its parts are joined with commas. -/
def Unambiguous (d : PolicyDoc) (a : RawAssertion) : Prop :=
  ∀ b ∈ d.policies.flatten, Spec.joined b = Spec.joined a → Spec.SameTriple a b

theorem Unambiguous.key {d : PolicyDoc} {a : RawAssertion} (h : Unambiguous d a) :
    ∀ b ∈ d.policies.flatten, b.key = a.key → Spec.SameTriple a b := fun b hb hk => h b hb (by rw [joined_eq, joined_eq, hk])

theorem unambiguous_of {d : PolicyDoc} {a : RawAssertion} (hC : CommaFree d.policies.flatten) (ha : a ∈ d.policies.flatten) :
    Unambiguous d a := fun b hb hk => key_inj (by rwa [joined_eq, joined_eq] at hk) (hC b hb) (hC a ha)

/-- What the documents have to satisfy for role `k`. Nothing is asked about other roles and other documents. -/
def RegularAt (U : CaseFns) (docs : List (Option PolicyDoc)) (T0 T t : Int) (k : Str) : Prop :=
  Silent docs k ∨ ∃ i d, OwnerAt docs T0 T t k i d ∧
    ∀ a ∈ d.policies.flatten, a.role = k → Unambiguous d a ∧ (Spec.IsDeny U a → Spec.DeniedByAll U d.policies a)

theorem OwnerAt.content {U : CaseFns} {docs : List (Option PolicyDoc)} {T0 t : Int} {s : UpdState} {k : Str} {i : Nat} {d : PolicyDoc}
    (h : OwnerAt docs T0 s.now t k i d) (hU : Updated U docs T0 s) :
    ∃ filled, Merged U d filled ∧ RepKey U filled k (viewOf s.rp t k) := by
  obtain ⟨sched, hrun, hok⟩ := hU
  have key : ∃ L, KeepsUntil d T0 s.now L ∧ s.now ≤ L ∧ t ≤ L := by
    rcases h.live with hv | ⟨h1, h2, h3, h4⟩
    · exact ⟨max s.now t, keepsUntil_expired hv _, by omega, by omega⟩
    · exact ⟨d.expires, keepsUntil_valid h1 h2 h3, by omega, h4⟩
  obtain ⟨L, hk, hL, ht⟩ := key
  obtain ⟨filled, h1, h2, h3⟩ := role_content h.doc h.only hrun hok hk hL
  refine ⟨filled, h1, ?_⟩
  rw [h3 t ht]
  exact content_rep (List.Perm.refl _) h2 k

theorem RegularAt.rep {U : CaseFns} {docs : List (Option PolicyDoc)} {T0 t : Int} {s : UpdState} {k : Str}
    (h : RegularAt U docs T0 s.now t k) (hU : Updated U docs T0 s) : RepKey U (allAssertions docs) k (viewOf s.rp t k) := by
  rcases h with h | ⟨i, d, ho, hreg⟩
  · have hs := updated_sound hU t k
    exact ⟨hs.denyFirst, hs.sound, fun a ha hr => absurd hr (h a ha)⟩
  · obtain ⟨filled, hm, hrep⟩ := ho.content hU
    have hmem : some d ∈ docs := List.mem_of_getElem? ho.doc
    refine ⟨hrep.denyFirst, ?_, ?_⟩
    · intro l hl x hx
      obtain ⟨a, ha, hr, hc⟩ := hrep.sound l hl x hx
      exact ⟨a, mem_allAssertions.mpr ⟨d, hmem, hm.sub a ha⟩, hr, hc⟩
    · intro a ha hr
      obtain ⟨d', hd', had'⟩ := mem_allAssertions.mp ha
      obtain ⟨j, hj⟩ := List.mem_iff_getElem?.mp hd'
      have had : a ∈ d.policies.flatten := by
        by_cases hij : j = i
        · subst hij; rw [ho.doc] at hj; simp only [Option.some.injEq] at hj; subst hj; exact had'
        · exact absurd hr (ho.only j d' hij hj a had')
      obtain ⟨hun, hsafe⟩ := hreg a had hr
      have hb : ∃ b ∈ filled, b.key = a.key ∧ (a.isDeny U = true → b.isDeny U = true) := by
        cases hden : a.isDeny U with
        | true =>
          obtain ⟨b, hb, hbk, hbd⟩ := hm.deny a had (keySafe_of hun.key (hsafe ((isDeny_iff U a).mp hden)))
          exact ⟨b, hb, hbk, fun _ => hbd⟩
        | false =>
          obtain ⟨b, hb, hbk⟩ := hm.cover a had
          exact ⟨b, hb, hbk, by simp⟩
      obtain ⟨b, hb, hbk, hbd⟩ := hb
      obtain ⟨e1, e2, e3⟩ := hun.key b (hm.sub b hb) hbk
      obtain ⟨l, hl, c, x, hx, hc, f1, f2, f3, f4⟩ := hrep.complete b hb (e1.trans hr)
      exact ⟨l, hl, c, x, hx, hc, f1.trans e1, f2.trans e2, f3.trans e3, fun hd => f4 (hbd hd)⟩

/-- The condition for one role follows from the condition for whole documents. -/
theorem Regular.at {U : CaseFns} {docs : List (Option PolicyDoc)} {T0 T t : Int} (h : Regular U docs T0 T)
    (ht : ∀ d, some d ∈ docs → t ≤ d.expires) (k : Str) : RegularAt U docs T0 T t k := by
  by_cases hk : Silent docs k
  · exact .inl hk
  · simp only [Silent, Classical.not_forall, ne_eq, Classical.not_not] at hk
    obtain ⟨a0, ha0, rfl⟩ := hk
    obtain ⟨d, hd, had⟩ := mem_allAssertions.mp ha0
    obtain ⟨i, hi⟩ := List.mem_iff_getElem?.mp hd
    refine .inr ⟨i, d, ⟨hi, ?_, .inr ⟨h.frame.pos, (h.frame.valid d hd).1, (h.frame.valid d hd).2, ht d hd⟩⟩, ?_⟩
    · intro j d' hij hj b hb hr
      exact h.disjoint j i d' d hij hj hi b hb a0 had hr
    · intro a ha _
      have hc : ∀ b ∈ d.policies.flatten, ',' ∉ b.role ∧ ',' ∉ b.action :=
        fun b hb => h.commaFree b (mem_allAssertions.mpr ⟨d, hd, hb⟩)
      exact ⟨unambiguous_of hc ha, h.denySafe d hd a ha⟩

/-- **C01** for one denied triple, whatever else the documents contain. The request is refused if the triple applies, its document is
the only one that speaks about the role, no other triple has the same key, and every policy that mentions the triple denies it. Missing: the cases of `C01_refuted`, `C10_comma_refuted` and roles shared by two documents. -/
theorem C01_local_partial (U : CaseFns) (docs : List (Option PolicyDoc)) (T0 : Int) (s : UpdState) (t : Int) (q : CheckReq)
    (sched : List CheckAct) (r : Res (List Str)) (hU : Updated U docs T0 s) (hs : ViewStable sched)
    (h : CheckReturns U q (viewOf s.rp t) sched r) (role : Str) (hrole : role ∈ q.roles) (i : Nat) (d : PolicyDoc)
    (ho : OwnerAt docs T0 s.now t (q.domain ++ ":role.".toList ++ role) i d) (a : RawAssertion) (ha : a ∈ d.policies.flatten)
    (hap : Spec.Applies U a q.domain role q.action q.resource) (hun : Unambiguous d a)
    (hsafe : Spec.DeniedByAll U d.policies a) :
    ∃ e, r = .err e := by
  obtain ⟨filled, hm, hrep⟩ := ho.content hU
  obtain ⟨b, hb, hbk, hbd⟩ := hm.deny a ha (keySafe_of hun.key hsafe)
  obtain ⟨e1, e2, e3⟩ := hun.key b (hm.sub b hb) hbk
  have hd : Spec.Denied U filled q.domain role q.action q.resource :=
    ⟨b, hb, by unfold Spec.Applies at hap ⊢; rw [e1, e2, e3]; exact hap, (isDeny_iff U b).mp hbd⟩
  have hv := (verdict_rep (q := q) (v := viewOf s.rp t) (r := role) hrep).1.mpr hd
  have hsp := check_result hs h
  cases r with
  | ok rs => exact absurd ((decides_iff ..).mpr hv) (hsp.2.1 role hrole _)
  | err e => exact ⟨e, rfl⟩
  | panic => exact hsp.elim

/-- **C02** for the caller's roles, whatever the documents say about other roles: the exact decision, the error of every refusal, and
the authorized roles. Missing: see `C01_local_partial`. -/
theorem C02_local_partial (U : CaseFns) (docs : List (Option PolicyDoc)) (T0 : Int) (s : UpdState) (t : Int) (q : CheckReq)
    (sched : List CheckAct) (r : Res (List Str)) (hU : Updated U docs T0 s)
    (hR : ∀ role ∈ q.roles, RegularAt U docs T0 s.now t (q.domain ++ ":role.".toList ++ role))
    (hs : Undisturbed sched) (h : CheckReturns U q (viewOf s.rp t) sched r) :
    ((∃ rs, r = .ok rs) ↔
      (∃ role ∈ q.roles, Spec.Allowed U (allAssertions docs) q.domain role q.action q.resource) ∧
      ¬ ∃ role ∈ q.roles, Spec.Denied U (allAssertions docs) q.domain role q.action q.resource) ∧
    (r = .err .denyByPolicy ↔ ∃ role ∈ q.roles, Spec.Denied U (allAssertions docs) q.domain role q.action q.resource) ∧
    (r = .err .noMatch ↔ ∀ role ∈ q.roles, ¬ Spec.Allowed U (allAssertions docs) q.domain role q.action q.resource ∧
      ¬ Spec.Denied U (allAssertions docs) q.domain role q.action q.resource) ∧
    (∀ rs, r = .ok rs → ∀ role, role ∈ rs ↔
      role ∈ q.roles ∧ Spec.Allowed U (allAssertions docs) q.domain role q.action q.resource) :=
  decision_of_rep (fun role hr => (hR role hr).rep hU) hs h

namespace Ex

def mixUpd : List UpdAct :=
  [.job 0 [], .job 0 [], .merge 0 0, .merge 0 0, .merge 0 0, .merge 0 0, .merge 0 0, .merge 0 1, .merge 0 1, .merge 0 1, .merge 0 1,
   .merge 0 0, .job 0 [denyR, allowSame], .job 0 [], .job 0 [], .job 0 [], .job 0 [], .job 0 []]

theorem mixDoc_owner (s : UpdState) (hn : s.now = 10) : OwnerAt [some mixDoc] 10 s.now 20 "d:role.r".toList 0 mixDoc := by
  refine ⟨rfl, ?_, .inr (by rw [hn]; decide)⟩
  intro j d hj hd
  match j with
  | 0 => exact absurd rfl hj
  | n + 1 => simp at hd

theorem mixDoc_regularAt (s : UpdState) (hn : s.now = 10) : RegularAt asciiCase [some mixDoc] 10 s.now 20 "d:role.r".toList := by
  refine .inr ⟨0, mixDoc, mixDoc_owner s hn, ?_⟩
  intro a ha hr
  refine ⟨unambiguous_of mixDoc_commaFree ha, fun hd => ?_⟩
  have hkey : Spec.SameTriple a denyR := by
    simp [mixDoc] at ha
    rcases ha with rfl | rfl | rfl | rfl | rfl
    · exact ⟨rfl, rfl, rfl⟩
    · exact ⟨rfl, rfl, rfl⟩
    · exact absurd hr (by decide)
    · exact ⟨rfl, rfl, rfl⟩
    · exact absurd hr (by decide)
  intro p hp _
  simp [mixDoc] at hp
  rcases hp with rfl | rfl
  · exact ⟨denyR, by simp, hkey, by decide⟩
  · exact ⟨denyR, by simp, hkey, by decide⟩

end Ex

/-- `mixDoc` is regular for role `r`, not as a whole; an update in which the deny of role `s` was lost, and a check of role `r`. -/
example : ∃ s, Updated asciiCase [some Ex.mixDoc] 10 s ∧ OwnerAt [some Ex.mixDoc] 10 s.now 20 "d:role.r".toList 0 Ex.mixDoc ∧
    RegularAt asciiCase [some Ex.mixDoc] 10 s.now 20 "d:role.r".toList ∧ ¬ DenySafe asciiCase Ex.mixDoc ∧
    CheckReturns asciiCase Ex.reqR (viewOf s.rp 20) [.worker 0, .worker 0, .recv] (.err .denyByPolicy) ∧
    ((viewOf s.rp 20 "d:role.s".toList).getD []).map (·.effect) = [none] := by
  obtain ⟨s, hs, hp⟩ := Ex.exists_of_map (o := updRun asciiCase (updInit 10 [some Ex.mixDoc]) Ex.mixUpd)
    (p := fun s => decide (s.jobs = [.done none]) && decide (s.now = 10) &&
      decide (Ex.checkRet asciiCase Ex.reqR (viewOf s.rp 20) [.worker 0, .worker 0, .recv] = some (.err .denyByPolicy)) &&
      decide (((viewOf s.rp 20 "d:role.s".toList).getD []).map (·.effect) = [none])) (by decide +kernel)
  simp only [Bool.and_eq_true, decide_eq_true_eq] at hp
  refine ⟨s, ⟨_, hs, Ex.succeeded_of hp.1.1.1⟩, Ex.mixDoc_owner s hp.1.1.2, Ex.mixDoc_regularAt s hp.1.1.2, ?_,
    Ex.returns_of_ret hp.1.2, hp.2⟩
  intro h
  obtain ⟨a, ha, hk, hd⟩ := h Ex.denyS (by simp [Ex.mixDoc]) (by decide) [Ex.denyR, Ex.allowR, Ex.allowSame] (by simp [Ex.mixDoc])
    ⟨Ex.allowSame, by simp, rfl, rfl, rfl⟩
  simp at ha
  rcases ha with rfl | rfl | rfl
  · exact absurd hk.1 (by decide)
  · exact absurd hk.1 (by decide)
  · exact absurd hd (by decide)

/-- **C08** for the caller's roles: whatever the documents say about other roles, if they contain the same related assertions, then
the decisions are the same. Missing: `C08_refuted`. -/
theorem C08_local_partial (U : CaseFns) (q : CheckReq) (docs docs' : List (Option PolicyDoc)) (T0 T0' : Int) (s s' : UpdState)
    (hU : Updated U docs T0 s) (hU' : Updated U docs' T0' s') (t t' : Int)
    (hR : ∀ role ∈ q.roles, RegularAt U docs T0 s.now t (q.domain ++ ":role.".toList ++ role))
    (hR' : ∀ role ∈ q.roles, RegularAt U docs' T0' s'.now t' (q.domain ++ ":role.".toList ++ role))
    (hrel : ∀ a, Spec.Related U q a → (a ∈ allAssertions docs ↔ a ∈ allAssertions docs'))
    (sched sched' : List CheckAct) (hs : Undisturbed sched) (hs' : Undisturbed sched') (r r' : Res (List Str))
    (h : CheckReturns U q (viewOf s.rp t) sched r) (h' : CheckReturns U q (viewOf s'.rp t') sched' r') :
    ((∃ rs, r = .ok rs) ↔ ∃ rs, r' = .ok rs) ∧ (∀ e, r = .err e ↔ r' = .err e) :=
  same_decision_of_rep hU hU' (fun role hr => (hR role hr).rep hU) (fun role hr => (hR' role hr).rep hU') hrel hs hs' h h'

/-- `mixDoc`, regular for role `r` only, and the same document without its assertions about role `s` have the same assertions related to
the request of role `r`. -/
example : ∀ a, Spec.Related asciiCase Ex.reqR a →
    (a ∈ allAssertions [some Ex.mixDoc] ↔ a ∈ allAssertions [some ⟨[[Ex.denyR, Ex.allowR], [Ex.denyR]], 1000⟩]) := by
  rintro a ⟨⟨r, hr, h⟩, _⟩
  simp [Ex.reqR] at hr
  subst hr
  have h1 : a ≠ Ex.allowSame := by rintro rfl; exact absurd h (by decide)
  have h2 : a ≠ Ex.denyS := by rintro rfl; exact absurd h (by decide)
  simp [allAssertions, Ex.mixDoc, h1, h2]

end Athenz
