import Verif.Proofs.Authority
import Verif.Props.Check

/-! `VerifyRoleCert`. -/

namespace Athenz
open Spec

/-- The pairs of domain and role in the order of authorizerd.go:521-533. -/
def certPairs (pre : Str) (certs : List Cert) : List (Str × Str) :=
  certs.flatMap fun x => (Str.cut ":role.".toList x.subjectCN).toList ++
    x.uris.flatMap fun u => if Str.hasPrefix u pre then (Str.cut "/".toList (Str.trimPrefix u pre)).toList else []

theorem foldl_pairs {α : Type} (f : α → Str × Str → α) (m : α) (o : Option (Str × Str)) :
    (match o with | none => m | some p => f m p) = o.toList.foldl f m := by
  cases o <;> rfl

/-- One pair. -/
def addPair (m : RoleMaps) (p : Str × Str) : RoleMaps := addDomainRoles m (some p)

theorem addDomainRoles_eq (m : RoleMaps) (o : Option (Str × Str)) : addDomainRoles m o = o.toList.foldl addPair m := by
  cases o <;> rfl

theorem addUris_eq (pre : Str) (m : RoleMaps) (uris : List Str) :
    addUris pre m uris =
      (uris.flatMap fun u => if Str.hasPrefix u pre then (Str.cut "/".toList (Str.trimPrefix u pre)).toList else []).foldl addPair m := by
  unfold addUris
  induction uris generalizing m with
  | nil => rfl
  | cons u us ih =>
    simp only [List.foldl_cons, List.flatMap_cons, List.foldl_append]
    rw [ih]
    congr 1
    split
    · exact addDomainRoles_eq _ _
    · rfl

theorem certRoles_eq (pre : Str) (certs : List Cert) : certRoles pre certs = (certPairs pre certs).foldl addPair ⟨[], []⟩ := by
  unfold certRoles certPairs
  generalize (⟨[], []⟩ : RoleMaps) = m
  induction certs generalizing m with
  | nil => rfl
  | cons x xs ih =>
    simp only [List.foldl_cons, List.flatMap_cons, List.foldl_append]
    rw [ih, addUris_eq, addDomainRoles_eq]

theorem mem_certPairs {pre : Str} {certs : List Cert} {d r : Str} : (d, r) ∈ certPairs pre certs ↔ NamesRole pre certs d r := by
  unfold certPairs NamesRole
  simp only [List.mem_flatMap, List.mem_append, Option.mem_toList]
  constructor
  · rintro ⟨x, hx, h | ⟨u, hu, h⟩⟩
    · exact ⟨x, hx, .inl h⟩
    · refine ⟨x, hx, .inr ⟨u, hu, ?_⟩⟩
      split at h
      · rename_i hp
        have hp' : pre <+: u := by simpa [Str.hasPrefix] using hp
        obtain ⟨rest, rfl⟩ := hp'
        refine ⟨rest, rfl, ?_⟩
        have : Str.trimPrefix (pre ++ rest) pre = rest := by simp [Str.trimPrefix]
        rw [this] at h
        exact Option.mem_toList.mp h
      · simp at h
  · rintro ⟨x, hx, h | ⟨u, hu, rest, rfl, h⟩⟩
    · exact ⟨x, hx, .inl h⟩
    · refine ⟨x, hx, .inr ⟨_, hu, ?_⟩⟩
      have h1 : Str.hasPrefix (pre ++ rest) pre = true := by simp [Str.hasPrefix]
      have h2 : Str.trimPrefix (pre ++ rest) pre = rest := by simp [Str.trimPrefix]
      rw [if_pos h1, h2]
      exact Option.mem_toList.mpr h

/-- The role is listed under the domain. -/
def Listed (l : List (Str × List Str)) (d r : Str) : Prop := ∃ rs, (d, rs) ∈ l ∧ r ∈ rs

theorem listed_append {l : List (Str × List Str)} {d r d' r' : Str} (hn : (l.map (·.1)).Nodup) :
    Listed (appendRole d r l) d' r' ↔ Listed l d' r' ∨ (d' = d ∧ r' = r) := by
  induction l with
  | nil =>
    simp only [appendRole, Listed, List.mem_singleton, Prod.mk.injEq, List.not_mem_nil, false_and, exists_false, false_or]
    constructor
    · rintro ⟨rs, ⟨rfl, rfl⟩, h⟩; exact ⟨rfl, by simpa using h⟩
    · rintro ⟨rfl, rfl⟩; exact ⟨_, ⟨rfl, rfl⟩, by simp⟩
  | cons p l ih =>
    obtain ⟨e, rs⟩ := p
    simp only [List.map_cons, List.nodup_cons] at hn
    simp only [appendRole]
    split
    · rename_i he
      subst he
      constructor
      · rintro ⟨rs', hm, hr⟩
        rcases List.mem_cons.mp hm with hm | hm
        · simp only [Prod.mk.injEq] at hm
          obtain ⟨rfl, rfl⟩ := hm
          rcases List.mem_append.mp hr with hr | hr
          · exact .inl ⟨rs, List.mem_cons_self .., hr⟩
          · exact .inr ⟨rfl, by simpa using hr⟩
        · exact .inl ⟨rs', List.mem_cons_of_mem _ hm, hr⟩
      · rintro (⟨rs', hm, hr⟩ | ⟨rfl, rfl⟩)
        · rcases List.mem_cons.mp hm with hm | hm
          · simp only [Prod.mk.injEq] at hm
            obtain ⟨rfl, rfl⟩ := hm
            exact ⟨_, List.mem_cons_self .., List.mem_append_left _ hr⟩
          · exact ⟨rs', List.mem_cons_of_mem _ hm, hr⟩
        · exact ⟨_, List.mem_cons_self .., by simp⟩
    · constructor
      · rintro ⟨rs', hm, hr⟩
        rcases List.mem_cons.mp hm with hm | hm
        · exact .inl ⟨rs', by rw [hm]; exact List.mem_cons_self .., hr⟩
        · rcases (ih hn.2).mp ⟨rs', hm, hr⟩ with ⟨rs'', hm', hr'⟩ | h
          · exact .inl ⟨rs'', List.mem_cons_of_mem _ hm', hr'⟩
          · exact .inr h
      · intro h
        have : Listed ((e, rs) :: l) d' r' ∨ (d' = d ∧ r' = r) := h
        rcases this with ⟨rs', hm, hr⟩ | h
        · rcases List.mem_cons.mp hm with hm | hm
          · exact ⟨rs', by rw [hm]; exact List.mem_cons_self .., hr⟩
          · obtain ⟨rs'', hm', hr'⟩ := (ih hn.2).mpr (.inl ⟨rs', hm, hr⟩)
            exact ⟨rs'', List.mem_cons_of_mem _ hm', hr'⟩
        · obtain ⟨rs'', hm', hr'⟩ := (ih hn.2).mpr (.inr h)
          exact ⟨rs'', List.mem_cons_of_mem _ hm', hr'⟩

theorem appendRole_keys {l : List (Str × List Str)} {d r x : Str} : x ∈ (appendRole d r l).map (·.1) ↔ x = d ∨ x ∈ l.map (·.1) := by
  induction l with
  | nil => simp [appendRole]
  | cons p l ih =>
    obtain ⟨e, rs⟩ := p
    simp only [appendRole]
    split
    · rename_i he; subst he; simp
    · simp only [List.map_cons, List.mem_cons, ih]
      constructor
      · rintro (h | h | h) <;> simp [h]
      · rintro (h | h | h) <;> simp [h]

theorem appendRole_nodup {l : List (Str × List Str)} {d r : Str} (h : (l.map (·.1)).Nodup) : ((appendRole d r l).map (·.1)).Nodup := by
  induction l with
  | nil => simp [appendRole]
  | cons p l ih =>
    obtain ⟨e, rs⟩ := p
    simp only [List.map_cons, List.nodup_cons] at h
    simp only [appendRole]
    split
    · simpa using h
    · rename_i he
      simp only [List.map_cons, List.nodup_cons]
      refine ⟨?_, ih h.2⟩
      rw [appendRole_keys]
      rintro (hx | hx)
      · exact he hx
      · exact h.1 hx

theorem appendRole_lists {l : List (Str × List Str)} {d r : Str} (P : Str → List Str → Prop) (h : ∀ x rs, (x, rs) ∈ l → P x rs)
    (h0 : P d [r]) (h1 : ∀ rs, (d, rs) ∈ l → P d (rs ++ [r])) : ∀ x rs, (x, rs) ∈ appendRole d r l → P x rs := by
  induction l with
  | nil =>
    intro x rs hm
    simp only [appendRole, List.mem_singleton, Prod.mk.injEq] at hm
    obtain ⟨rfl, rfl⟩ := hm
    exact h0
  | cons p l ih =>
    obtain ⟨e, es⟩ := p
    intro x rs hm
    simp only [appendRole] at hm
    split at hm
    · rename_i he
      subst he
      rcases List.mem_cons.mp hm with hm | hm
      · simp only [Prod.mk.injEq] at hm
        obtain ⟨rfl, rfl⟩ := hm
        exact h1 es (List.mem_cons_self ..)
      · exact h _ _ (List.mem_cons_of_mem _ hm)
    · rcases List.mem_cons.mp hm with hm | hm
      · simp only [Prod.mk.injEq] at hm
        obtain ⟨rfl, rfl⟩ := hm
        exact h _ _ (List.mem_cons_self ..)
      · exact ih (fun x rs hm => h _ _ (List.mem_cons_of_mem _ hm)) (fun rs hm => h1 rs (List.mem_cons_of_mem _ hm)) x rs hm

/-- What is known about the maps after some pairs. -/
structure MapsOk (m : RoleMaps) (ps : List (Str × Str)) : Prop where
  keys : (m.roles.map (·.1)).Nodup
  named : ∀ d r, Listed m.roles d r → (d, r) ∈ ps
  seen : ∀ x, x ∈ m.seen ↔ ∃ d r, Listed m.roles d r ∧ x = d ++ r
  covered : ∀ d r, (d, r) ∈ ps → d ++ r ∈ m.seen
  lists : ∀ d rs, (d, rs) ∈ m.roles → rs ≠ [] ∧ rs.Nodup

theorem mapsOk_add {m : RoleMaps} {ps : List (Str × Str)} (h : MapsOk m ps) (d r : Str) : MapsOk (addPair m (d, r)) (ps ++ [(d, r)]) := by
  unfold addPair addDomainRoles
  simp only
  split
  · rename_i hc
    have hc' : d ++ r ∈ m.seen := by simpa using hc
    refine ⟨h.keys, fun d' r' hl => List.mem_append_left _ (h.named d' r' hl), h.seen, ?_, h.lists⟩
    intro d' r' hm
    rcases List.mem_append.mp hm with hm | hm
    · exact h.covered d' r' hm
    · simp only [List.mem_singleton, Prod.mk.injEq] at hm
      obtain ⟨rfl, rfl⟩ := hm
      exact hc'
  · rename_i hc
    have hc' : d ++ r ∉ m.seen := by simpa using hc
    refine ⟨appendRole_nodup h.keys, ?_, ?_, ?_, ?_⟩
    · intro d' r' hl
      rcases (listed_append h.keys).mp hl with hl | ⟨rfl, rfl⟩
      · exact List.mem_append_left _ (h.named d' r' hl)
      · simp
    · intro x
      simp only [List.mem_cons, h.seen, listed_append h.keys]
      constructor
      · rintro (rfl | ⟨d', r', hl, rfl⟩)
        · exact ⟨d, r, .inr ⟨rfl, rfl⟩, rfl⟩
        · exact ⟨d', r', .inl hl, rfl⟩
      · rintro ⟨d', r', hl | ⟨rfl, rfl⟩, rfl⟩
        · exact .inr ⟨d', r', hl, rfl⟩
        · exact .inl rfl
    · intro d' r' hm
      rcases List.mem_append.mp hm with hm | hm
      · exact List.mem_cons_of_mem _ (h.covered d' r' hm)
      · simp only [List.mem_singleton, Prod.mk.injEq] at hm
        obtain ⟨rfl, rfl⟩ := hm
        exact List.mem_cons_self ..
    · refine appendRole_lists (fun _ rs => rs ≠ [] ∧ rs.Nodup) h.lists (by simp) ?_
      intro rs hm
      refine ⟨by simp, ?_⟩
      rw [List.nodup_append]
      refine ⟨(h.lists d rs hm).2, by simp, ?_⟩
      intro a ha b hb
      simp only [List.mem_singleton] at hb
      subst hb
      rintro rfl
      exact hc' ((h.seen _).mpr ⟨d, a, ⟨rs, hm, ha⟩, rfl⟩)

theorem mapsOk_fold {m : RoleMaps} {ps qs : List (Str × Str)} (h : MapsOk m ps) : MapsOk (qs.foldl addPair m) (ps ++ qs) := by
  induction qs generalizing m ps with
  | nil => simpa using h
  | cons q qs ih =>
    have := ih (mapsOk_add h q.1 q.2)
    simpa using this

theorem certRoles_ok (pre : Str) (certs : List Cert) : MapsOk (certRoles pre certs) (certPairs pre certs) := by
  rw [certRoles_eq]
  have : MapsOk ⟨[], []⟩ [] := ⟨by simp, by simp [Listed], by simp [Listed], by simp, by simp⟩
  simpa using mapsOk_fold (qs := certPairs pre certs) this

/-- Every listed role is named. -/
theorem certRoles_sound {pre : Str} {certs : List Cert} {d : Str} {rs : List Str} (h : (d, rs) ∈ (certRoles pre certs).roles) :
    rs ≠ [] ∧ rs.Nodup ∧ ∀ r ∈ rs, NamesRole pre certs d r := by
  have ho := certRoles_ok pre certs
  exact ⟨(ho.lists d rs h).1, (ho.lists d rs h).2, fun r hr => mem_certPairs.mp (ho.named d r ⟨rs, h, hr⟩)⟩

/-- Without clashes every named role is listed. -/
theorem certRoles_complete {pre : Str} {certs : List Cert} (hn : NoClash pre certs) {d r : Str} (h : NamesRole pre certs d r) :
    Listed (certRoles pre certs).roles d r := by
  have ho := certRoles_ok pre certs
  obtain ⟨d', r', hl, he⟩ := (ho.seen _).mp (ho.covered d r (mem_certPairs.mpr h))
  obtain ⟨rfl, rfl⟩ := hn d r d' r' h (mem_certPairs.mp (ho.named d' r' hl)) he
  exact hl

theorem certRoles_exact {pre : Str} {certs : List Cert} (hn : NoClash pre certs) {d : Str} {rs : List Str}
    (h : (d, rs) ∈ (certRoles pre certs).roles) : RolesOf pre certs d rs := by
  obtain ⟨h1, h2, h3⟩ := certRoles_sound h
  refine ⟨h1, h2, fun r => ⟨h3 r, fun hr => ?_⟩⟩
  obtain ⟨rs', hm, hr'⟩ := certRoles_complete hn hr
  have hk := (certRoles_ok pre certs).keys
  have : rs' = rs := by
    have : ∀ (l : List (Str × List Str)), (l.map (·.1)).Nodup → (d, rs) ∈ l → (d, rs') ∈ l → rs' = rs := by
      intro l
      induction l with
      | nil => simp
      | cons p l ih =>
        intro hn' ha hb
        simp only [List.map_cons, List.nodup_cons] at hn'
        rcases List.mem_cons.mp ha with ha | ha <;> rcases List.mem_cons.mp hb with hb | hb
        · rw [← ha] at hb; simpa using hb
        · exact absurd (List.mem_map_of_mem (f := (·.1)) hb) (by rw [← ha] at hn'; exact hn'.1)
        · exact absurd (List.mem_map_of_mem (f := (·.1)) ha) (by rw [← hb] at hn'; exact hn'.1)
        · exact ih hn'.2 ha hb
    exact this _ hk h hm
  rw [this] at hr'; exact hr'

/-- A grant of the loop over the domains is the grant of one domain. -/
theorem checkDomains_ok {U : CaseFns} {act res : Str} {l : List (Str × List Str)} {o : List (PolicyView × List CheckAct)} {last : Res Unit}
    (hl : l ≠ [] ∨ last ≠ .ok ()) (h : checkDomains U act res l o last = some (.ok ())) :
    ∃ d rs view sched allowed, (d, rs) ∈ l ∧ (view, sched) ∈ o ∧ CheckReturns U ⟨d, rs, act, res⟩ view sched (.ok allowed) := by
  induction l generalizing o last with
  | nil =>
    simp only [checkDomains, Option.some.injEq] at h
    rcases hl with hl | hl
    · simp at hl
    · exact absurd h hl
  | cons p l ih =>
    obtain ⟨d, rs⟩ := p
    cases o with
    | nil => simp [checkDomains] at h
    | cons v o =>
      obtain ⟨view, sched⟩ := v
      simp only [checkDomains] at h
      split at h
      · rename_i allowed hc
        exact ⟨d, rs, view, sched, allowed, List.mem_cons_self .., List.mem_cons_self .., checkResult_iff.mp hc⟩
      · rename_i e hc
        obtain ⟨d', rs', view', sched', allowed, h1, h2, h3⟩ := ih (.inr (by simp)) h
        exact ⟨d', rs', view', sched', allowed, List.mem_cons_of_mem _ h1, List.mem_cons_of_mem _ h2, h3⟩
      · simp at h
      · simp at h

/-- If some domain grants, whatever the schedule, the loop grants. -/
theorem checkDomains_complete {U : CaseFns} {act res : Str} {l : List (Str × List Str)} {o : List (PolicyView × List CheckAct)} {last r : Res Unit}
    (h : checkDomains U act res l o last = some r) (hp : ∀ d rs view sched, (d, rs) ∈ l → (view, sched) ∈ o → ¬ CheckReturns U ⟨d, rs, act, res⟩ view sched .panic)
    {d : Str} {rs : List Str} (hd : (d, rs) ∈ l)
    (hg : ∀ view sched e, (view, sched) ∈ o → ¬ CheckReturns U ⟨d, rs, act, res⟩ view sched (.err e)) : r = .ok () := by
  induction l generalizing o last with
  | nil => simp at hd
  | cons p l ih =>
    obtain ⟨d', rs'⟩ := p
    cases o with
    | nil => simp [checkDomains] at h
    | cons v o =>
      obtain ⟨view, sched⟩ := v
      simp only [checkDomains] at h
      split at h
      · simpa using h.symm
      · rename_i e hc
        rcases List.mem_cons.mp hd with hd | hd
        · simp only [Prod.mk.injEq] at hd
          obtain ⟨rfl, rfl⟩ := hd
          exact absurd (checkResult_iff.mp hc) (hg view sched e (List.mem_cons_self ..))
        · exact ih h (fun d rs view sched h1 h2 => hp d rs view sched (List.mem_cons_of_mem _ h1) (List.mem_cons_of_mem _ h2)) hd
            (fun view sched e hm => hg view sched e (List.mem_cons_of_mem _ hm))
      · rename_i hc
        exact absurd (checkResult_iff.mp hc) (hp d' rs' view sched (List.mem_cons_self ..) (List.mem_cons_self ..))
      · simp at h

end Athenz
