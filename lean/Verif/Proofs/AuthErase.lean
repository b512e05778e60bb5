import Verif.Proofs.Authority

/-! Removing refused calls from a history. -/

namespace Athenz
open Spec

namespace Spec

/-- The steps of the calls in `I` and of the `Verify`/`Authorize` calls in `K`. -/
def Belongs (I K : Nat → Bool) : AAct → Bool
  | .call i _ => I i
  | .get i => I i
  | .validate i => I i
  | .translate i _ => I i
  | .check i _ _ => I i
  | .store i => I i
  | .opened k _ _ _ => K k
  | .sub k _ => K k
  | .fin k => K k
  | .tick _ => false
  | .setKeys _ => false
  | .setJwkp _ => false
  | .sweep _ => false
  | .clear => false

/-- The states agree in everything that a call outside of `I` and `K` can see. -/
structure SameFor (I K : Nat → Bool) (s s' : AState) : Prop where
  now : s'.now = s.now
  keys : s'.keys = s.keys
  jwkp : s'.jwkp = s.jwkp
  cache : s'.cache = s.cache
  calls : ∀ i, I i = false → s'.calls i = s.calls i
  sess : ∀ k, K k = false → s'.sess k = s.sess k

end Spec

/-- A finished call stays as it is. -/
theorem done_stable {cfg : AuthCfg} {s s' : AState} {a : AAct} (h : aStep cfg s a = some s') {i : Nat} {q : AReq} {r : Res Principal}
    (hd : s.calls i = some ⟨q, .done r⟩) : s'.calls i = some ⟨q, .done r⟩ := by
  cases aStep_effect h with
  | call j q' hc => simp only [AState.note, AState.setPc]; split <;> simp_all
  | bad j q' hc he => simp only [AState.setPc]; split <;> simp_all
  | hit j q' p hc he hg => simp only [AState.note, AState.setPc]; split <;> simp_all
  | miss j q' hc he hg => simp only [AState.setPc]; split <;> simp_all
  | valid j q' p hc hv => simp only [AState.note, AState.setPc]; split <;> simp_all
  | invalid j q' r' hc hv hr => simp only [AState.note, AState.setPc]; split <;> simp_all
  | trans j seed q' p act res hc ht => simp only [AState.note, AState.setPc]; split <;> simp_all
  | transFail j seed q' p r' hc hf hr => simp only [AState.note, AState.setPc]; split <;> simp_all
  | check j view sched q' p act res rs hc hck => simp only [AState.note, AState.setPc]; split <;> simp_all
  | checkFail j view sched q' p act res r' hc hf hr => simp only [AState.note, AState.setPc]; split <;> simp_all
  | store j q' p hc => simp only [AState.note, AState.setPc]; split <;> simp_all
  | opened k r act res hs => exact hd
  | sub k j q' rest tried hs hc => simp only [AState.note, AState.setPc, AState.setSess]; split <;> simp_all
  | finFails k e rest tried hs => exact hd
  | fin k c rest j tried q' r' hs hc => exact hd
  | tick d => exact hd
  | setKeys ks => exact hd
  | setJwkp ks => exact hd
  | sweep sel => exact hd
  | clear => exact hd

theorem done_stable_run {cfg : AuthCfg} {s s' : AState} {acts : List AAct} (h : aRun cfg s acts = some s') {i : Nat} {q : AReq} {r : Res Principal}
    (hd : s.calls i = some ⟨q, .done r⟩) : s'.calls i = some ⟨q, .done r⟩ :=
  aRun_ind (P := fun s => s.calls i = some ⟨q, .done r⟩) (fun _ _ _ hp hs => done_stable hs hp) hd h

/-- The relation kept between the full and the reduced history. -/
structure Erased (I K : Nat → Bool) (s s' : AState) : Prop extends SameFor I K s s' where
  cur : ∀ k x i, K k = false → s.sess k = some x → x.cur = some i → I i = false

theorem Erased.hidden {cfg : AuthCfg} {I K : Nat → Bool} {s t s' : AState} {a : AAct} (hE : Erased I K s s') (h : aStep cfg s a = some t)
    (hb : Belongs I K a = true) (hsub : ∀ k i, a = .sub k i → K k = I i) (hok : ∀ i q p, I i = true → t.calls i ≠ some ⟨q, .done (.ok p)⟩) :
    Erased I K t s' := by
  obtain ⟨⟨h1, h2, h3, h4, h5, h6⟩, h7⟩ := hE
  have hcall : ∀ (i j : Nat) (c : Option Call), I i = true → I j = false → (if j = i then c else s.calls j) = s.calls j := by
    intro i j c hi hj
    rw [if_neg]; rintro rfl; simp [hi] at hj
  have hsess : ∀ (i j : Nat) (c : Option Sess), K i = true → K j = false → (if j = i then c else s.sess j) = s.sess j := by
    intro i j c hi hj
    rw [if_neg]; rintro rfl; simp [hi] at hj
  cases aStep_effect h with
  | call i q hc => exact ⟨⟨h1, h2, h3, h4, fun j hj => (h5 j hj).trans (hcall i j _ hb hj).symm, h6⟩, h7⟩
  | bad i q hc he => exact ⟨⟨h1, h2, h3, h4, fun j hj => (h5 j hj).trans (hcall i j _ hb hj).symm, h6⟩, h7⟩
  | hit i q p hc he hg => exact ⟨⟨h1, h2, h3, h4, fun j hj => (h5 j hj).trans (hcall i j _ hb hj).symm, h6⟩, h7⟩
  | miss i q hc he hg => exact ⟨⟨h1, h2, h3, h4, fun j hj => (h5 j hj).trans (hcall i j _ hb hj).symm, h6⟩, h7⟩
  | valid i q p hc hv => exact ⟨⟨h1, h2, h3, h4, fun j hj => (h5 j hj).trans (hcall i j _ hb hj).symm, h6⟩, h7⟩
  | invalid i q r hc hv hr => exact ⟨⟨h1, h2, h3, h4, fun j hj => (h5 j hj).trans (hcall i j _ hb hj).symm, h6⟩, h7⟩
  | trans i seed q p act res hc ht => exact ⟨⟨h1, h2, h3, h4, fun j hj => (h5 j hj).trans (hcall i j _ hb hj).symm, h6⟩, h7⟩
  | transFail i seed q p r hc hf hr => exact ⟨⟨h1, h2, h3, h4, fun j hj => (h5 j hj).trans (hcall i j _ hb hj).symm, h6⟩, h7⟩
  | check i view sched q p act res rs hc hck => exact ⟨⟨h1, h2, h3, h4, fun j hj => (h5 j hj).trans (hcall i j _ hb hj).symm, h6⟩, h7⟩
  | checkFail i view sched q p act res r hc hf hr => exact ⟨⟨h1, h2, h3, h4, fun j hj => (h5 j hj).trans (hcall i j _ hb hj).symm, h6⟩, h7⟩
  | store i q p hc => exact absurd (by simp [AState.note, AState.setPc]) (hok i q p hb)
  | opened k r act res hs =>
    refine ⟨⟨h1, h2, h3, h4, h5, fun j hj => (h6 j hj).trans (hsess k j _ hb hj).symm⟩, ?_⟩
    intro k' x i hk' hx hi
    simp only [AState.note, AState.setSess, hsess k k' _ hb hk'] at hx
    exact h7 k' x i hk' hx hi
  | sub k i q rest tried hs hc =>
    have hi : I i = true := by rw [← hsub k i rfl]; exact hb
    refine ⟨⟨h1, h2, h3, h4, fun j hj => (h5 j hj).trans (hcall i j _ hi hj).symm, fun j hj => (h6 j hj).trans (hsess k j _ hb hj).symm⟩, ?_⟩
    intro k' x i hk' hx hi
    simp only [AState.note, AState.setPc, AState.setSess, hsess k k' _ hb hk'] at hx
    exact h7 k' x i hk' hx hi
  | finFails k e rest tried hs =>
    refine ⟨⟨h1, h2, h3, h4, h5, fun j hj => (h6 j hj).trans (hsess k j _ hb hj).symm⟩, ?_⟩
    intro k' x i hk' hx hi
    simp only [AState.setSess, hsess k k' _ hb hk'] at hx
    exact h7 k' x i hk' hx hi
  | fin k c rest i tried q r hs hc =>
    refine ⟨⟨h1, h2, h3, h4, h5, fun j hj => (h6 j hj).trans (hsess k j _ hb hj).symm⟩, ?_⟩
    intro k' x i hk' hx hi
    simp only [AState.setSess, hsess k k' _ hb hk'] at hx
    exact h7 k' x i hk' hx hi
  | tick d => simp [Belongs] at hb
  | setKeys ks => simp [Belongs] at hb
  | setJwkp ks => simp [Belongs] at hb
  | sweep sel => simp [Belongs] at hb
  | clear => simp [Belongs] at hb

theorem Erased.setPc {I K : Nat → Bool} {s s' : AState} (h : Erased I K s s') (i : Nat) (q : AReq) (pc : Pc) :
    Erased I K (s.setPc i q pc) (s'.setPc i q pc) := by
  obtain ⟨⟨h1, h2, h3, h4, h5, h6⟩, h7⟩ := h
  refine ⟨⟨h1, h2, h3, h4, ?_, h6⟩, h7⟩
  intro j hj
  simp only [AState.setPc]
  split
  · rfl
  · exact h5 j hj

theorem Erased.note {I K : Nat → Bool} {s s' : AState} (h : Erased I K s s') (e e' : AEvent) : Erased I K (s.note e) (s'.note e') := by
  obtain ⟨⟨h1, h2, h3, h4, h5, h6⟩, h7⟩ := h
  exact ⟨⟨h1, h2, h3, h4, h5, h6⟩, h7⟩

theorem Erased.setSess {I K : Nat → Bool} {s s' : AState} (h : Erased I K s s') (k : Nat) (x : Sess) (hx : ∀ i, x.cur = some i → I i = false) :
    Erased I K (s.setSess k x) (s'.setSess k x) := by
  obtain ⟨⟨h1, h2, h3, h4, h5, h6⟩, h7⟩ := h
  refine ⟨⟨h1, h2, h3, h4, h5, ?_⟩, ?_⟩
  · intro j hj
    simp only [AState.setSess]
    split
    · rfl
    · exact h6 j hj
  · intro k' y i hk' hy hi
    simp only [AState.setSess] at hy
    split at hy
    · simp only [Option.some.injEq] at hy
      subst hy; exact hx i hi
    · exact h7 k' y i hk' hy hi

theorem Erased.visible {cfg : AuthCfg} {I K : Nat → Bool} {s t s' : AState} {a : AAct} (hE : Erased I K s s') (h : aStep cfg s a = some t)
    (hb : Belongs I K a = false) (hsub : ∀ k i, a = .sub k i → K k = I i) : ∃ t', aStep cfg s' a = some t' ∧ Erased I K t t' := by
  obtain ⟨⟨h1, h2, h3, h4, h5, h6⟩, h7⟩ := id hE
  cases aStep_effect h with
  | call i q hc =>
    refine ⟨_, ?_, (hE.setPc i q .start).note _ (.begun i s'.now)⟩
    simp only [aStep, h5 i hb, hc]
  | bad i q hc he =>
    refine ⟨_, ?_, hE.setPc i q _⟩
    simp only [aStep, h5 i hb, hc, if_pos he]
  | hit i q p hc he hg =>
    refine ⟨_, ?_, (hE.setPc i q _).note _ (.hit i s'.now)⟩
    simp only [aStep, h5 i hb, hc, if_neg he, h4, h1, hg]
  | miss i q hc he hg =>
    refine ⟨_, ?_, hE.setPc i q _⟩
    simp only [aStep, h5 i hb, hc, if_neg he, h4, h1, hg]
  | valid i q p hc hv =>
    refine ⟨_, ?_, (hE.note _ (.validated i s'.now s'.keys s'.jwkp)).setPc i q _⟩
    simp only [aStep, h5 i hb, hc, h1, h2, h3, hv]
  | invalid i q r hc hv hr =>
    refine ⟨_, ?_, (hE.note _ (.validated i s'.now s'.keys s'.jwkp)).setPc i q _⟩
    cases r with
    | ok p => exact absurd rfl (hr p)
    | err e => simp only [aStep, h5 i hb, hc, h1, h2, h3, hv]
    | panic => simp only [aStep, h5 i hb, hc, h1, h2, h3, hv]
  | trans i seed q p act res hc ht =>
    refine ⟨_, ?_, (hE.note _ (.translated i seed)).setPc i q _⟩
    simp only [aStep, h5 i hb, hc, ht]
  | transFail i seed q p r hc hf hr =>
    refine ⟨_, ?_, (hE.note _ (.translated i seed)).setPc i q (.done r)⟩
    simp only [aStep, h5 i hb, hc]
    cases ht : translate cfg seed p.domain q <;> simp only [ht, Res.fail, Option.some.injEq, reduceCtorEq] at hf
    · rw [← hf]
    · rw [← hf]
  | check i view sched q p act res rs hc hck =>
    refine ⟨_, ?_, (hE.note _ (.checked i view sched)).setPc i q _⟩
    simp only [aStep, h5 i hb, hc, hck]
  | checkFail i view sched q p act res r hc hf hr =>
    refine ⟨_, ?_, (hE.note _ (.checked i view sched)).setPc i q (.done r)⟩
    obtain ⟨r', hr', hf⟩ := Option.bind_eq_some_iff.mp hf
    simp only [aStep, h5 i hb, hc, hr']
    cases r' <;> simp only [Res.fail, Option.some.injEq, reduceCtorEq] at hf
    · rw [← hf]
    · rw [← hf]
  | store i q p hc =>
    refine ⟨_, by simp only [aStep, h5 i hb, hc]; rfl, ?_⟩
    apply Erased.note
    apply Erased.setPc
    refine ⟨⟨h1, h2, h3, ?_, h5, h6⟩, h7⟩
    show s'.cache.set s'.now _ p cfg.cacheExp = s.cache.set s.now _ p cfg.cacheExp
    rw [h1, h4]
  | opened k r act res hs =>
    refine ⟨_, ?_, (hE.setSess k _ (by simp)).note _ (.opened k r act res)⟩
    simp only [aStep, h6 k hb, hs]
  | sub k i q rest tried hs hc =>
    have hi : I i = false := by rw [← hsub k i rfl]; exact hb
    refine ⟨_, ?_, ((hE.setPc i q .start).setSess k ⟨.token q :: rest, some i, none, tried⟩ (by rintro j hj; simp only [Option.some.injEq] at hj; rw [← hj]; exact hi)).note _
      (.begun i s'.now)⟩
    simp only [aStep, h6 k hb, hs, h5 i hi, hc]
  | finFails k e rest tried hs =>
    refine ⟨_, ?_, hE.setSess k _ (by simp [Sess.next])⟩
    simp only [aStep, h6 k hb, hs]
  | fin k c rest i tried q r hs hc =>
    have hi : I i = false := h7 k _ i hb hs rfl
    refine ⟨_, ?_, hE.setSess k _ (by simp [Sess.next])⟩
    cases c <;> simp only [aStep, h6 k hb, hs, h5 i hi, hc]
  | tick d =>
    refine ⟨_, rfl, ⟨⟨?_, h2, h3, h4, h5, h6⟩, h7⟩⟩
    show s'.now + d = s.now + d
    rw [h1]
  | setKeys ks => exact ⟨_, rfl, ⟨⟨h1, rfl, h3, h4, h5, h6⟩, h7⟩⟩
  | setJwkp ks => exact ⟨_, rfl, ⟨⟨h1, h2, rfl, h4, h5, h6⟩, h7⟩⟩
  | sweep sel =>
    refine ⟨_, rfl, ⟨⟨h1, h2, h3, ?_, h5, h6⟩, h7⟩⟩
    show s'.cache.sweep s'.now sel = s.cache.sweep s.now sel
    rw [h1, h4]
  | clear => exact ⟨_, rfl, ⟨⟨h1, h2, h3, rfl, h5, h6⟩, h7⟩⟩

theorem erase_run {cfg : AuthCfg} {I K : Nat → Bool} {s t s' : AState} {acts : List AAct} (hE : Erased I K s s') (h : aRun cfg s acts = some t)
    (hsub : ∀ k i, AAct.sub k i ∈ acts → K k = I i) (hok : ∀ i q p, I i = true → t.calls i ≠ some ⟨q, .done (.ok p)⟩) :
    ∃ t', aRun cfg s' (acts.filter fun a => !Belongs I K a) = some t' ∧ Erased I K t t' := by
  induction acts generalizing s s' with
  | nil =>
    simp only [aRun, Option.some.injEq] at h
    subst h
    exact ⟨s', rfl, hE⟩
  | cons a as ih =>
    simp only [aRun] at h
    split at h
    · rename_i s1 hs1
      have hsub1 : ∀ k i, AAct.sub k i ∈ as → K k = I i := fun k i hm => hsub k i (List.mem_cons_of_mem _ hm)
      have hsub0 : ∀ k i, a = .sub k i → K k = I i := fun k i ha => hsub k i (by rw [ha]; exact List.mem_cons_self ..)
      cases hb : Belongs I K a with
      | true =>
        rw [List.filter_cons_of_neg (by simp [hb])]
        refine ih (hE.hidden hs1 hb hsub0 fun i q p hi hd => ?_) h hsub1
        exact hok i q p hi (done_stable_run h hd)
      | false =>
        rw [List.filter_cons_of_pos (by simp [hb])]
        obtain ⟨t1, ht1, hE1⟩ := hE.visible hs1 hb hsub0
        obtain ⟨t', ht', hE'⟩ := ih hE1 h hsub1
        exact ⟨t', by simp only [aRun, ht1, ht'], hE'⟩
    · simp at h

end Athenz
