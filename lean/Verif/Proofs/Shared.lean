import Verif.Spec.Shared
import Verif.Proofs.Authority

/-! # Principals as pointers: invariants -/

namespace Athenz

open Spec

/-! ## Memory -/

theorem read_grow {heap more : List (List Str)} {sl : StrSlice} (h : sl.arr < heap.length) : sl.read (heap ++ more) = sl.read heap := by
  unfold StrSlice.read
  rw [List.getElem?_append_left h]

theorem read_modify_ne {heap : List (List Str)} {sl : StrSlice} {n : Nat} {f : List Str → List Str} (h : sl.arr ≠ n) :
    sl.read (heap.modify n f) = sl.read heap := by
  unfold StrSlice.read
  rw [List.getElem?_modify]
  simp [Ne.symm h]

theorem read_modify_ge {heap : List (List Str)} {sl : StrSlice} {n idx : Nat} {v : Str} (h : sl.len ≤ idx) :
    sl.read (heap.modify n (·.set idx v)) = sl.read heap := by
  unfold StrSlice.read
  rw [List.getElem?_modify]
  cases heap[sl.arr]? with
  | none => rfl
  | some A =>
    simp only [Option.map_eq_map, Option.map_some, Option.getD_some]
    split
    · rw [List.take_set, List.set_eq_of_length_le (by simp; omega)]
    · rfl

/-! ## The calls -/

/-- The principal of a call that has validated its token and not returned. -/
def livePc : Pc → Option Principal
  | .validated p => some p
  | .translated p _ _ => some p
  | .checked p => some p
  | _ => none

/-- The principal that a call returned. -/
def donePc : Pc → Option Principal
  | .done (.ok p) => some p
  | _ => none

/-- Call `j` has returned. -/
def CallDone (a : AState) (j : Nat) : Prop := ∃ q r, a.calls j = some ⟨q, .done r⟩

/-- Nothing about principals. -/
structure NoPrin (a a' : AState) : Prop where
  calls : ∀ i c, a'.calls i = some c → (livePc c.pc = none ∧ donePc c.pc = none) ∨
    ∃ c0, a.calls i = some c0 ∧ livePc c0.pc = livePc c.pc ∧ donePc c0.pc = donePc c.pc
  ret : ∀ j, CallDone a j → CallDone a' j
  cache : ∀ k e, a'.cache k = some e → a.cache k = some e

theorem NoPrin.of_eq {a a' : AState} (h1 : a'.calls = a.calls) (h2 : ∀ k e, a'.cache k = some e → a.cache k = some e) : NoPrin a a' :=
  ⟨fun i c h => .inr ⟨c, by rw [← h1]; exact h, rfl, rfl⟩, fun j ⟨q, r, h⟩ => ⟨q, r, by rw [h1]; exact h⟩, h2⟩

/-- A call that has not returned goes on. -/
theorem NoPrin.of_set {a a' : AState} {i : Nat} {q : AReq} {pc : Pc} (h1 : ∀ j, a'.calls j = if j = i then some ⟨q, pc⟩ else a.calls j)
    (h2 : ∀ k e, a'.cache k = some e → a.cache k = some e) (hn : ¬ CallDone a i)
    (h3 : (livePc pc = none ∧ donePc pc = none) ∨ ∃ c0, a.calls i = some c0 ∧ livePc c0.pc = livePc pc ∧ donePc c0.pc = donePc pc) : NoPrin a a' := by
  refine ⟨?_, ?_, h2⟩
  · intro j c h
    rw [h1] at h
    split at h
    · rename_i e
      simp only [Option.some.injEq] at h
      subst h e
      exact h3
    · exact .inr ⟨c, h, rfl, rfl⟩
  · rintro j ⟨q', r, h⟩
    refine ⟨q', r, ?_⟩
    rw [h1, if_neg]
    · exact h
    · rintro rfl
      exact hn ⟨q', r, h⟩

theorem not_returned {a : AState} {i : Nat} {q : AReq} {pc : Pc} (h : a.calls i = some ⟨q, pc⟩) (hp : ∀ r, pc ≠ .done r) : ¬ CallDone a i := by
  rintro ⟨q', r, h'⟩
  rw [h] at h'
  simp only [Option.some.injEq, Call.mk.injEq] at h'
  exact hp r h'.2

theorem not_returned' {a : AState} {i : Nat} (h : a.calls i = none) : ¬ CallDone a i := by
  rintro ⟨q', r, h'⟩
  rw [h] at h'
  simp at h'

theorem notOk_donePc {r : Res Principal} (h : r.NotOk) : donePc (.done r) = none := by
  cases r with
  | ok p => exact absurd rfl (h p)
  | err e => rfl
  | panic => rfl

/-! ## The invariant -/

/-- The record says what the principal says, but for the elements of its slices. -/
def SameFields (o : PObj) (p : Principal) : Prop :=
  o.name = p.name ∧ o.domain = p.domain ∧ o.issueTime = p.issueTime ∧ o.expiryTime = p.expiryTime ∧ o.clientID = p.clientID ∧
  o.roles.len = p.roles.length ∧ o.authorizedRoles.len = p.authorizedRoles.length

/-- The slices of the record that call `j` made. -/
def OwnBy (s : MState) (j : Nat) (sl : StrSlice) : Prop := ∃ o, s.objs j = some o ∧ (sl = o.roles ∨ sl = o.authorizedRoles)

/-- `clean`: no caller has set an element. -/
structure MInv (clean : Prop) (s : MState) : Prop where
  bound : ∀ j sl, OwnBy s j sl → sl.arr < s.heap.length
  mineBound : ∀ m ∈ s.mine, m.1.arr < s.heap.length
  apart : ∀ i j sl sl', OwnBy s i sl → OwnBy s j sl' → sl.arr = sl'.arr → i = j ∧ sl = sl'
  live : ∀ i c p, s.a.calls i = some c → livePc c.pc = some p → ∃ o, s.objs i = some o ∧ SameFields o p ∧ o.read s.heap = p
  done : ∀ i c p, s.a.calls i = some c → donePc c.pc = some p →
    ∃ j o, s.ret i = some j ∧ CallDone s.a j ∧ s.objs j = some o ∧ SameFields o p ∧ (clean → o.read s.heap = p)
  cached : ∀ k e, s.a.cache k = some e →
    ∃ j o, s.ptr k = some j ∧ CallDone s.a j ∧ s.objs j = some o ∧ SameFields o e.val ∧ (clean → o.read s.heap = e.val)
  retPub : ∀ i j, s.ret i = some j → CallDone s.a j
  mineFrom : ∀ m ∈ s.mine, ∀ j sl, OwnBy s j sl → sl.arr = m.1.arr → CallDone s.a j ∧ sl.len ≤ m.1.len

theorem mInv_init (clean : Prop) (now : Int) (keys : Option KeyProvider) (jwkp : Option JwkProvider) : MInv clean (mInit now keys jwkp) := by
  have no : ∀ j sl, ¬ OwnBy (mInit now keys jwkp) j sl := by rintro j sl ⟨o, h, _⟩; simp [mInit] at h
  refine ⟨fun j sl h => absurd h (no j sl), by simp [mInit], fun i j sl sl' h => absurd h (no i sl), ?_, ?_, ?_, ?_, by simp [mInit]⟩
  · intro i c p h; simp [mInit, aInit] at h
  · intro i c p h; simp [mInit, aInit] at h
  · intro k e h; simp [mInit, aInit, Gache.empty] at h
  · intro i j h; simp [mInit] at h

theorem not_live_returned {a : AState} {i : Nat} {c : Call} {p : Principal} (h : a.calls i = some c) (hl : livePc c.pc = some p) : ¬ CallDone a i := by
  obtain ⟨q, pc⟩ := c
  refine not_returned h ?_
  rintro r rfl
  simp [livePc] at hl

/-- Records that are not changed read the same in memory that is not changed where they are. -/
theorem objRead_eq {heap heap' : List (List Str)} {o : PObj} (h1 : o.roles.read heap' = o.roles.read heap)
    (h2 : o.authorizedRoles.read heap' = o.authorizedRoles.read heap) : o.read heap' = o.read heap := by
  unfold PObj.read
  rw [h1, h2]

theorem MInv.noPrin {clean : Prop} {s : MState} (hi : MInv clean s) {a' : AState} (hq : NoPrin s.a a') : MInv clean { s with a := a' } := by
  refine ⟨hi.bound, hi.mineBound, hi.apart, ?_, ?_, ?_, fun i j h => hq.ret j (hi.retPub i j h), ?_⟩
  · intro i c p h hl
    rcases hq.calls i c h with ⟨h1, _⟩ | ⟨c0, h1, h2, _⟩
    · rw [h1] at hl; simp at hl
    · exact hi.live i c0 p h1 (by rw [h2]; exact hl)
  · intro i c p h hl
    rcases hq.calls i c h with ⟨_, h1⟩ | ⟨c0, h1, _, h2⟩
    · rw [h1] at hl; simp at hl
    · obtain ⟨j, o, h3, h4, h5⟩ := hi.done i c0 p h1 (by rw [h2]; exact hl)
      exact ⟨j, o, h3, hq.ret j h4, h5⟩
  · intro k e h
    obtain ⟨j, o, h3, h4, h5⟩ := hi.cached k e (hq.cache k e h)
    exact ⟨j, o, h3, hq.ret j h4, h5⟩
  · intro m hm j sl ho he
    obtain ⟨h1, h2⟩ := hi.mineFrom m hm j sl ho he
    exact ⟨hq.ret j h1, h2⟩

/-! ## Steps of the library -/

/-- A hit. -/
theorem MInv.hit {clean : Prop} {s : MState} (hi : MInv clean s) {cfg : AuthCfg} {i : Nat} {q : AReq} {p : Principal}
    (h : s.a.calls i = some ⟨q, .start⟩) (hg : s.a.cache.get s.a.now (cacheKey cfg q) = some p) :
    MInv clean { s with a := (s.a.setPc i q (.done (.ok p))).note (.hit i s.a.now), ret := fun j => if j = i then s.ptr (cacheKey cfg q) else s.ret j } := by
  obtain ⟨e, he, rfl, _⟩ := Gache.get_some hg
  have hn : ¬ CallDone s.a i := not_returned h (by intro r; simp)
  have hret : ∀ j, CallDone s.a j → CallDone ((s.a.setPc i q (.done (.ok e.val))).note (.hit i s.a.now)) j := by
    rintro j ⟨q', r, hj⟩
    by_cases hji : j = i
    · exact absurd ⟨q', r, hji ▸ hj⟩ hn
    · exact ⟨q', r, by simp only [AState.note, AState.setPc, if_neg hji]; exact hj⟩
  obtain ⟨j0, o0, g1, g2, g3, g4, g5⟩ := hi.cached _ e he
  refine ⟨hi.bound, hi.mineBound, hi.apart, ?_, ?_, ?_, ?_, ?_⟩
  · intro i' c p' hc hl
    simp only [AState.note, AState.setPc] at hc
    split at hc
    · simp only [Option.some.injEq] at hc
      subst hc
      simp [livePc] at hl
    · exact hi.live i' c p' hc hl
  · intro i' c p' hc hl
    simp only [AState.note, AState.setPc] at hc
    split at hc
    · rename_i hii
      simp only [Option.some.injEq] at hc
      subst hc
      simp only [donePc, Option.some.injEq] at hl
      subst hl
      exact ⟨j0, o0, by simp only [if_pos hii]; exact g1, hret j0 g2, g3, g4, g5⟩
    · rename_i hii
      obtain ⟨j, o, h3, h4, h5⟩ := hi.done i' c p' hc hl
      exact ⟨j, o, by simp only [if_neg hii]; exact h3, hret j h4, h5⟩
  · intro k e' hk
    obtain ⟨j, o, h3, h4, h5⟩ := hi.cached k e' hk
    exact ⟨j, o, h3, hret j h4, h5⟩
  · intro i' j hr
    simp only at hr
    split at hr
    · rw [g1, Option.some.injEq] at hr
      exact hr ▸ hret j0 g2
    · exact hret j (hi.retPub i' j hr)
  · intro m hm j sl ho he'
    obtain ⟨h1, h2⟩ := hi.mineFrom m hm j sl ho he'
    exact ⟨hret j h1, h2⟩

/-- A store. -/
theorem MInv.store {clean : Prop} {s : MState} (hi : MInv clean s) {cfg : AuthCfg} {i : Nat} {q : AReq} {p : Principal}
    (h : s.a.calls i = some ⟨q, .checked p⟩) {a' : AState}
    (ha : a' = ({ s.a with cache := s.a.cache.set s.a.now (cacheKey cfg q) p cfg.cacheExp }.setPc i q (.done (.ok p))).note
          (.stored i s.a.now (cacheKey cfg q) p)) :
    MInv clean { s with a := a', ptr := fun k => if k = cacheKey cfg q then some i else s.ptr k, ret := fun j => if j = i then some i else s.ret j } := by
  have hcalls : ∀ j, a'.calls j = if j = i then some ⟨q, .done (.ok p)⟩ else s.a.calls j := by subst ha; intro j; rfl
  have hcache : ∀ k, a'.cache k = s.a.cache.set s.a.now (cacheKey cfg q) p cfg.cacheExp k := by subst ha; intro j; rfl
  have hret : ∀ j, CallDone s.a j → CallDone a' j := by
    rintro j ⟨q', r, hj⟩
    by_cases hji : j = i
    · exact absurd ⟨q', r, hji ▸ hj⟩ (not_returned h (by intro r; simp))
    · exact ⟨q', r, by rw [hcalls, if_neg hji]; exact hj⟩
  have hreti : CallDone a' i := ⟨q, .ok p, by rw [hcalls, if_pos rfl]⟩
  obtain ⟨o0, g1, g2, g3⟩ := hi.live i _ p h rfl
  refine ⟨hi.bound, hi.mineBound, hi.apart, ?_, ?_, ?_, ?_, ?_⟩
  · intro i' c p' hc hl
    simp only [hcalls] at hc
    split at hc
    · simp only [Option.some.injEq] at hc
      subst hc
      simp [livePc] at hl
    · exact hi.live i' c p' hc hl
  · intro i' c p' hc hl
    simp only [hcalls] at hc
    split at hc
    · rename_i hii
      simp only [Option.some.injEq] at hc
      subst hc
      simp only [donePc, Option.some.injEq] at hl
      subst hl
      exact ⟨i, o0, by simp only [if_pos hii], hreti, g1, g2, fun _ => g3⟩
    · rename_i hii
      obtain ⟨j, o, h3, h4, h5⟩ := hi.done i' c p' hc hl
      exact ⟨j, o, by simp only [if_neg hii]; exact h3, hret j h4, h5⟩
  · intro k e' hk
    simp only [hcache, Gache.set] at hk
    split at hk
    · rename_i hkk
      simp only [Option.some.injEq] at hk
      subst hk
      exact ⟨i, o0, by simp only [if_pos hkk], hreti, g1, g2, fun _ => g3⟩
    · rename_i hkk
      obtain ⟨j, o, h3, h4, h5⟩ := hi.cached k e' hk
      exact ⟨j, o, by simp only [if_neg hkk]; exact h3, hret j h4, h5⟩
  · intro i' j hr
    simp only at hr
    split at hr
    · simp only [Option.some.injEq] at hr
      exact hr ▸ hreti
    · exact hret j (hi.retPub i' j hr)
  · intro m hm j sl ho he'
    obtain ⟨h1, h2⟩ := hi.mineFrom m hm j sl ho he'
    exact ⟨hret j h1, h2⟩

/-- A new record for a call that has not returned; its slices are new, or were its own before. -/
theorem MInv.remake {clean : Prop} {s : MState} (hi : MInv clean s) {i : Nat} {q : AReq} {pc : Pc} {p : Principal} {o : PObj} {more : List (List Str)}
    {a' : AState} (hn : ¬ CallDone s.a i) (hcalls : ∀ j, a'.calls j = if j = i then some ⟨q, pc⟩ else s.a.calls j) (hcache : a'.cache = s.a.cache)
    (hl : livePc pc = some p) (hd : donePc pc = none)
    (hroles : (s.heap.length ≤ o.roles.arr ∧ o.roles.arr < s.heap.length + more.length) ∨ OwnBy s i o.roles)
    (hauth : s.heap.length ≤ o.authorizedRoles.arr ∧ o.authorizedRoles.arr < s.heap.length + more.length)
    (hne : o.roles.arr ≠ o.authorizedRoles.arr) (hf : SameFields o p) (hread : o.read (s.heap ++ more) = p) :
    MInv clean { s with a := a', heap := s.heap ++ more, objs := fun j => if j = i then some o else s.objs j } := by
  have hret : ∀ j, CallDone s.a j → CallDone a' j := by
    rintro j ⟨q', r, hj⟩
    by_cases hji : j = i
    · exact absurd ⟨q', r, hji ▸ hj⟩ hn
    · exact ⟨q', r, by rw [hcalls, if_neg hji]; exact hj⟩
  have hown : ∀ j sl, OwnBy { s with a := a', heap := s.heap ++ more, objs := fun j => if j = i then some o else s.objs j } j sl →
      (j = i ∧ (sl = o.roles ∨ sl = o.authorizedRoles)) ∨ (j ≠ i ∧ OwnBy s j sl) := by
    rintro j sl ⟨o', h1, h2⟩
    simp only at h1
    split at h1
    · rename_i hji
      simp only [Option.some.injEq] at h1
      exact .inl ⟨hji, h1 ▸ h2⟩
    · rename_i hji
      exact .inr ⟨hji, o', h1, h2⟩
  have keep : ∀ j o', s.objs j = some o' → o'.read (s.heap ++ more) = o'.read s.heap := by
    intro j o' hj
    exact objRead_eq (read_grow (hi.bound j _ ⟨o', hj, .inl rfl⟩)) (read_grow (hi.bound j _ ⟨o', hj, .inr rfl⟩))
  -- the slices of the new record, compared with slices of other records
  have foreign : ∀ j sl sl', j ≠ i → OwnBy s j sl → (sl' = o.roles ∨ sl' = o.authorizedRoles) → sl.arr ≠ sl'.arr := by
    intro j sl sl' hji ho hsl he
    have hb := hi.bound j sl ho
    rcases hsl with rfl | rfl
    · rcases hroles with hr | hr
      · omega
      · exact hji (hi.apart j i sl _ ho hr he).1
    · omega
  refine ⟨?_, ?_, ?_, ?_, ?_, ?_, fun i' j h => hret j (hi.retPub i' j h), ?_⟩
  · intro j sl ho
    simp only [List.length_append]
    rcases hown j sl ho with ⟨_, rfl | rfl⟩ | ⟨_, h⟩
    · rcases hroles with hr | hr
      · exact hr.2
      · have := hi.bound i _ hr
        omega
    · exact hauth.2
    · have := hi.bound j sl h
      omega
  · intro m hm
    have := hi.mineBound m hm
    simp only [List.length_append]
    omega
  · intro j j' sl sl' h1 h2 he
    rcases hown j sl h1 with ⟨rfl, g1⟩ | ⟨hj, g1⟩ <;> rcases hown j' sl' h2 with ⟨rfl, g2⟩ | ⟨hj', g2⟩
    · refine ⟨rfl, ?_⟩
      rcases g1 with rfl | rfl <;> rcases g2 with rfl | rfl
      · rfl
      · exact absurd he hne
      · exact absurd he.symm hne
      · rfl
    · exact absurd he.symm (foreign j' sl' sl hj' g2 g1)
    · exact absurd he (foreign j sl sl' hj g1 g2)
    · exact hi.apart j j' sl sl' g1 g2 he
  · intro i' c p' hc hlp
    simp only [hcalls] at hc
    split at hc
    · rename_i hii
      simp only [Option.some.injEq] at hc
      subst hc
      simp only [hl, Option.some.injEq] at hlp
      subst hlp
      exact ⟨o, by simp only [if_pos hii], hf, hread⟩
    · rename_i hii
      obtain ⟨o', h1, h2, h3⟩ := hi.live i' c p' hc hlp
      exact ⟨o', by simp only [if_neg hii]; exact h1, h2, by rw [keep i' o' h1]; exact h3⟩
  · intro i' c p' hc hdp
    simp only [hcalls] at hc
    split at hc
    · simp only [Option.some.injEq] at hc
      subst hc
      simp [hd] at hdp
    · obtain ⟨j, o', h1, h2, h3, h4, h5⟩ := hi.done i' c p' hc hdp
      have hji : j ≠ i := by rintro rfl; exact hn h2
      exact ⟨j, o', h1, hret j h2, by simp only [if_neg hji]; exact h3, h4, fun hcl => by rw [keep j o' h3]; exact h5 hcl⟩
  · intro k e hk
    simp only [hcache] at hk
    obtain ⟨j, o', h1, h2, h3, h4, h5⟩ := hi.cached k e hk
    have hji : j ≠ i := by rintro rfl; exact hn h2
    exact ⟨j, o', h1, hret j h2, by simp only [if_neg hji]; exact h3, h4, fun hcl => by rw [keep j o' h3]; exact h5 hcl⟩
  · intro m hm j sl ho he
    rcases hown j sl ho with ⟨rfl, h⟩ | ⟨hj, h⟩
    · exfalso
      have hb := hi.mineBound m hm
      rcases h with rfl | rfl
      · rcases hroles with hr | hr
        · omega
        · exact hn (hi.mineFrom m hm _ _ hr he).1
      · omega
    · obtain ⟨h1, h2⟩ := hi.mineFrom m hm j sl h he
      exact ⟨hret j h1, h2⟩

theorem synced_calls {clean : Prop} {s : MState} (hi : MInv clean s) (act : AAct) : s.synced act = s.a := by
  unfold MState.synced
  split
  · rename_i i _ _
    split
    · rename_i q p act res o hc ho
      obtain ⟨o', h1, _, h3⟩ := hi.live i _ p hc rfl
      rw [ho, Option.some.injEq] at h1
      subst h1
      have h4 : o.roles.read s.heap = p.roles := by rw [← h3]; rfl
      rw [h4]
      have : (s.a.setPc i q (.translated p act res)).calls = s.a.calls := by
        funext j
        simp only [AState.setPc]
        split
        · rename_i hj
          rw [hj, hc]
        · rfl
      cases ha : s.a
      rw [ha] at this
      simp only [AState.setPc] at this ⊢
      rw [this]
    · rfl
  · rfl

theorem MInv.lib {clean : Prop} {cfg : AuthCfg} {s : MState} (hi : MInv clean s) {act : AAct} {spare : Nat} {a' : AState} (h : aStep cfg s.a act = some a') :
    MInv clean (s.after cfg a' act spare) := by
  have same : ∀ (a : AState) i q pc j, ((a.setPc i q pc).calls j) = if j = i then some ⟨q, pc⟩ else a.calls j := fun _ _ _ _ _ => rfl
  cases aStep_effect h with
  | call i q hc => exact hi.noPrin (.of_set (same _ i q .start) (fun _ _ h => h) (not_returned' hc) (.inl ⟨rfl, rfl⟩))
  | bad i q hc he =>
    have e : s.after cfg (s.a.setPc i q (.done (.err .invalidParameters))) (.get i) spare = { s with a := s.a.setPc i q (.done (.err .invalidParameters)) } := by
      simp only [MState.after, same, if_true]
    rw [e]
    exact hi.noPrin (.of_set (same _ i q _) (fun _ _ h => h) (not_returned hc (by intro r; simp)) (.inl ⟨rfl, rfl⟩))
  | hit i q p hc he hg =>
    have e : s.after cfg ((s.a.setPc i q (.done (.ok p))).note (.hit i s.a.now)) (.get i) spare =
        { s with a := (s.a.setPc i q (.done (.ok p))).note (.hit i s.a.now), ret := fun j => if j = i then s.ptr (cacheKey cfg q) else s.ret j } := by
      simp only [MState.after, AState.note, same, if_true]
    rw [e]
    exact hi.hit hc hg
  | miss i q hc he hg =>
    have e : s.after cfg (s.a.setPc i q .miss) (.get i) spare = { s with a := s.a.setPc i q .miss } := by
      simp only [MState.after, same, if_true]
    rw [e]
    exact hi.noPrin (.of_set (same _ i q _) (fun _ _ h => h) (not_returned hc (by intro r; simp)) (.inl ⟨rfl, rfl⟩))
  | valid i q p hc hv =>
    have hauth : p.authorizedRoles = [] := by
      unfold validateToken at hv
      split at hv
      · split at hv
        · simp only [Res.ok.injEq] at hv; subst hv; rfl
        · simp at hv
        · simp at hv
      · split at hv
        · simp only [Res.ok.injEq] at hv; subst hv; rfl
        · simp at hv
        · simp at hv
    have e : s.after cfg ((s.a.note (.validated i s.a.now s.a.keys s.a.jwkp)).setPc i q (if cfg.disablePolicyd then .checked p else .validated p)) (.validate i) spare =
        s.make ((s.a.note (.validated i s.a.now s.a.keys s.a.jwkp)).setPc i q (if cfg.disablePolicyd then .checked p else .validated p)) i p spare := by
      simp only [MState.after, same, if_true]
      cases cfg.disablePolicyd <;> rfl
    rw [e]
    unfold MState.make
    refine hi.remake (q := q) (pc := if cfg.disablePolicyd then .checked p else .validated p) (p := p) (not_returned hc (by intro r; simp)) (fun j => rfl) rfl
      (by split <;> rfl) (by split <;> rfl) (.inl ?_) ?_ ?_ ?_ ?_
    · simp [PObj.of]
    · simp [PObj.of]
    · simp [PObj.of]
    · exact ⟨rfl, rfl, rfl, rfl, rfl, rfl, by rw [hauth]; rfl⟩
    · have h1 : (PObj.of p ⟨s.heap.length, p.roles.length⟩ ⟨s.heap.length + 1, 0⟩).read (s.heap ++ [p.roles ++ List.replicate spare [], []]) =
          { p with roles := p.roles, authorizedRoles := [] } := by
        simp [PObj.read, PObj.of, StrSlice.read]
      rw [h1, ← hauth]
  | invalid i q r hc hv hr =>
    have e : s.after cfg ((s.a.note (.validated i s.a.now s.a.keys s.a.jwkp)).setPc i q (.done r)) (.validate i) spare =
        { s with a := (s.a.note (.validated i s.a.now s.a.keys s.a.jwkp)).setPc i q (.done r) } := by
      simp only [MState.after, same, if_true]
    rw [e]
    exact hi.noPrin (.of_set (same _ i q _) (fun _ _ h => h) (not_returned hc (by intro r; simp)) (.inl ⟨rfl, notOk_donePc hr⟩))
  | trans i seed q p act res hc ht =>
    exact hi.noPrin (.of_set (same _ i q _) (fun _ _ h => h) (not_returned hc (by intro r; simp)) (.inr ⟨_, hc, rfl, rfl⟩))
  | transFail i seed q p r hc hf hr =>
    exact hi.noPrin (.of_set (same _ i q _) (fun _ _ h => h) (not_returned hc (by intro r; simp)) (.inl ⟨rfl, notOk_donePc hr⟩))
  | check i view sched q p act res rs hc hcr =>
    obtain ⟨o, g1, g2, g3⟩ := hi.live i _ p hc rfl
    have e : s.after cfg ((s.a.note (.checked i view sched)).setPc i q (.checked { p with authorizedRoles := rs })) (.check i view sched) spare =
        { s with a := (s.a.note (.checked i view sched)).setPc i q (.checked { p with authorizedRoles := rs })
                 heap := s.heap ++ [rs ++ List.replicate (p.roles.length - rs.length) []]
                 objs := fun j => if j = i then some { o with authorizedRoles := ⟨s.heap.length, rs.length⟩ } else s.objs j } := by
      simp only [MState.after, same, if_true, MState.grant, g1, Option.map_some]
    rw [e]
    have hr : o.roles.arr < s.heap.length := hi.bound i _ ⟨o, g1, .inl rfl⟩
    refine hi.remake (q := q) (pc := .checked { p with authorizedRoles := rs }) (p := { p with authorizedRoles := rs }) (not_returned hc (by intro r; simp)) (fun j => rfl) rfl rfl rfl
      (.inr ⟨o, g1, .inl rfl⟩) ?_ ?_ ?_ ?_
    · simp
    · simp only; omega
    · obtain ⟨h1, h2, h3, h4, h5, h6, _⟩ := g2
      exact ⟨h1, h2, h3, h4, h5, h6, rfl⟩
    · have h1 : ({ o with authorizedRoles := ⟨s.heap.length, rs.length⟩ } : PObj).read (s.heap ++ [rs ++ List.replicate (p.roles.length - rs.length) []]) =
          { o.read s.heap with authorizedRoles := rs } := by
        simp only [PObj.read, read_grow hr]
        simp [StrSlice.read]
      rw [h1, g3]
  | checkFail i view sched q p act res r hc hf hr =>
    have e : s.after cfg ((s.a.note (.checked i view sched)).setPc i q (.done r)) (.check i view sched) spare =
        { s with a := (s.a.note (.checked i view sched)).setPc i q (.done r) } := by
      simp only [MState.after, same, if_true]
    rw [e]
    exact hi.noPrin (.of_set (same _ i q _) (fun _ _ h => h) (not_returned hc (by intro r; simp)) (.inl ⟨rfl, notOk_donePc hr⟩))
  | store i q p hc =>
    have e : ∀ a', a' = (({ s.a with cache := s.a.cache.set s.a.now (cacheKey cfg q) p cfg.cacheExp }.setPc i q (.done (.ok p))).note
          (.stored i s.a.now (cacheKey cfg q) p)) → s.after cfg a' (.store i) spare =
        { s with a := a', ptr := fun k => if k = cacheKey cfg q then some i else s.ptr k, ret := fun j => if j = i then some i else s.ret j } := by
      rintro a' rfl
      simp only [MState.after, AState.note, same, if_true]
    rw [e _ rfl]
    exact hi.store hc rfl
  | opened k r act res hs => exact hi.noPrin (.of_eq rfl fun _ _ h => h)
  | sub k i q rest tried hs hc => exact hi.noPrin (.of_set (i := i) (q := q) (pc := .start) (fun j => rfl) (fun _ _ h => h) (not_returned' hc) (.inl ⟨rfl, rfl⟩))
  | finFails k e rest tried hs => exact hi.noPrin (.of_eq rfl fun _ _ h => h)
  | fin k c rest i tried q r hs hc => exact hi.noPrin (.of_eq rfl fun _ _ h => h)
  | tick d => exact hi.noPrin (.of_eq rfl fun _ _ h => h)
  | setKeys ks => exact hi.noPrin (.of_eq rfl fun _ _ h => h)
  | setJwkp ks => exact hi.noPrin (.of_eq rfl fun _ _ h => h)
  | sweep sel =>
    refine hi.noPrin (.of_eq rfl fun k e h => ?_)
    simp only [Gache.sweep] at h
    split at h
    · simp at h
    · rename_i e' he
      split at h
      · simp at h
      · rw [he]; exact h
  | clear => exact hi.noPrin (.of_eq rfl fun k e h => by simp [Gache.empty] at h)

/-! ## Steps of callers -/

/-- Memory changes only where no call that has not returned has its record. -/
theorem MInv.memory {clean clean' : Prop} {s : MState} (hi : MInv clean s) {heap' : List (List Str)} {new : List (StrSlice × List Str)}
    (hlen : s.heap.length ≤ heap'.length) (hcl : clean' → clean)
    (hlive : ∀ j sl, OwnBy s j sl → ¬ CallDone s.a j → sl.read heap' = sl.read s.heap)
    (hall : clean' → ∀ j sl, OwnBy s j sl → sl.read heap' = sl.read s.heap)
    (hnew : ∀ m ∈ new, m.1.arr < heap'.length ∧ ∀ j sl, OwnBy s j sl → sl.arr = m.1.arr → CallDone s.a j ∧ sl.len ≤ m.1.len) :
    MInv clean' { s with heap := heap', mine := s.mine ++ new } := by
  have keep : ∀ j o, s.objs j = some o → clean' → o.read heap' = o.read s.heap := fun j o h hc =>
    objRead_eq (hall hc j _ ⟨o, h, .inl rfl⟩) (hall hc j _ ⟨o, h, .inr rfl⟩)
  refine ⟨fun j sl h => Nat.lt_of_lt_of_le (hi.bound j sl h) hlen, ?_, hi.apart, ?_, ?_, ?_, hi.retPub, ?_⟩
  · intro m hm
    rcases List.mem_append.mp hm with hm | hm
    · exact Nat.lt_of_lt_of_le (hi.mineBound m hm) hlen
    · exact (hnew m hm).1
  · intro i c p hc hl
    obtain ⟨o, h1, h2, h3⟩ := hi.live i c p hc hl
    have hn := not_live_returned hc hl
    refine ⟨o, h1, h2, ?_⟩
    have : o.read heap' = o.read s.heap := objRead_eq (hlive i _ ⟨o, h1, .inl rfl⟩ hn) (hlive i _ ⟨o, h1, .inr rfl⟩ hn)
    show o.read heap' = p
    rw [this, h3]
  · intro i c p hc hd
    obtain ⟨j, o, h1, h2, h3, h4, h5⟩ := hi.done i c p hc hd
    exact ⟨j, o, h1, h2, h3, h4, fun hcc => by show o.read heap' = p; rw [keep j o h3 hcc]; exact h5 (hcl hcc)⟩
  · intro k e hk
    obtain ⟨j, o, h1, h2, h3, h4, h5⟩ := hi.cached k e hk
    exact ⟨j, o, h1, h2, h3, h4, fun hcc => by show o.read heap' = e.val; rw [keep j o h3 hcc]; exact h5 (hcl hcc)⟩
  · intro m hm
    rcases List.mem_append.mp hm with hm | hm
    · exact hi.mineFrom m hm
    · exact (hnew m hm).2

/-- The slices of a returned principal. -/
theorem MInv.take {clean : Prop} {s : MState} (hi : MInv clean s) {i : Nat} {o : PObj} (h : (s.ret i).bind s.objs = some o) {sl : StrSlice}
    (hsl : sl = o.roles ∨ sl = o.authorizedRoles) (l : List Str) : MInv clean { s with mine := s.mine ++ [(sl, l)] } := by
  obtain ⟨j, h1, h2⟩ := Option.bind_eq_some_iff.mp h
  have ho : OwnBy s j sl := ⟨o, h2, hsl⟩
  refine hi.memory (heap' := s.heap) (Nat.le_refl _) id (fun _ _ _ _ => rfl) (fun _ _ _ _ => rfl) ?_
  intro m hm
  simp only [List.mem_singleton] at hm
  subst hm
  refine ⟨hi.bound j sl ho, fun j' sl' ho' he => ?_⟩
  obtain ⟨rfl, rfl⟩ := hi.apart j' j sl' sl ho' ho he
  exact ⟨hi.retPub i _ h1, Nat.le_refl _⟩

theorem mInv_step {clean : Prop} {cfg : AuthCfg} {s s' : MState} {act : MAct} (hi : MInv clean s) (h : mStep cfg s act = some s')
    (hw : clean → ∀ m idx v, act ≠ .write m idx v) : MInv clean s' := by
  cases act with
  | lib act spare =>
    simp only [mStep] at h
    rw [synced_calls hi] at h
    split at h
    · rename_i a' ha
      simp only [Option.some.injEq] at h
      subst h
      exact hi.lib ha
    · simp at h
  | roles i =>
    simp only [mStep] at h
    split at h
    · rename_i o ho
      simp only [Option.some.injEq] at h
      subst h
      exact hi.take ho (.inl rfl) _
    · simp at h
  | authorizedRoles i =>
    simp only [mStep] at h
    split at h
    · rename_i o ho
      simp only [Option.some.injEq] at h
      subst h
      exact hi.take ho (.inr rfl) _
    · simp at h
  | write m idx v =>
    simp only [mStep] at h
    split at h
    · rename_i sl l hm
      split at h
      · simp only [Option.some.injEq] at h
        subst h
        have hmem := List.mem_of_getElem? hm
        have := hi.memory (clean' := clean) (heap' := s.heap.modify sl.arr (·.set idx v)) (new := []) (by simp) id
          (fun j sl' ho hn => read_modify_ne fun he => hn (hi.mineFrom _ hmem j sl' ho he).1)
          (fun hc => absurd rfl (hw hc m idx v)) (by simp)
        simpa using this
      · simp at h
    · simp at h
  | append m v spare =>
    simp only [mStep] at h
    split at h
    · rename_i sl l hm
      have hmem := List.mem_of_getElem? hm
      split at h
      · simp only [Option.some.injEq] at h
        subst h
        have hread : ∀ j sl', OwnBy s j sl' → sl'.read (s.heap.modify sl.arr (·.set sl.len v)) = sl'.read s.heap := by
          intro j sl' ho
          by_cases he : sl'.arr = sl.arr
          · exact read_modify_ge (hi.mineFrom _ hmem j sl' ho he).2
          · exact read_modify_ne he
        refine hi.memory (by simp) id (fun j sl' ho _ => hread j sl' ho) (fun _ => hread) ?_
        intro x hx
        simp only [List.mem_singleton] at hx
        subst hx
        refine ⟨by simpa using hi.mineBound _ hmem, fun j sl' ho he => ?_⟩
        obtain ⟨h1, h2⟩ := hi.mineFrom _ hmem j sl' ho he
        exact ⟨h1, Nat.le_succ_of_le h2⟩
      · simp only [Option.some.injEq] at h
        subst h
        refine hi.memory (by simp) id (fun j sl' ho _ => read_grow (hi.bound j sl' ho)) (fun _ j sl' ho => read_grow (hi.bound j sl' ho)) ?_
        intro x hx
        simp only [List.mem_singleton] at hx
        subst hx
        refine ⟨by simp, fun j sl' ho he => ?_⟩
        have := hi.bound j sl' ho
        simp only at he
        omega
    · simp at h

theorem mInv_run {clean : Prop} {cfg : AuthCfg} {acts : List MAct} : ∀ {s s' : MState}, MInv clean s → mRun cfg s acts = some s' →
    (clean → NoWrite acts) → MInv clean s' := by
  induction acts with
  | nil => intro s s' hi h _; simp only [mRun, Option.some.injEq] at h; exact h ▸ hi
  | cons act acts ih =>
    intro s s' hi h hw
    simp only [mRun] at h
    split at h
    · rename_i s1 h1
      exact ih (mInv_step hi h1 fun hc m idx v he => hw hc m idx v (by rw [he]; exact List.mem_cons_self)) h
        fun hc m idx v hm => hw hc m idx v (List.mem_cons_of_mem _ hm)
    · simp at h

end Athenz
