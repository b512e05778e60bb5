import Verif.Proofs.Races

/-! # Updates one by one do not race (C88) -/

namespace Athenz

open Spec

/-- The goroutine is in Update. -/
def Updating : DPc → Prop
  | .called _ | .launch _ _ _ | .ready _ | .peek _ _ | .swapped _ _ | .peek2 _ _ _ | .closing => True
  | _ => False

/-- The goroutine uses the fetcher of the domain. -/
def Fetching (d : Str) : DPc → Prop
  | .body _ d' | .fetch d' | .hasTag d' | .tagged d' _ | .ask d' _ | .got d' _ | .gaveUp d' | .fallback d' | .fellBack d' _ => d' = d
  | _ => False

/-- The goroutines that Update waits for. -/
def kidsOf : DPc → List (Nat × Str)
  | .launch _ _ kids => kids
  | _ => []

/-- The goroutine is in a hook. -/
def Hooking : DPc → Prop
  | .hook _ | .hooked _ _ => True
  | _ => False

/-- The domains are distinct. -/
def DTodoOk : DPc → Prop
  | .called todo => todo.Nodup
  | .launch _ todo kids => (todo ++ kids.map (·.2)).Nodup
  | _ => True

/-- Accesses to the pointer to the caches that can race. -/
def RoleAcc (e : Ev) : Prop := e = .read .role ∨ e = .store .role ∨ e = .swap .role

/-- The same for a fetcher. -/
def CacheAcc (d : Str) (e : Ev) : Prop := Ev.loc e = some (.cache d)

/-- What has been read plainly can be used. -/
def PeekOk (tr : List (Nat × Ev)) (g : Nat) : DPc → Prop
  | .peek _ n => Know tr g (.box n)
  | .peek2 _ _ n => Know tr g (.box n)
  | _ => True

/-- What a goroutine of the group knows. -/
def KidKnows (tr : List (Nat × Ev)) (p : DPc) (k i : Nat) : Prop := Pre tr k i ∧ ((∀ b d, p ≠ .body b d) → PreE tr k i)

structure OInv (s : DState) : Prop where
  nohook : ∀ g, ¬ Hooking (s.pc g)
  one : ∀ g h, Updating (s.pc g) → Updating (s.pc h) → g = h
  fetchers : ∀ k d, Fetching d (s.pc k) → ∃ u, (k, d) ∈ kidsOf (s.pc u)
  kids : ∀ u k d, (k, d) ∈ kidsOf (s.pc u) → Fetching d (s.pc k) ∨ s.pc k = .done
  todo : ∀ u, DTodoOk (s.pc u)
  quiet : (∀ g, ¬ Updating (s.pc g)) →
    (∀ (i g : Nat) (e : Ev), s.trace[i]? = some (g, e) → e ≠ .start ∧ ((RoleAcc e ∨ ∃ d, CacheAcc d e) → ∃ l, Given l ∧ e = .write l)) ∨
    ∃ i0 g0 : Nat, s.trace[i0]? = some (g0, .start) ∧ ∀ k : Nat, i0 < k → s.trace[k]? = some (g0, .finish) →
      ∀ (i g : Nat) (e : Ev), s.trace[i]? = some (g, e) → (RoleAcc e ∨ ∃ d, CacheAcc d e) → HB s.trace i k
  begun : ∀ u, Updating (s.pc u) → ∃ i0 : Nat, s.trace[i0]? = some (u, .start) ∧ ∀ k : Nat, i0 < k → s.trace[k]? ≠ some (u, .finish)
  roles : ∀ u, Updating (s.pc u) → ∀ (i g : Nat) (e : Ev), s.trace[i]? = some (g, e) → RoleAcc e → Pre s.trace u i
  caches : ∀ u, Updating (s.pc u) → ∀ (i g : Nat) (e : Ev) (d : Str), s.trace[i]? = some (g, e) → CacheAcc d e →
    (∃ k, (k, d) ∈ kidsOf (s.pc u) ∧ KidKnows s.trace (s.pc k) k i) ∨ ((∀ k, (k, d) ∉ kidsOf (s.pc u)) ∧ Pre s.trace u i)
  peeks : ∀ u, PeekOk s.trace u (s.pc u)
  norace : ¬ Race s.trace

theorem kids_updating {p : DPc} {x : Nat × Str} (h : x ∈ kidsOf p) : Updating p := by
  cases p <;> simp [kidsOf] at h
  trivial

theorem fetching_not_updating {p : DPc} {d : Str} (h : Fetching d p) : ¬ Updating p := by
  cases p <;> simp [Fetching] at h <;> simp [Updating]

theorem Emits.cases {s s' : DState} {g : Nat} {e : Ev} {p q : DPc} (hi : DInv s) (hs : Emits s s' g e p q) (h : Nat) :
    (h = s.gids ∧ (∃ k, e = .fork k) ∧ s'.pc h = q) ∨ (h = g ∧ s'.pc h = p) ∨ (h ≠ g ∧ s'.pc h = s.pc h) := by
  have hl := hi.live g hs.here
  by_cases hf : ∃ h, e = .fork h
  · rw [(hs.fork hf).2.2.2]
    by_cases h1 : h = s.gids
    · exact .inl ⟨h1, hf, by simp [h1]⟩
    · by_cases h2 : h = g
      · exact .inr (.inl ⟨h2, by simp [h2]; intro he; omega⟩)
      · exact .inr (.inr ⟨h2, by simp [h1, h2]⟩)
  · rw [(hs.stay (by simpa using hf)).2]
    by_cases h2 : h = g
    · exact .inr (.inl ⟨h2, by simp [h2]⟩)
    · exact .inr (.inr ⟨h2, by simp [h2]⟩)

theorem Emits.here' {s s' : DState} {g : Nat} {e : Ev} {p q : DPc} (hi : DInv s) (hs : Emits s s' g e p q) : s'.pc g = p := by
  have hl := hi.live g hs.here
  rcases hs.cases hi g with ⟨h, _⟩ | ⟨_, h⟩ | ⟨h, _⟩
  · omega
  · exact h
  · exact absurd rfl h

theorem DInv.unborn {s : DState} (hi : DInv s) : s.pc s.gids = .none :=
  Classical.byContradiction fun h => by have := hi.live _ h; omega

theorem Emits.other {s s' : DState} {g h : Nat} {e : Ev} {p q : DPc} (hi : DInv s) (hs : Emits s s' g e p q) (hh : h ≠ g) (hn : s.pc h ≠ .none) :
    s'.pc h = s.pc h := by
  rcases hs.cases hi h with ⟨h1, _⟩ | ⟨h1, _⟩ | ⟨_, h1⟩
  · exact absurd (h1 ▸ hi.unborn) hn
  · exact absurd h1 hh
  · exact h1

/-- An event that comes after everything that it could race with. -/
theorem norace_snoc {s s' : DState} {g : Nat} {e : Ev} (hd : DInv s') (ho : ¬ Race s.trace) (ht : s'.trace = s.trace ++ [(g, e)])
    (h : ∀ (i k : Nat) (e1 : Ev), s.trace[i]? = some (k, e1) →
      (∃ x, (x = .role ∨ ∃ d, x = .cache d) ∧ ((e1 = .read x ∧ (e = .store x ∨ e = .swap x)) ∨ (e = .read x ∧ (e1 = .store x ∨ e1 = .swap x)))) ∨
        (∃ n, e1 = .write (.box n) ∧ e = .read (.box n)) → Pre s.trace g i) : ¬ Race s'.trace := by
  rintro ⟨i, j, k, k', e1, e2, hr⟩
  have hk := hd.racing i j k k' e1 e2 hr
  obtain ⟨hij, h1, h2, h3, h4, h5, h6⟩ := hr
  rw [ht] at h1 h2 h6
  rcases snoc_get.mp h2 with h2' | ⟨hj, h2'⟩
  · exact ho ⟨i, j, k, k', e1, e2, hij, snoc_lt h1 (Nat.lt_trans hij (get_lt h2')), h2', h3, h4, h5, fun hb => h6 (HB.mono _ hb)⟩
  · subst hj
    obtain ⟨rfl, rfl⟩ := Prod.mk.inj h2'
    refine h6 (h i k e1 (snoc_lt h1 hij) ?_).hb
    rcases hk with hk | ⟨n, a, b, _⟩
    · exact .inl hk
    · exact .inr ⟨n, a, b⟩

theorem KidKnows.mono {tr : List (Nat × Ev)} {p : DPc} {k i : Nat} (x : Nat × Ev) (h : KidKnows tr p k i) : KidKnows (tr ++ [x]) p k i :=
  ⟨h.1.mono x, fun hp => (h.2 hp).mono x⟩

theorem PeekOk.mono {s s' : DState} {g : Nat} {p : DPc} {x : Nat × Ev} (hp : DPcOk s g p) (h : PeekOk s.trace g p) (ht : s'.trace = s.trace ++ [x])
    (hw : ∀ l, x.2 = .write l → ∃ n, (l = .box n ∨ l = .pol n) ∧ s.objs ≤ n) : PeekOk s'.trace g p := by
  have hb : ∀ n, n < s.objs → Know s.trace g (.box n) → Know s'.trace g (.box n) := by
    intro n hn hk
    rw [ht]
    refine hk.mono fun hx => ?_
    obtain ⟨m, h1, h2⟩ := hw _ hx
    simp at h1
    omega
  cases p with
  | peek b n => exact hb n hp.2.2 h
  | peek2 b o n => exact hb n hp.2.2.2.2 h
  | _ => trivial

/-- Two goroutines of the group have different domains. -/
theorem OInv.kid_unique {s : DState} (ho : OInv s) {u k k' : Nat} {d : Str} (h : (k, d) ∈ kidsOf (s.pc u)) (h' : (k', d) ∈ kidsOf (s.pc u)) : k = k' := by
  have ht := ho.todo u
  cases hp : s.pc u <;> rw [hp] at h h' ht <;> simp [kidsOf] at h h'
  rename_i b todo kids
  have hn := (List.nodup_append.mp ht).2.1
  have := List.inj_on_of_nodup_map hn h h' rfl
  exact (Prod.mk.inj this).1

/-- Accesses by those who may do not race. -/
theorem OInv.free {s s' : DState} {g : Nat} {e : Ev} (ho : OInv s) (hd : DInv s') (ht : s'.trace = s.trace ++ [(g, e)])
    (hra : RoleAcc e → Updating (s.pc g)) (hca : ∀ d, CacheAcc d e → Fetching d (s.pc g)) (hbox : ∀ n, e = .read (.box n) → Know s.trace g (.box n)) :
    ¬ Race s'.trace := by
  refine norace_snoc hd ho.norace ht fun i k e1 h1 h2 => ?_
  rcases h2 with ⟨x, rfl | ⟨d, rfl⟩, h2⟩ | ⟨n, h2, h3⟩
  · have he : RoleAcc e ∧ RoleAcc e1 := by
      rcases h2 with ⟨rfl, rfl | rfl⟩ | ⟨rfl, rfl | rfl⟩ <;> simp [RoleAcc]
    exact ho.roles g (hra he.1) i k e1 h1 he.2
  · have he : CacheAcc d e ∧ CacheAcc d e1 := by
      rcases h2 with ⟨rfl, rfl | rfl⟩ | ⟨rfl, rfl | rfl⟩ <;> simp [CacheAcc, Ev.loc]
    obtain ⟨u, hu⟩ := ho.fetchers g d (hca d he.1)
    rcases ho.caches u (kids_updating hu) i k e1 d h1 he.2 with ⟨k', h3, h4⟩ | ⟨h3, _⟩
    · rw [ho.kid_unique hu h3]
      exact h4.1
    · exact absurd hu (h3 g)
  · exact hbox n h3 i k (h2 ▸ h1)

theorem Emits.old {s s' : DState} {g : Nat} {e : Ev} {p q : DPc} (hs : Emits s s' g e p q) {i k : Nat} {e' : Ev} (h : s'.trace[i]? = some (k, e')) :
    s.trace[i]? = some (k, e') ∨ (i = s.trace.length ∧ k = g ∧ e' = e) := by
  rw [hs.trace] at h
  rcases snoc_get.mp h with h | ⟨h1, h2⟩
  · exact .inl h
  · exact .inr ⟨h1, Prod.mk.inj h2⟩

theorem OInv.kid_live {s : DState} (ho : OInv s) {u k : Nat} {d : Str} (h : (k, d) ∈ kidsOf (s.pc u)) : s.pc k ≠ .none := by
  rcases ho.kids u k d h with h1 | h1
  · intro h2; rw [h2] at h1; exact h1
  · rw [h1]; simp

theorem kids_nil {q : DPc} (h : ¬ Updating q) : kidsOf q = [] := by
  cases hq : kidsOf q with
  | nil => rfl
  | cons x xs => exact absurd (kids_updating (x := x) (by rw [hq]; simp)) h

theorem todo_quiet {q : DPc} (h : ¬ Updating q) : DTodoOk q := by
  cases q <;> first | trivial | exact absurd trivial h

theorem peek_quiet {q : DPc} {tr : List (Nat × Ev)} {g : Nat} (h : ¬ Updating q) : PeekOk tr g q := by
  cases q <;> first | trivial | exact absurd trivial h

/-- Events that neither begin nor end an Update, nor change its group. -/
theorem OInv.keep {s s' : DState} {g : Nat} {e : Ev} {p q : DPc} (hi : DInv s) (ho : OInv s) (hd : DInv s') (hs : Emits s s' g e p q)
    (hra : RoleAcc e → Updating (s.pc g)) (hca : ∀ d, CacheAcc d e → Fetching d (s.pc g)) (hst : e ≠ .start) (hfi : e ≠ .finish)
    (hu : Updating p ↔ Updating (s.pc g)) (hk : kidsOf p = kidsOf (s.pc g)) (hf : ∀ d, Fetching d p → Fetching d (s.pc g))
    (hf' : ∀ d, Fetching d (s.pc g) → Fetching d p ∨ p = .done) (hdn : s.pc g ≠ .done) (ht : DTodoOk p) (hh : ¬ Hooking p)
    (hpk : PeekOk s'.trace g p) (hqu : ¬ Updating q) (hqf : ∀ d, ¬ Fetching d q) (hqh : ¬ Hooking q)
    (hbox : ∀ n, e = .read (.box n) → Know s.trace g (.box n)) : OInv s' := by
  have hgp := hs.here' hi
  have hupd : ∀ h, Updating (s'.pc h) ↔ Updating (s.pc h) := by
    intro h
    rcases hs.cases hi h with ⟨h1, _, h2⟩ | ⟨h1, h2⟩ | ⟨_, h2⟩
    · rw [h2, h1, hi.unborn]
      exact ⟨fun h => absurd h hqu, fun h => h.elim⟩
    · rw [h2, h1]; exact hu
    · rw [h2]
  have hkid : ∀ h, kidsOf (s'.pc h) = kidsOf (s.pc h) := by
    intro h
    rcases hs.cases hi h with ⟨h1, _, h2⟩ | ⟨h1, h2⟩ | ⟨_, h2⟩
    · rw [h2, h1, hi.unborn, kids_nil hqu]; rfl
    · rw [h2, h1]; exact hk
    · rw [h2]
  have hfet : ∀ h d, Fetching d (s'.pc h) → Fetching d (s.pc h) := by
    intro h d hh
    rcases hs.cases hi h with ⟨h1, _, h2⟩ | ⟨h1, h2⟩ | ⟨_, h2⟩
    · rw [h2] at hh; exact absurd hh (hqf d)
    · rw [h2] at hh; rw [h1]; exact hf d hh
    · rw [← h2]; exact hh
  have hacc : (RoleAcc e ∨ ∃ d, CacheAcc d e) → ∃ u, Updating (s.pc u) := by
    rintro (h | ⟨d, h⟩)
    · exact ⟨g, hra h⟩
    · obtain ⟨u, hu⟩ := ho.fetchers g d (hca d h)
      exact ⟨u, kids_updating hu⟩
  refine ⟨?_, ?_, ?_, ?_, ?_, ?_, ?_, ?_, ?_, ?_, ho.free hd hs.trace hra hca hbox⟩
  · intro h
    rcases hs.cases hi h with ⟨_, _, h2⟩ | ⟨_, h2⟩ | ⟨_, h2⟩ <;> rw [h2]
    · exact hqh
    · exact hh
    · exact ho.nohook h
  · intro a b h1 h2
    exact ho.one a b ((hupd a).mp h1) ((hupd b).mp h2)
  · intro k d h
    obtain ⟨u, h1⟩ := ho.fetchers k d (hfet k d h)
    exact ⟨u, by rw [hkid]; exact h1⟩
  · intro u k d h
    rw [hkid] at h
    by_cases hkg : k = g
    · rw [hkg, hgp]
      rcases ho.kids u k d h with h1 | h1
      · exact hf' d (hkg ▸ h1)
      · exact absurd (hkg ▸ h1) hdn
    · rw [hs.other hi hkg (ho.kid_live h)]
      exact ho.kids u k d h
  · intro h
    rcases hs.cases hi h with ⟨_, _, h2⟩ | ⟨_, h2⟩ | ⟨_, h2⟩ <;> rw [h2]
    · exact todo_quiet hqu
    · exact ht
    · exact ho.todo h
  · intro hq
    have hnacc : ¬ (RoleAcc e ∨ ∃ d, CacheAcc d e) := fun h => by
      obtain ⟨u, hu⟩ := hacc h
      exact hq u ((hupd u).mpr hu)
    rcases ho.quiet (fun h hu => hq h ((hupd h).mpr hu)) with h | ⟨i0, g0, h1, h2⟩
    · refine .inl fun i k e' hk => ?_
      rcases hs.old hk with hk | ⟨_, _, rfl⟩
      · exact h i k e' hk
      · exact ⟨hst, fun h => absurd h hnacc⟩
    · refine .inr ⟨i0, g0, by rw [hs.trace]; exact snoc_old h1, fun k hk hkf i a b hb hab => ?_⟩
      rcases hs.old hkf with hkf | ⟨_, _, hkf⟩
      · rcases hs.old hb with hb | ⟨_, _, rfl⟩
        · rw [hs.trace]
          exact HB.mono _ (h2 k hk hkf i a b hb hab)
        · exact absurd hab hnacc
      · exact absurd hkf.symm hfi
  · intro u hu
    obtain ⟨i0, h1, h2⟩ := ho.begun u ((hupd u).mp hu)
    refine ⟨i0, by rw [hs.trace]; exact snoc_old h1, fun k hk hkf => ?_⟩
    rcases hs.old hkf with hkf | ⟨_, _, hkf⟩
    · exact h2 k hk hkf
    · exact hfi hkf.symm
  · intro u hu i k e' hk hr
    rw [hs.trace]
    rcases hs.old hk with hk | ⟨rfl, _, rfl⟩
    · exact (ho.roles u ((hupd u).mp hu) i k e' hk hr).mono _
    · rw [ho.one u g ((hupd u).mp hu) (hra hr)]
      exact PreE.last.pre
  · intro u hu i k e' d hk hr
    rw [hkid, hs.trace]
    rcases hs.old hk with hk | ⟨rfl, _, rfl⟩
    · rcases ho.caches u ((hupd u).mp hu) i k e' d hk hr with ⟨k', h1, h2⟩ | ⟨h1, h2⟩
      · refine .inl ⟨k', h1, ?_⟩
        by_cases hkg : k' = g
        · rw [hkg] at h2 ⊢
          exact ⟨h2.1.mono _, fun _ => h2.1.own⟩
        · rw [hs.other hi hkg (ho.kid_live h1)]
          exact h2.mono _
      · exact .inr ⟨h1, h2.mono _⟩
    · obtain ⟨u', hu'⟩ := ho.fetchers g d (hca d hr)
      rw [ho.one u u' ((hupd u).mp hu) (kids_updating hu')]
      exact .inl ⟨g, hu', PreE.last.pre, fun _ => PreE.last⟩
  · intro h
    rcases hs.cases hi h with ⟨_, _, h2⟩ | ⟨h1, h2⟩ | ⟨_, h2⟩
    · rw [h2]; exact peek_quiet hqu
    · rw [h2, h1]; exact hpk
    · rw [h2]
      exact (ho.peeks h).mono (hi.pcs h) hs.trace hs.write

/-- Update starts a goroutine for the next fetcher. -/
theorem OInv.launch {s : DState} {g b : Nat} {d : Str} {todo : List Str} {kids : List (Nat × Str)} (hi : DInv s) (ho : OInv s)
    (hg : s.pc g = .launch b (d :: todo) kids)
    (hd : DInv (s.forkTo g (.launch b todo (kids ++ [(s.gids, d)])) (.body b d))) : OInv (s.forkTo g (.launch b todo (kids ++ [(s.gids, d)])) (.body b d)) := by
  have hs := emits_fork s g (.launch b todo (kids ++ [(s.gids, d)])) (.body b d) s.checks (by simp [hg]) (by simp) (by simp)
  change Emits s (s.forkTo g (.launch b todo (kids ++ [(s.gids, d)])) (.body b d)) g _ _ _ at hs
  generalize hS : s.forkTo g (.launch b todo (kids ++ [(s.gids, d)])) (.body b d) = s' at hd hs ⊢
  have hgp := hs.here' hi
  have hgl := hi.live g (by simp [hg])
  have hbp : s'.pc s.gids = .body b d := by rw [← hS]; simp [DState.forkTo]
  have hgu : Updating (s.pc g) := by rw [hg]; trivial
  have hupd : ∀ h, Updating (s'.pc h) → h = g := by
    intro h hu
    rcases hs.cases hi h with ⟨h1, _, h2⟩ | ⟨h1, h2⟩ | ⟨_, h2⟩
    · rw [h2] at hu; exact hu.elim
    · exact h1
    · rw [h2] at hu; exact ho.one h g hu hgu
  have hkids : kidsOf (s.pc g) = kids := by rw [hg]; rfl
  have hkids' : kidsOf (s'.pc g) = kids ++ [(s.gids, d)] := by rw [hgp]; rfl
  have htodo := ho.todo g
  rw [hg] at htodo
  have hdn : ∀ k, (k, d) ∉ kids := by
    intro k hk
    have := (List.nodup_append.mp htodo).2.2 d (by simp) d (List.mem_map.mpr ⟨_, hk, rfl⟩)
    exact this rfl
  refine ⟨?_, ?_, ?_, ?_, ?_, ?_, ?_, ?_, ?_, ?_, ?_⟩
  · intro h
    rcases hs.cases hi h with ⟨_, _, h2⟩ | ⟨_, h2⟩ | ⟨_, h2⟩ <;> rw [h2]
    · exact id
    · exact id
    · exact ho.nohook h
  · intro a c h1 h2
    exact (hupd a h1).trans (hupd c h2).symm
  · intro k d' h
    refine ⟨g, ?_⟩
    rw [hkids']
    rcases hs.cases hi k with ⟨h1, _, h2⟩ | ⟨_, h2⟩ | ⟨_, h2⟩
    · rw [h2] at h
      have h : d = d' := h
      rw [h1, h]
      simp
    · rw [h2] at h; exact h.elim
    · rw [h2] at h
      obtain ⟨u, hu⟩ := ho.fetchers k d' h
      rw [ho.one u g (kids_updating hu) hgu, hkids] at hu
      exact List.mem_append_left _ hu
  · intro u k d' h
    have hug := hupd u (kids_updating h)
    rw [hug, hkids'] at h
    rcases List.mem_append.mp h with h | h
    · have h : (k, d') ∈ kidsOf (s.pc g) := by rw [hkids]; exact h
      have hkg : k ≠ g := by
        intro hkg
        rcases ho.kids g k d' h with h1 | h1
        · rw [hkg] at h1; exact fetching_not_updating h1 hgu
        · rw [hkg, hg] at h1; simp at h1
      rw [hs.other hi hkg (ho.kid_live h)]
      exact ho.kids g k d' h
    · simp at h
      rw [h.1, hbp, h.2]
      exact .inl rfl
  · intro h
    rcases hs.cases hi h with ⟨_, _, h2⟩ | ⟨_, h2⟩ | ⟨_, h2⟩ <;> rw [h2]
    · trivial
    · show (todo ++ (kids ++ [(s.gids, d)]).map (·.2)).Nodup
      have : (todo ++ (kids ++ [(s.gids, d)]).map (·.2)).Perm (d :: todo ++ kids.map (·.2)) := by
        simp only [List.map_append, List.map_cons, List.map_nil]
        rw [← List.append_assoc]
        exact List.perm_append_singleton _ _
      exact this.nodup_iff.mpr htodo
    · exact ho.todo h
  · intro hq
    exact absurd (by rw [hgp]; trivial) (hq g)
  · intro u hu
    rw [hupd u hu]
    obtain ⟨i0, h1, h2⟩ := ho.begun g hgu
    refine ⟨i0, by rw [hs.trace]; exact snoc_old h1, fun k hk hkf => ?_⟩
    rcases hs.old hkf with hkf | ⟨_, _, hkf⟩
    · exact h2 k hk hkf
    · simp at hkf
  · intro u hu i k e' hk hr
    rw [hs.trace, hupd u hu]
    rcases hs.old hk with hk | ⟨rfl, _, rfl⟩
    · exact (ho.roles g hgu i k e' hk hr).mono _
    · simp [RoleAcc] at hr
  · intro u hu i k e' d' hk hr
    rw [hupd u hu, hkids', hs.trace]
    rcases hs.old hk with hk | ⟨rfl, _, rfl⟩
    · rcases ho.caches g hgu i k e' d' hk hr with ⟨k', h1, h2⟩ | ⟨h1, h2⟩
      · have hkg : k' ≠ g := by
          intro hkg
          rcases ho.kids g k' d' h1 with h3 | h3
          · rw [hkg] at h3; exact fetching_not_updating h3 hgu
          · rw [hkg, hg] at h3; simp at h3
        rw [hkids] at h1
        refine .inl ⟨k', List.mem_append_left _ h1, ?_⟩
        rw [hs.other hi hkg (ho.kid_live (u := g) (by rw [hkids]; exact h1))]
        exact h2.mono _
      · rw [hkids] at h1
        by_cases hdd : d' = d
        · refine .inl ⟨s.gids, by simp [hdd], h2.forked, fun hb => ?_⟩
          rw [hbp] at hb
          exact absurd rfl (hb b d)
        · refine .inr ⟨fun k' hk' => ?_, h2.mono _⟩
          rcases List.mem_append.mp hk' with hk' | hk'
          · exact h1 k' hk'
          · simp at hk'
            exact hdd hk'.2
    · simp [CacheAcc, Ev.loc] at hr
  · intro h
    rcases hs.cases hi h with ⟨_, _, h2⟩ | ⟨h1, h2⟩ | ⟨_, h2⟩
    · rw [h2]; trivial
    · rw [h2]; trivial
    · rw [h2]
      exact (ho.peeks h).mono (hi.pcs h) hs.trace hs.write
  · exact ho.free hd hs.trace (by simp [RoleAcc]) (by simp [CacheAcc, Ev.loc]) (by simp)

/-- Update has waited for a goroutine. -/
theorem OInv.join {s : DState} {g b k0 : Nat} {d : Str} {kids : List (Nat × Str)} (hi : DInv s) (ho : OInv s)
    (hg : s.pc g = .launch b [] ((k0, d) :: kids)) (hdone : s.pc k0 = .done)
    (hd : DInv (s.emit g (.join k0) (.launch b [] kids))) : OInv (s.emit g (.join k0) (.launch b [] kids)) := by
  have hs : Emits s (s.emit g (.join k0) (.launch b [] kids)) g (.join k0) (.launch b [] kids) .none :=
    emits_plain _ rfl (by simp [hg]) (by simp) (by simp) rfl rfl (Nat.le_refl _) (by simp) (by simp)
  generalize hS : s.emit g (.join k0) (.launch b [] kids) = s' at hd hs ⊢
  have hgp := hs.here' hi
  have hgu : Updating (s.pc g) := by rw [hg]; trivial
  have hpc : ∀ h, h ≠ g → s'.pc h = s.pc h := by
    intro h hh
    rw [← hS]
    simp [DState.emit, hh]
  have hupd : ∀ h, Updating (s'.pc h) → h = g := by
    intro h hu
    by_cases hh : h = g
    · exact hh
    · rw [hpc h hh] at hu; exact ho.one h g hu hgu
  have hkids : kidsOf (s.pc g) = (k0, d) :: kids := by rw [hg]; rfl
  have hkids' : kidsOf (s'.pc g) = kids := by rw [hgp]; rfl
  have htodo := ho.todo g
  rw [hg] at htodo
  have hng : ∀ k d', (k, d') ∈ kidsOf (s.pc g) → k ≠ g := by
    intro k d' h hkg
    rcases ho.kids g k d' h with h1 | h1
    · rw [hkg] at h1; exact fetching_not_updating h1 hgu
    · rw [hkg, hg] at h1; simp at h1
  refine ⟨?_, ?_, ?_, ?_, ?_, ?_, ?_, ?_, ?_, ?_, ?_⟩
  · intro h
    by_cases hh : h = g
    · rw [hh, hgp]; exact id
    · rw [hpc h hh]; exact ho.nohook h
  · intro a c h1 h2
    exact (hupd a h1).trans (hupd c h2).symm
  · intro k d' h
    refine ⟨g, ?_⟩
    rw [hkids']
    by_cases hh : k = g
    · rw [hh, hgp] at h; exact h.elim
    · rw [hpc k hh] at h
      obtain ⟨u, hu⟩ := ho.fetchers k d' h
      rw [ho.one u g (kids_updating hu) hgu, hkids] at hu
      rcases List.mem_cons.mp hu with hu | hu
      · simp at hu
        rw [hu.1, hdone] at h
        exact h.elim
      · exact hu
  · intro u k d' h
    have hug := hupd u (kids_updating h)
    rw [hug, hkids'] at h
    have h : (k, d') ∈ kidsOf (s.pc g) := by rw [hkids]; exact List.mem_cons_of_mem _ h
    rw [hpc k (hng k d' h)]
    exact ho.kids g k d' h
  · intro h
    by_cases hh : h = g
    · rw [hh, hgp]
      have h1 : ((([] : List Str)) ++ (((k0, d) :: kids).map (·.2))).Nodup := htodo
      show (([] : List Str) ++ kids.map (·.2)).Nodup
      simp only [List.nil_append, List.map_cons, List.nodup_cons] at h1 ⊢
      exact h1.2
    · rw [hpc h hh]; exact ho.todo h
  · intro hq
    exact absurd (by rw [hgp]; trivial) (hq g)
  · intro u hu
    rw [hupd u hu]
    obtain ⟨i0, h1, h2⟩ := ho.begun g hgu
    refine ⟨i0, by rw [hs.trace]; exact snoc_old h1, fun k hk hkf => ?_⟩
    rcases hs.old hkf with hkf | ⟨_, _, hkf⟩
    · exact h2 k hk hkf
    · simp at hkf
  · intro u hu i k e' hk hr
    rw [hs.trace, hupd u hu]
    rcases hs.old hk with hk | ⟨rfl, _, rfl⟩
    · exact (ho.roles g hgu i k e' hk hr).mono _
    · simp [RoleAcc] at hr
  · intro u hu i k e' d' hk hr
    rw [hupd u hu, hkids', hs.trace]
    rcases hs.old hk with hk | ⟨rfl, _, rfl⟩
    · rcases ho.caches g hgu i k e' d' hk hr with ⟨k', h1, h2⟩ | ⟨h1, h2⟩
      · have hkg := hng k' d' h1
        rw [hkids] at h1
        rcases List.mem_cons.mp h1 with h3 | h3
        · simp at h3
          refine .inr ⟨fun k1 hk1 => ?_, ?_⟩
          · have h4 : (([] : List Str) ++ (((k0, d) :: kids).map (·.2))).Nodup := htodo
            simp only [List.nil_append, List.map_cons, List.nodup_cons] at h4
            exact h4.1 (List.mem_map.mpr ⟨_, hk1, h3.2⟩)
          · rw [h3.1] at h2
            exact (h2.2 (by rw [hdone]; simp)).joined
        · refine .inl ⟨k', h3, ?_⟩
          rw [hpc k' hkg]
          exact h2.mono _
      · rw [hkids] at h1
        exact .inr ⟨fun k' hk' => h1 k' (List.mem_cons_of_mem _ hk'), h2.mono _⟩
    · simp [CacheAcc, Ev.loc] at hr
  · intro h
    by_cases hh : h = g
    · rw [hh, hgp]; trivial
    · rw [hpc h hh]
      exact (ho.peeks h).mono (hi.pcs h) hs.trace hs.write
  · exact ho.free hd hs.trace (by simp [RoleAcc]) (by simp [CacheAcc, Ev.loc]) (by simp)

/-- Update returns, after it has waited for all. -/
theorem OInv.finish {s : DState} {g : Nat} (hi : DInv s) (ho : OInv s) (hgu : Updating (s.pc g)) (hkids : kidsOf (s.pc g) = [])
    (hd : DInv (s.emit g .finish .idle)) : OInv (s.emit g .finish .idle) := by
  have hlive : s.pc g ≠ .none := by intro h; rw [h] at hgu; exact hgu
  have hs : Emits s (s.emit g .finish .idle) g .finish .idle .none :=
    emits_plain _ rfl hlive (by simp) (by simp) rfl rfl (Nat.le_refl _) (by simp) (by simp)
  generalize hS : s.emit g .finish .idle = s' at hd hs ⊢
  have hgp := hs.here' hi
  have hpc : ∀ h, h ≠ g → s'.pc h = s.pc h := by
    intro h hh
    rw [← hS]
    simp [DState.emit, hh]
  have hupd : ∀ h, ¬ Updating (s'.pc h) := by
    intro h hu
    by_cases hh : h = g
    · rw [hh, hgp] at hu; exact hu
    · rw [hpc h hh] at hu; exact hh (ho.one h g hu hgu)
  have hnofetch : ∀ k d, ¬ Fetching d (s.pc k) := by
    intro k d h
    obtain ⟨u, hu⟩ := ho.fetchers k d h
    rw [ho.one u g (kids_updating hu) hgu, hkids] at hu
    simp at hu
  refine ⟨?_, ?_, ?_, ?_, ?_, ?_, ?_, ?_, ?_, ?_, ?_⟩
  · intro h
    by_cases hh : h = g
    · rw [hh, hgp]; exact id
    · rw [hpc h hh]; exact ho.nohook h
  · intro a c h1 h2
    exact absurd h1 (hupd a)
  · intro k d h
    by_cases hh : k = g
    · rw [hh, hgp] at h; exact h.elim
    · rw [hpc k hh] at h; exact absurd h (hnofetch k d)
  · intro u k d h
    exact absurd (kids_updating h) (hupd u)
  · intro h
    exact todo_quiet (hupd h)
  · intro _
    obtain ⟨i0, h1, h2⟩ := ho.begun g hgu
    refine .inr ⟨i0, g, by rw [hs.trace]; exact snoc_old h1, fun k hk hkf i a e hb hab => ?_⟩
    rcases hs.old hkf with hkf | ⟨hkl, _, _⟩
    · exact absurd hkf (h2 k hk)
    · rw [hkl, hs.trace]
      rcases hs.old hb with hb | ⟨_, _, rfl⟩
      · rcases hab with hab | ⟨d, hab⟩
        · exact (ho.roles g hgu i a e hb hab).hb
        · rcases ho.caches g hgu i a e d hb hab with ⟨k', h3, _⟩ | ⟨_, h3⟩
          · rw [hkids] at h3; simp at h3
          · exact h3.hb
      · simp [RoleAcc, CacheAcc, Ev.loc] at hab
  · intro u hu
    exact absurd hu (hupd u)
  · intro u hu
    exact absurd hu (hupd u)
  · intro u hu
    exact absurd hu (hupd u)
  · intro h
    exact peek_quiet (hupd h)
  · exact ho.free hd hs.trace (by simp [RoleAcc]) (by simp [CacheAcc, Ev.loc]) (by simp)

/-- Update is called, after all earlier calls. -/
theorem OInv.start {s : DState} {g : Nat} {todo : List Str} (hi : DInv s) (ho : OInv s) (hg : s.pc g = .idle) (hn : todo.Nodup)
    (hone : OneByOne (s.emit g .start (.called todo)).trace) (hd : DInv (s.emit g .start (.called todo))) : OInv (s.emit g .start (.called todo)) := by
  have hs : Emits s (s.emit g .start (.called todo)) g .start (.called todo) .none :=
    emits_plain _ rfl (by simp [hg]) (by simp) (by simp) rfl rfl (Nat.le_refl _) (by simp) (by simp)
  generalize hS : s.emit g .start (.called todo) = s' at hd hs hone ⊢
  have hgp := hs.here' hi
  have hpc : ∀ h, h ≠ g → s'.pc h = s.pc h := by
    intro h hh
    rw [← hS]
    simp [DState.emit, hh]
  have hnew : s'.trace[s.trace.length]? = some (g, .start) := by rw [hs.trace]; exact snoc_new
  have hfin : ∀ {i0 g0 : Nat}, s.trace[i0]? = some (g0, .start) → ∃ k, i0 < k ∧ s.trace[k]? = some (g0, .finish) ∧ HB s'.trace k s.trace.length := by
    intro i0 g0 h0
    obtain ⟨k, h1, h2, h3, h4⟩ := hone i0 s.trace.length g0 g (get_lt h0) (by rw [hs.trace]; exact snoc_old h0) hnew
    rcases hs.old h3 with h3 | ⟨h3, _⟩
    · exact ⟨k, h1, h3, h4⟩
    · omega
  have hidle : ∀ h, ¬ Updating (s.pc h) := by
    intro h hu
    obtain ⟨i0, h1, h2⟩ := ho.begun h hu
    obtain ⟨k, h3, h4, _⟩ := hfin h1
    exact h2 k h3 h4
  have hupd : ∀ h, Updating (s'.pc h) → h = g := by
    intro h hu
    by_cases hh : h = g
    · exact hh
    · rw [hpc h hh] at hu; exact absurd hu (hidle h)
  have hnofetch : ∀ k d, ¬ Fetching d (s.pc k) := by
    intro k d h
    obtain ⟨u, hu⟩ := ho.fetchers k d h
    exact hidle u (kids_updating hu)
  have hkids' : ∀ u, kidsOf (s'.pc u) = [] := by
    intro u
    by_cases hh : u = g
    · rw [hh, hgp]; rfl
    · rw [hpc u hh]; exact kids_nil (hidle u)
  have hacc : ∀ (i k : Nat) (e : Ev), s.trace[i]? = some (k, e) → (RoleAcc e ∨ ∃ d, CacheAcc d e) → Pre s'.trace g i := by
    intro i k e hk hr
    rcases ho.quiet hidle with h | ⟨i0, g0, h1, h2⟩
    · obtain ⟨l, hl, he⟩ := (h i k e hk).2 hr
      rw [hs.trace]
      exact (hi.ptr g (by simp [hg]) l hl i k (he ▸ hk)).mono _
    · obtain ⟨k0, h3, h4, h5⟩ := hfin h1
      have h6 := h2 k0 h3 h4 i k e hk hr
      refine ⟨s.trace.length, g, .start, hnew, .inr ?_, .inl rfl⟩
      have h7 : HB s'.trace i k0 := by rw [hs.trace]; exact HB.mono _ h6
      exact Relation.TransGen.trans h7 h5
  refine ⟨?_, ?_, ?_, ?_, ?_, ?_, ?_, ?_, ?_, ?_, ?_⟩
  · intro h
    by_cases hh : h = g
    · rw [hh, hgp]; exact id
    · rw [hpc h hh]; exact ho.nohook h
  · intro a c h1 h2
    exact (hupd a h1).trans (hupd c h2).symm
  · intro k d h
    by_cases hh : k = g
    · rw [hh, hgp] at h; exact h.elim
    · rw [hpc k hh] at h; exact absurd h (hnofetch k d)
  · intro u k d h
    rw [hkids'] at h
    simp at h
  · intro h
    by_cases hh : h = g
    · rw [hh, hgp]; exact hn
    · rw [hpc h hh]; exact ho.todo h
  · intro hq
    exact absurd (by rw [hgp]; trivial) (hq g)
  · intro u hu
    rw [hupd u hu]
    refine ⟨s.trace.length, hnew, fun k hk hkf => ?_⟩
    have := get_lt hkf
    rw [hs.trace] at this
    simp at this
    omega
  · intro u hu i k e hk hr
    rw [hupd u hu]
    rcases hs.old hk with hk | ⟨_, _, rfl⟩
    · exact hacc i k e hk (.inl hr)
    · simp [RoleAcc] at hr
  · intro u hu i k e d hk hr
    rw [hupd u hu]
    rcases hs.old hk with hk | ⟨_, _, rfl⟩
    · refine .inr ⟨fun k' hk' => ?_, hacc i k e hk (.inr ⟨d, hr⟩)⟩
      rw [hkids'] at hk'
      simp at hk'
    · simp [CacheAcc, Ev.loc] at hr
  · intro h
    by_cases hh : h = g
    · rw [hh, hgp]; trivial
    · rw [hpc h hh]
      exact (ho.peeks h).mono (hi.pcs h) hs.trace hs.write
  · exact ho.free hd hs.trace (by simp [RoleAcc]) (by simp [CacheAcc, Ev.loc]) (by simp)

/-- A fetch goes on without an event. -/
theorem OInv.goto {s : DState} {g : Nat} {p : DPc} {d : Str} (ho : OInv s) (hg : Fetching d (s.pc g)) (hp : Fetching d p) (hnb : ∀ b d, s.pc g ≠ .body b d) :
    OInv (s.goto g p) := by
  have hgp : (s.goto g p).pc g = p := by simp [DState.goto]
  have hpc : ∀ h, h ≠ g → (s.goto g p).pc h = s.pc h := by
    intro h hh
    simp [DState.goto, hh]
  have hnu := fetching_not_updating hg
  have hnu' := fetching_not_updating hp
  have hupd : ∀ h, Updating ((s.goto g p).pc h) ↔ Updating (s.pc h) := by
    intro h
    by_cases hh : h = g
    · rw [hh, hgp]; exact ⟨fun h => absurd h hnu', fun h => absurd h hnu⟩
    · rw [hpc h hh]
  have hkid : ∀ h, kidsOf ((s.goto g p).pc h) = kidsOf (s.pc h) := by
    intro h
    by_cases hh : h = g
    · rw [hh, hgp, kids_nil hnu, kids_nil hnu']
    · rw [hpc h hh]
  have huniq : ∀ d' p, Fetching d p → Fetching d' p → d' = d := by
    intro d' p h1 h2
    cases p <;> simp_all [Fetching]
  have hnone : s.pc g ≠ .done := by intro h; rw [h] at hg; exact hg
  refine ⟨?_, ?_, ?_, ?_, ?_, ?_, ?_, ?_, ?_, ?_, ho.norace⟩
  · intro h
    by_cases hh : h = g
    · rw [hh, hgp]; cases p <;> simp [Fetching] at hp <;> simp [Hooking]
    · rw [hpc h hh]; exact ho.nohook h
  · intro a c h1 h2
    exact ho.one a c ((hupd a).mp h1) ((hupd c).mp h2)
  · intro k d' h
    by_cases hh : k = g
    · rw [hh, hgp] at h
      obtain ⟨u, hu⟩ := ho.fetchers g d hg
      refine ⟨u, ?_⟩
      rw [hkid, hh, huniq d' p hp h]
      exact hu
    · rw [hpc k hh] at h
      obtain ⟨u, hu⟩ := ho.fetchers k d' h
      exact ⟨u, by rw [hkid]; exact hu⟩
  · intro u k d' h
    rw [hkid] at h
    by_cases hh : k = g
    · rw [hh, hgp]
      rcases ho.kids u k d' h with h1 | h1
      · rw [hh] at h1
        rw [huniq d' _ hg h1]
        exact .inl hp
      · exact absurd (hh ▸ h1) hnone
    · rw [hpc k hh]; exact ho.kids u k d' h
  · intro h
    by_cases hh : h = g
    · rw [hh, hgp]; exact todo_quiet hnu'
    · rw [hpc h hh]; exact ho.todo h
  · intro hq
    exact ho.quiet fun h hu => hq h ((hupd h).mpr hu)
  · intro u hu
    exact ho.begun u ((hupd u).mp hu)
  · intro u hu
    exact ho.roles u ((hupd u).mp hu)
  · intro u hu i k e d' hk hr
    rw [hkid]
    rcases ho.caches u ((hupd u).mp hu) i k e d' hk hr with ⟨k', h1, h2⟩ | h1
    · refine .inl ⟨k', h1, h2.1, fun _ => ?_⟩
      by_cases hh : k' = g
      · exact h2.2 (by rw [hh]; exact hnb)
      · rename_i hb
        rw [hpc k' hh] at hb
        exact h2.2 hb
    · exact .inr h1
  · intro h
    by_cases hh : h = g
    · rw [hh, hgp]; exact peek_quiet hnu'
    · rw [hpc h hh]; exact ho.peeks h

theorem oInv_init (domains : List Str) : OInv (dInit domains) := by
  have hpc : ∀ g, (dInit domains).pc g = .idle ∨ (dInit domains).pc g = .none := by
    intro g
    by_cases h : g = 0 <;> simp [dInit, h]
  have hu : ∀ g, ¬ Updating ((dInit domains).pc g) := by
    intro g
    rcases hpc g with h | h <;> rw [h] <;> exact id
  refine ⟨?_, fun g _ h => absurd h (hu g), ?_, fun u k d h => absurd (kids_updating h) (hu u), fun u => todo_quiet (hu u), ?_, fun u h => absurd h (hu u),
    fun u h => absurd h (hu u), fun u h => absurd h (hu u), fun u => peek_quiet (hu u), ?_⟩
  · intro g
    rcases hpc g with h | h <;> rw [h] <;> exact id
  · intro g d hd
    rcases hpc g with h | h <;> rw [h] at hd <;> exact hd.elim
  · intro _
    refine .inl fun i g e h => ?_
    have hm := List.mem_of_getElem? h
    simp only [dInit, List.mem_cons, Prod.mk.injEq, List.mem_map] at hm
    rcases hm with ⟨_, rfl⟩ | ⟨_, rfl⟩ | ⟨d, _, _, rfl⟩
    · exact ⟨by simp, fun _ => ⟨_, .inl rfl, rfl⟩⟩
    · exact ⟨by simp, fun _ => ⟨_, .inr (.inr rfl), rfl⟩⟩
    · exact ⟨by simp, fun _ => ⟨_, .inr (.inl ⟨d, rfl⟩), rfl⟩⟩
  · rintro ⟨i, j, g, h, e, f, hr⟩
    rcases (dInv_init domains).racing i j g h e f hr with ⟨x, _, h1⟩ | ⟨n, _, h1, _⟩
    · have h2 := List.mem_of_getElem? hr.2.1
      have h3 := List.mem_of_getElem? hr.2.2.1
      simp only [dInit, List.mem_cons, Prod.mk.injEq, List.mem_map] at h2 h3
      rcases h1 with ⟨rfl, _⟩ | ⟨rfl, _⟩ <;> simp at h2 h3
    · have h3 := List.mem_of_getElem? hr.2.2.1
      simp only [dInit, List.mem_cons, Prod.mk.injEq, List.mem_map] at h3
      rw [h1] at h3
      simp at h3

/-- The step is neither that of a hook nor the cancellation of an Update. -/
def Calm : DAct → Prop
  | .hook _ _ | .cancel _ => False
  | _ => True

theorem OInv.step {domains : List Str} {s s' : DState} {a : DAct} (hi : DInv s) (ho : OInv s) (ha : Calm a) (hone : OneByOne s'.trace)
    (h : dStep domains s a = some s') : OInv s' := by
  have hd := hi.step h
  cases a with
  | spawn g =>
    simp only [dStep] at h
    split at h <;> simp at h
    rename_i hg
    subst h
    exact OInv.keep (g := g) (e := (.fork s.gids)) (p := .idle) (q := .idle) hi ho hd (emits_fork s g _ _ s.checks (by simp [hg]) (by simp) (by simp)) (by simp [RoleAcc]) (by simp [CacheAcc, Ev.loc]) (by simp) (by simp) (by simp [hg, Updating]) (by simp [hg, kidsOf]) (by simp [hg, Fetching]) (by simp [hg, Fetching]) (by simp [hg]) trivial (by simp [Hooking]) trivial (by simp [Updating]) (by simp [Fetching]) (by simp [Hooking]) (by simp)
  | update g todo =>
    simp only [dStep] at h
    split at h <;> simp at h
    rename_i hg
    subst h
    exact ho.start hi hg.1 (hg.2.nodup_iff.mpr (List.nodup_dedup _)) hone hd
  | check g =>
    simp only [dStep] at h
    split at h <;> simp at h
    rename_i hg
    subst h
    exact OInv.keep (g := g) (e := (.fork s.gids)) (p := .idle) (q := .check) hi ho hd (emits_fork s g _ _ _ (by simp [hg]) (by simp) (by simp)) (by simp [RoleAcc]) (by simp [CacheAcc, Ev.loc]) (by simp) (by simp) (by simp [hg, Updating]) (by simp [hg, kidsOf]) (by simp [hg, Fetching]) (by simp [hg, Fetching]) (by simp [hg]) trivial (by simp [Hooking]) trivial (by simp [Updating]) (by simp [Fetching]) (by simp [Hooking]) (by simp)
  | cancel g => exact ha.elim
  | hook g d => exact ha.elim
  | fail g =>
    simp only [dStep] at h
    split at h <;> simp at h
    rename_i hg
    subst h
    exact ho.finish hi (by rw [hg]; trivial) (by rw [hg]; rfl) hd
  | debug g =>
    have hrole : ∀ u, Updating (s.pc u) → s.pc u ≠ .none → Know (s.trace ++ [(u, .read .role)]) u (.box s.role) := by
      intro u hu hn i k hk
      rcases snoc_get.mp hk with hk | ⟨_, hk⟩
      · rcases hi.role with h0 | h0
        · exact (hi.ptr u hn (.box 0) (.inr (.inr rfl)) i k (h0 ▸ hk)).mono _
        · obtain ⟨j, g1, e1, h1, h2, _, h4⟩ := h0 i k hk
          obtain ⟨j', h', e', h5, h6, h7⟩ := ho.roles u hu j g1 e1 h1 (.inr h2)
          refine Pre.mono _ ⟨j', h', e', h5, ?_, h7⟩
          rcases h4 with rfl | h4
          · exact h6
          · rcases h6 with rfl | h6
            · exact .inr h4
            · exact .inr (Relation.TransGen.trans h4 h6)
      · simp at hk
    simp only [dStep] at h
    split at h <;> simp at h <;> rename_i hg <;> subst h
    · rename_i b
      exact OInv.keep (g := g) (e := (.read .role)) (p := (.peek b s.role)) (q := .none) hi ho hd (emits_plain _ rfl (by simp [hg]) (by simp) (by simp) rfl rfl (Nat.le_refl _) (by simp) (by simp)) (by simp [RoleAcc]; rw [hg]; trivial) (by simp [CacheAcc, Ev.loc]) (by simp) (by simp) (by simp [hg, Updating]) (by simp [hg, kidsOf]) (by simp [hg, Fetching]) (by simp [hg, Fetching]) (by simp [hg]) trivial (by simp [Hooking]) (hrole g (by rw [hg]; trivial) (by simp [hg])) (by simp [Updating]) (by simp [Fetching]) (by simp [Hooking]) (by simp)
    · rename_i b old
      exact OInv.keep (g := g) (e := (.read .role)) (p := (.peek2 b old s.role)) (q := .none) hi ho hd (emits_plain _ rfl (by simp [hg]) (by simp) (by simp) rfl rfl (Nat.le_refl _) (by simp) (by simp)) (by simp [RoleAcc]; rw [hg]; trivial) (by simp [CacheAcc, Ev.loc]) (by simp) (by simp) (by simp [hg, Updating]) (by simp [hg, kidsOf]) (by simp [hg, Fetching]) (by simp [hg, Fetching]) (by simp [hg]) trivial (by simp [Hooking]) (hrole g (by rw [hg]; trivial) (by simp [hg])) (by simp [Updating]) (by simp [Fetching]) (by simp [Hooking]) (by simp)
  | go g c =>
    simp only [dStep, dGo] at h
    have hk := hi.pcs g
    split at h
    case h_1 todo hg =>
      rw [hg] at hk
      simp at h; subst h
      exact OInv.keep (g := g) (e := (.write (.box s.objs))) (p := (.launch s.objs todo [])) (q := .none) hi ho hd (emits_plain _ rfl (by simp [hg]) (by simp) (by simp) rfl rfl (Nat.le_succ _) (fun l hl => ⟨s.objs, .inl (by simpa using hl.symm), Nat.le_refl _⟩) (by simp)) (by simp [RoleAcc]) (by simp [CacheAcc, Ev.loc]) (by simp) (by simp) (by simp [hg, Updating]) (by simp [hg, kidsOf]) (by simp [hg, Fetching]) (by simp [hg, Fetching]) (by simp [hg]) (by have := ho.todo g; rw [hg] at this; simpa [DTodoOk] using this) (by simp [Hooking]) trivial (by simp [Updating]) (by simp [Fetching]) (by simp [Hooking]) (by simp)
    case h_2 b d todo kids hg =>
      rw [hg] at hk
      simp at h; subst h
      exact ho.launch hi hg hd
    case h_3 b k d kids hg =>
      rw [hg] at hk
      split at h <;> simp at h
      rename_i hdone
      subst h
      exact ho.join hi hg hdone hd
    case h_4 b hg =>
      rw [hg] at hk
      simp at h; subst h
      exact OInv.keep (g := g) (e := (.fork s.gids)) (p := (.ready b)) (q := .expirer) hi ho hd (emits_fork s g _ _ s.checks (by simp [hg]) (by simp) (by simp)) (by simp [RoleAcc]) (by simp [CacheAcc, Ev.loc]) (by simp) (by simp) (by simp [hg, Updating]) (by simp [hg, kidsOf]) (by simp [hg, Fetching]) (by simp [hg, Fetching]) (by simp [hg]) trivial (by simp [Hooking]) trivial (by simp [Updating]) (by simp [Fetching]) (by simp [Hooking]) (by simp)
    case h_5 b hg =>
      rw [hg] at hk
      simp at h; subst h
      exact OInv.keep (g := g) (e := (.swap .role)) (p := (.swapped b s.role)) (q := .none) hi ho hd (emits_plain _ rfl (by simp [hg]) (by simp) (by simp) rfl rfl (Nat.le_refl _) (by simp) (by simp)) (by simp [RoleAcc]; rw [hg]; trivial) (by simp [CacheAcc, Ev.loc]) (by simp) (by simp) (by simp [hg, Updating]) (by simp [hg, kidsOf]) (by simp [hg, Fetching]) (by simp [hg, Fetching]) (by simp [hg]) trivial (by simp [Hooking]) trivial (by simp [Updating]) (by simp [Fetching]) (by simp [Hooking]) (by simp)
    case h_6 b n hg =>
      rw [hg] at hk
      simp at h; subst h
      have hpk := ho.peeks g
      rw [hg] at hpk
      exact OInv.keep (g := g) (e := (.read (.box n))) (p := (.ready b)) (q := .none) hi ho hd (emits_plain _ rfl (by simp [hg]) (by simp) (by simp) rfl rfl (Nat.le_refl _) (by simp) (by simp)) (by simp [RoleAcc]) (by simp [CacheAcc, Ev.loc]) (by simp) (by simp) (by simp [hg, Updating]) (by simp [hg, kidsOf]) (by simp [hg, Fetching]) (by simp [hg, Fetching]) (by simp [hg]) trivial (by simp [Hooking]) trivial (by simp [Updating]) (by simp [Fetching]) (by simp [Hooking]) (fun m hm => by simp at hm; exact hm ▸ hpk)
    case h_7 b old hg =>
      rw [hg] at hk
      simp at h; subst h
      exact OInv.keep (g := g) (e := (.read (.box old))) (p := .closing) (q := .none) hi ho hd (emits_plain _ rfl (by simp [hg]) (by simp) (by simp) rfl rfl (Nat.le_refl _) (by simp) (by simp)) (by simp [RoleAcc]) (by simp [CacheAcc, Ev.loc]) (by simp) (by simp) (by simp [hg, Updating]) (by simp [hg, kidsOf]) (by simp [hg, Fetching]) (by simp [hg, Fetching]) (by simp [hg]) trivial (by simp [Hooking]) trivial (by simp [Updating]) (by simp [Fetching]) (by simp [Hooking]) (fun m hm => by simp at hm; exact hm ▸ hk.2.2.2)
    case h_8 b old n hg =>
      rw [hg] at hk
      simp at h; subst h
      have hpk := ho.peeks g
      rw [hg] at hpk
      exact OInv.keep (g := g) (e := (.read (.box n))) (p := (.swapped b old)) (q := .none) hi ho hd (emits_plain _ rfl (by simp [hg]) (by simp) (by simp) rfl rfl (Nat.le_refl _) (by simp) (by simp)) (by simp [RoleAcc]) (by simp [CacheAcc, Ev.loc]) (by simp) (by simp) (by simp [hg, Updating]) (by simp [hg, kidsOf]) (by simp [hg, Fetching]) (by simp [hg, Fetching]) (by simp [hg]) trivial (by simp [Hooking]) trivial (by simp [Updating]) (by simp [Fetching]) (by simp [Hooking]) (fun m hm => by simp at hm; exact hm ▸ hpk)
    case h_9  hg =>
      rw [hg] at hk
      simp at h; subst h
      exact ho.finish hi (by rw [hg]; trivial) (by rw [hg]; rfl) hd
    case h_10  hg =>
      rw [hg] at hk
      simp at h; subst h
      exact OInv.keep (g := g) (e := (.load .role)) (p := (.checked s.role)) (q := .none) hi ho hd (emits_plain _ rfl (by simp [hg]) (by simp) (by simp) rfl rfl (Nat.le_refl _) (by simp) (by simp)) (by simp [RoleAcc]) (by simp [CacheAcc, Ev.loc]) (by simp) (by simp) (by simp [hg, Updating]) (by simp [hg, kidsOf]) (by simp [hg, Fetching]) (by simp [hg, Fetching]) (by simp [hg]) trivial (by simp [Hooking]) trivial (by simp [Updating]) (by simp [Fetching]) (by simp [Hooking]) (by simp)
    case h_11 n hg =>
      rw [hg] at hk
      simp at h; subst h
      exact OInv.keep (g := g) (e := (.read (.box n))) (p := .done) (q := .none) hi ho hd (emits_plain _ rfl (by simp [hg]) (by simp) (by simp) rfl rfl (Nat.le_refl _) (by simp) (by simp)) (by simp [RoleAcc]) (by simp [CacheAcc, Ev.loc]) (by simp) (by simp) (by simp [hg, Updating]) (by simp [hg, kidsOf]) (by simp [hg, Fetching]) (by simp [hg, Fetching]) (by simp [hg]) trivial (by simp [Hooking]) trivial (by simp [Updating]) (by simp [Fetching]) (by simp [Hooking]) (fun m hm => by simp at hm; exact hm ▸ hk.2)
    case h_12 b d hg =>
      rw [hg] at hk
      simp at h; subst h
      exact OInv.keep (g := g) (e := (.read (.box b))) (p := (.fetch d)) (q := .none) hi ho hd (emits_plain _ rfl (by simp [hg]) (by simp) (by simp) rfl rfl (Nat.le_refl _) (by simp) (by simp)) (by simp [RoleAcc]) (by simp [CacheAcc, Ev.loc]) (by simp) (by simp) (by simp [hg, Updating]) (by simp [hg, kidsOf]) (by simp [hg, Fetching]) (by simp [hg, Fetching]) (by simp [hg]) trivial (by simp [Hooking]) trivial (by simp [Updating]) (by simp [Fetching]) (by simp [Hooking]) (fun m hm => by simp at hm; exact hm ▸ hk.2)
    case h_13 d hg =>
      rw [hg] at hk
      simp at h; subst h
      by_cases hc : s.cache d = none
      · simp only [hc, if_true] at hd ⊢
        exact OInv.keep (g := g) (e := (.read (.cache d))) (p := (.ask d none)) (q := .none) hi ho hd (emits_plain _ rfl (by simp [hg]) (by simp) (by simp) rfl rfl (Nat.le_refl _) (by simp) (by simp)) (by simp [RoleAcc]) (by simp [CacheAcc, Ev.loc]; rw [hg]; simp [Fetching]) (by simp) (by simp) (by simp [hg, Updating]) (by simp [hg, kidsOf]) (by simp [hg, Fetching]) (by simp [hg, Fetching]) (by simp [hg]) trivial (by simp [Hooking]) trivial (by simp [Updating]) (by simp [Fetching]) (by simp [Hooking]) (by simp)
      · simp only [hc, if_false] at hd ⊢
        exact OInv.keep (g := g) (e := (.read (.cache d))) (p := (.hasTag d)) (q := .none) hi ho hd (emits_plain _ rfl (by simp [hg]) (by simp) (by simp) rfl rfl (Nat.le_refl _) (by simp) (by simp)) (by simp [RoleAcc]) (by simp [CacheAcc, Ev.loc]; rw [hg]; simp [Fetching]) (by simp) (by simp) (by simp [hg, Updating]) (by simp [hg, kidsOf]) (by simp [hg, Fetching]) (by simp [hg, Fetching]) (by simp [hg]) trivial (by simp [Hooking]) trivial (by simp [Updating]) (by simp [Fetching]) (by simp [Hooking]) (by simp)
    case h_14 d hg =>
      rw [hg] at hk
      obtain ⟨n, hn, h⟩ := Option.map_eq_some_iff.mp h
      subst h
      exact OInv.keep (g := g) (e := (.load (.cache d))) (p := (.tagged d n)) (q := .none) hi ho hd (emits_plain _ rfl (by simp [hg]) (by simp) (by simp) rfl rfl (Nat.le_refl _) (by simp) (by simp)) (by simp [RoleAcc]) (by simp [CacheAcc, Ev.loc]; rw [hg]; simp [Fetching]) (by simp) (by simp) (by simp [hg, Updating]) (by simp [hg, kidsOf]) (by simp [hg, Fetching]) (by simp [hg, Fetching]) (by simp [hg]) trivial (by simp [Hooking]) trivial (by simp [Updating]) (by simp [Fetching]) (by simp [Hooking]) (by simp)
    case h_15 d n hg =>
      rw [hg] at hk
      simp at h; subst h
      exact OInv.keep (g := g) (e := (.read (.pol n))) (p := (.ask d (some n))) (q := .none) hi ho hd (emits_plain _ rfl (by simp [hg]) (by simp) (by simp) rfl rfl (Nat.le_refl _) (by simp) (by simp)) (by simp [RoleAcc]) (by simp [CacheAcc, Ev.loc]) (by simp) (by simp) (by simp [hg, Updating]) (by simp [hg, kidsOf]) (by simp [hg, Fetching]) (by simp [hg, Fetching]) (by simp [hg]) trivial (by simp [Hooking]) trivial (by simp [Updating]) (by simp [Fetching]) (by simp [Hooking]) (by simp)
    case h_16 d tp hg =>
      rw [hg] at hk
      cases c with
      | same =>
        obtain ⟨n, hn, h'⟩ := Option.map_eq_some_iff.mp h
        subst hn h'
        exact OInv.keep (g := g) (e := (.read (.pol n))) (p := .done) (q := .none) hi ho hd (emits_plain _ rfl (by simp [hg]) (by simp) (by simp) rfl rfl (Nat.le_refl _) (by simp) (by simp)) (by simp [RoleAcc]) (by simp [CacheAcc, Ev.loc]) (by simp) (by simp) (by simp [hg, Updating]) (by simp [hg, kidsOf]) (by simp [hg, Fetching]) (by simp [hg, Fetching]) (by simp [hg]) trivial (by simp [Hooking]) trivial (by simp [Updating]) (by simp [Fetching]) (by simp [Hooking]) (by simp)
      | new =>
        simp at h; subst h
        exact OInv.keep (g := g) (e := (.write (.pol s.objs))) (p := (.got d s.objs)) (q := .none) hi ho hd (emits_plain _ rfl (by simp [hg]) (by simp) (by simp) rfl rfl (Nat.le_succ _) (fun l hl => ⟨s.objs, .inr (by simpa using hl.symm), Nat.le_refl _⟩) (by simp)) (by simp [RoleAcc]) (by simp [CacheAcc, Ev.loc]) (by simp) (by simp) (by simp [hg, Updating]) (by simp [hg, kidsOf]) (by simp [hg, Fetching]) (by simp [hg, Fetching]) (by simp [hg]) trivial (by simp [Hooking]) trivial (by simp [Updating]) (by simp [Fetching]) (by simp [Hooking]) (by simp)
      | again => simp at h; subst h; exact ho.goto (d := d) (by rw [hg]; rfl) rfl (by simp [hg])
      | giveUp => simp at h; subst h; exact ho.goto (d := d) (by rw [hg]; rfl) rfl (by simp [hg])
    case h_17 d n hg =>
      rw [hg] at hk
      simp at h; subst h
      exact OInv.keep (g := g) (e := (.store (.cache d))) (p := .done) (q := .none) hi ho hd (emits_plain _ rfl (by simp [hg]) (by simp) (by simp) rfl rfl (Nat.le_refl _) (by simp) (by simp)) (by simp [RoleAcc]) (by simp [CacheAcc, Ev.loc]; rw [hg]; simp [Fetching]) (by simp) (by simp) (by simp [hg, Updating]) (by simp [hg, kidsOf]) (by simp [hg, Fetching]) (by simp [hg, Fetching]) (by simp [hg]) trivial (by simp [Hooking]) trivial (by simp [Updating]) (by simp [Fetching]) (by simp [Hooking]) (by simp)
    case h_18 d hg =>
      rw [hg] at hk
      simp at h; subst h
      by_cases hc : s.cache d = none
      · simp only [hc, if_true] at hd ⊢
        exact OInv.keep (g := g) (e := (.read (.cache d))) (p := .done) (q := .none) hi ho hd (emits_plain _ rfl (by simp [hg]) (by simp) (by simp) rfl rfl (Nat.le_refl _) (by simp) (by simp)) (by simp [RoleAcc]) (by simp [CacheAcc, Ev.loc]; rw [hg]; simp [Fetching]) (by simp) (by simp) (by simp [hg, Updating]) (by simp [hg, kidsOf]) (by simp [hg, Fetching]) (by simp [hg, Fetching]) (by simp [hg]) trivial (by simp [Hooking]) trivial (by simp [Updating]) (by simp [Fetching]) (by simp [Hooking]) (by simp)
      · simp only [hc, if_false] at hd ⊢
        exact OInv.keep (g := g) (e := (.read (.cache d))) (p := (.fallback d)) (q := .none) hi ho hd (emits_plain _ rfl (by simp [hg]) (by simp) (by simp) rfl rfl (Nat.le_refl _) (by simp) (by simp)) (by simp [RoleAcc]) (by simp [CacheAcc, Ev.loc]; rw [hg]; simp [Fetching]) (by simp) (by simp) (by simp [hg, Updating]) (by simp [hg, kidsOf]) (by simp [hg, Fetching]) (by simp [hg, Fetching]) (by simp [hg]) trivial (by simp [Hooking]) trivial (by simp [Updating]) (by simp [Fetching]) (by simp [Hooking]) (by simp)
    case h_19 d hg =>
      rw [hg] at hk
      obtain ⟨n, hn, h⟩ := Option.map_eq_some_iff.mp h
      subst h
      exact OInv.keep (g := g) (e := (.load (.cache d))) (p := (.fellBack d n)) (q := .none) hi ho hd (emits_plain _ rfl (by simp [hg]) (by simp) (by simp) rfl rfl (Nat.le_refl _) (by simp) (by simp)) (by simp [RoleAcc]) (by simp [CacheAcc, Ev.loc]; rw [hg]; simp [Fetching]) (by simp) (by simp) (by simp [hg, Updating]) (by simp [hg, kidsOf]) (by simp [hg, Fetching]) (by simp [hg, Fetching]) (by simp [hg]) trivial (by simp [Hooking]) trivial (by simp [Updating]) (by simp [Fetching]) (by simp [Hooking]) (by simp)
    case h_20 d n hg =>
      rw [hg] at hk
      simp at h; subst h
      exact OInv.keep (g := g) (e := (.read (.pol n))) (p := .done) (q := .none) hi ho hd (emits_plain _ rfl (by simp [hg]) (by simp) (by simp) rfl rfl (Nat.le_refl _) (by simp) (by simp)) (by simp [RoleAcc]) (by simp [CacheAcc, Ev.loc]) (by simp) (by simp) (by simp [hg, Updating]) (by simp [hg, kidsOf]) (by simp [hg, Fetching]) (by simp [hg, Fetching]) (by simp [hg]) trivial (by simp [Hooking]) trivial (by simp [Updating]) (by simp [Fetching]) (by simp [Hooking]) (by simp)
    case h_21 d hg =>
      rw [hg] at hk
      simp at h; subst h
      exact absurd (by rw [hg]; trivial) (ho.nohook g)
    case h_22 d n hg =>
      rw [hg] at hk
      simp at h; subst h
      exact absurd (by rw [hg]; trivial) (ho.nohook g)
    case h_23 => simp at h

/-- Being one by one goes down to what came before. -/
theorem OneByOne.back {tr : List (Nat × Ev)} {x : Nat × Ev} (h : OneByOne (tr ++ [x])) : OneByOne tr := by
  intro i j g k hij h1 h2
  obtain ⟨m, h3, h4, h5, h6⟩ := h i j g k hij (snoc_old h1) (snoc_old h2)
  have := get_lt h2
  exact ⟨m, h3, h4, snoc_lt h5 (by omega), h6.back this⟩

/-- A step adds at most one event. -/
theorem dStep_trace {domains : List Str} {s s' : DState} {a : DAct} (h : dStep domains s a = some s') :
    s'.trace = s.trace ∨ ∃ x, s'.trace = s.trace ++ [x] := by
  cases a <;> simp only [dStep, dGo] at h
  case go g c =>
    repeat' split at h
    all_goals (try simp at h) <;> first | (subst h; first | exact .inl rfl | exact .inr ⟨_, rfl⟩) | (obtain ⟨n, _, h⟩ := h; subst h; exact .inr ⟨_, rfl⟩)
  all_goals
    repeat' split at h
    all_goals (try simp at h) <;> (subst h; exact .inr ⟨_, rfl⟩)

theorem OneByOne.start {domains : List Str} {s s' : DState} {as : List DAct} (h : dRun domains s as = some s') (ho : OneByOne s'.trace) : OneByOne s.trace := by
  induction as generalizing s with
  | nil => simp [dRun] at h; exact h ▸ ho
  | cons a as ih =>
    simp only [dRun, Option.bind_eq_some_iff] at h
    obtain ⟨s1, h1, h2⟩ := h
    have := ih h2
    rcases dStep_trace h1 with h3 | ⟨x, h3⟩
    · rwa [h3] at this
    · rw [h3] at this; exact OneByOne.back this

theorem OInv.run {domains : List Str} {s s' : DState} {as : List DAct} (hi : DInv s) (ho : OInv s) (ha : ∀ a ∈ as, Calm a)
    (h : dRun domains s as = some s') (hone : OneByOne s'.trace) : OInv s' := by
  induction as generalizing s with
  | nil => simp [dRun] at h; exact h ▸ ho
  | cons a as ih =>
    simp only [dRun, Option.bind_eq_some_iff] at h
    obtain ⟨s1, h1, h2⟩ := h
    exact ih (hi.step h1) (ho.step hi (ha a (by simp)) (OneByOne.start h2 hone) h1) (fun b hb => ha b (by simp [hb])) h2

end Athenz
