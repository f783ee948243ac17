import Verif.Proof.RcRelease
/-
Guards, weak handles, iterators over the children.
-/
namespace Trees
set_option linter.unusedSimpArgs false
set_option linter.unusedVariables false
variable {α β γ : Type}
open Classical

/-- The shared value in variable `k` goes away; nothing else changes. -/
structure Loses (m m' : RMachine α) (k : Var) : Prop where
  si : SI m'
  env : m'.env = m.env
  fresh : m'.fresh = m.fresh
  refs : m'.refs = upd m.refs k none
  looks : ∀ j, m'.look j = m.look j
  store : m'.excl.store = m.excl.store

section
variable {m : RMachine α} {G : Heap α} {K : Addr → List Addr} {T : Var → Option Addr}

/-- A value that is not a handle and not a guard. -/
theorem RInv.adds_ref (I : RInv m G K T) (B : GInv m) {r : Ref} (ho : RefOK m G K T (some r)) (hg : ∀ a w, isGuard a w (some r) = false) :
    ∃ m', m.bindRef m.heap m.refs r = .ok m' (.var m.fresh) ∧ Adds m m' ∧ m'.refs m.fresh = some r ∧ RInv m' G K T := by
  have I' := I.setRef (I.tnone (Nat.le_refl _)) (I.fr _ (Nat.le_refl _)).1 ho (Nat.lt_succ_self _) (Nat.le_succ m.fresh)
  refine ⟨_, rfl, ⟨⟨G, K, T, I', ?_⟩, rfl, fun j hj => upd_of_ne _ _ hj, ?_, ?_, rfl⟩, by simp, I'⟩
  · refine B.step (fun a w => ?_) fun a ha => .inl ⟨ha, rfl⟩
    show gcount (upd m.refs m.fresh (some r)) (m.fresh + 1) a w = _
    rw [gcount_bind fun k hk => (I.fr k hk).2]; simp [hg]
  · intro j hj
    exact I.look_congr I' rfl fun _ _ _ _ => ⟨rfl, rfl⟩
  · rw [I.store_same I' rfl fun _ _ _ _ _ => ⟨rfl, rfl⟩]

/-- A guard. -/
theorem RInv.adds_guard (I : RInv m G K T) (B : GInv m) {k : Var} {a : Addr} (hk : T k = some a) (w : Bool) (b : Int)
    (hb : Flag b (gcount m.refs m.fresh a false + (if w then 0 else 1)) (gcount m.refs m.fresh a true + (if w then 1 else 0))) :
    ∃ m', m.bindRef (m.heap.bor a b) m.refs (.guard k a w) = .ok m' (.var m.fresh) ∧ Adds m m' ∧ m'.refs m.fresh = some (.guard k a w) := by
  have I' := (I.bor a b).setRef (k := m.fresh) (o := some (.guard k a w)) (n := m.fresh + 1) (I.tnone (Nat.le_refl _)) (I.fr _ (Nat.le_refl _)).1 hk (Nat.lt_succ_self _) (Nat.le_succ m.fresh)
  refine ⟨_, rfl, ⟨⟨_, K, T, I', ?_⟩, rfl, fun j hj => upd_of_ne _ _ hj, ?_, ?_, rfl⟩, by simp⟩
  · intro x hx
    show Flag (upd m.heap.borrow a b x) (gcount (upd m.refs m.fresh (some (.guard k a w))) (m.fresh + 1) x false) (gcount (upd m.refs m.fresh (some (.guard k a w))) (m.fresh + 1) x true)
    rw [gcount_bind fun k hk => (I.fr k hk).2, gcount_bind fun k hk => (I.fr k hk).2]
    by_cases e : x = a
    · subst e
      rw [upd_self]
      cases w <;> simpa [isGuard] using hb
    · have e' : ¬ a = x := fun h => e h.symm
      rw [upd_of_ne _ _ e]
      have := B x hx
      simpa [isGuard, e'] using this
  · intro j hj
    exact I.look_congr I' rfl fun _ _ _ _ => ⟨rfl, rfl⟩
  · have := I.store_same I' rfl fun _ _ _ _ _ => ⟨rfl, rfl⟩
    rw [this]

theorem si_borrow (hm : SI m) {k : Var} {t : RTree (Addr × α)} (hk : m.look k = some t) (hg : ¬ m.Guarded t.data.1 true) :
    ∃ m', rstep m (.borrow k) = .ok m' (.var m.fresh) ∧ Adds m m' ∧ m'.refs m.fresh = some (.guard k t.data.1 false) := by
  obtain ⟨G, K, T, I, B⟩ := hm
  obtain ⟨a, h1, h2⟩ := I.look_iff.mp hk
  obtain ⟨ha, hx⟩ := (I.tgt k a h1).2
  rw [h2.root] at hg ⊢
  obtain ⟨r, h3, h4⟩ := I.ref h1
  obtain ⟨d, hd⟩ := Heap.isVal_iff.mp (I.isV h1)
  obtain ⟨m', e1, A, e2⟩ := I.adds_guard B h1 false (G.borrow a + 1) (by
    have h2 : gcount m.refs m.fresh a true = 0 := by by_contra h; exact hg (I.guarded_iff.mp h)
    have := B a (I.used'.mpr ha).1
    rw [I.borrow'] at this
    simp only [Flag, h2] at this ⊢
    simp; omega)
  refine ⟨m', ?_, A, e2⟩
  have e3 : guardShared r m.heap = .ok a (m.heap.bor a (G.borrow a + 1)) := by
    have e4 := borrowShared_ok (Z := fun _ => false) (e := extra G m.fresh T) h4 ha (B.shared I ha hg)
    have e5 : dataRef a (bumpE (extra G m.fresh T) (G.bor a (G.borrow a + 1))) = .ok d (bumpE (extra G m.fresh T) (G.bor a (G.borrow a + 1))) :=
      dataRef_ok (h := bumpE (extra G m.fresh T) (G.bor a (G.borrow a + 1))) ha.1 hd
    have e6 : m.heap.bor a (G.borrow a + 1) = bumpE (extra G m.fresh T) (G.bor a (G.borrow a + 1)) := by rw [I.heap]; rfl
    rw [e6, I.heap]
    simp only [guardShared, M.bind_apply, e4, Res.bind_ok, onPanic, e5, M.pure_apply]
  simp only [rstep, RMachine.onRc, h3, RMachine.run, e3]
  exact e1

theorem si_borrowMut (hm : SI m) {k : Var} {t : RTree (Addr × α)} (hk : m.look k = some t) (hg : ∀ w, ¬ m.Guarded t.data.1 w) :
    ∃ m', rstep m (.borrowMut k) = .ok m' (.var m.fresh) ∧ Adds m m' ∧ m'.refs m.fresh = some (.guard k t.data.1 true) := by
  obtain ⟨G, K, T, I, B⟩ := hm
  obtain ⟨a, h1, h2⟩ := I.look_iff.mp hk
  obtain ⟨ha, hx⟩ := (I.tgt k a h1).2
  rw [h2.root] at hg ⊢
  obtain ⟨r, h3, h4⟩ := I.ref h1
  obtain ⟨d, hd⟩ := Heap.isVal_iff.mp (I.isV h1)
  obtain ⟨m', e1, A, e2⟩ := I.adds_guard B h1 true (-1) (by
    have h2 : ∀ w, gcount m.refs m.fresh a w = 0 := by intro w; by_contra h; exact hg w (I.guarded_iff.mp h)
    simp [Flag, h2])
  refine ⟨m', ?_, A, e2⟩
  have e3 : guardMut r m.heap = .ok a (m.heap.bor a (-1)) := by
    have e4 := borrowMut_ok (Z := fun _ => false) (e := extra G m.fresh T) h4 ha (B.free I ha hg)
    have e5 : dataRef a (bumpE (extra G m.fresh T) (G.bor a (-1))) = .ok d (bumpE (extra G m.fresh T) (G.bor a (-1))) :=
      dataRef_ok (h := bumpE (extra G m.fresh T) (G.bor a (-1))) ha.1 hd
    have e6 : m.heap.bor a (-1) = bumpE (extra G m.fresh T) (G.bor a (-1)) := by rw [I.heap]; rfl
    rw [e6, I.heap]
    simp only [guardMut, M.bind_apply, e4, Res.bind_ok, onPanic, e5, M.pure_apply]
  simp only [rstep, RMachine.onRc, h3, RMachine.run, e3]
  exact e1

theorem si_borrow_conflict (hm : SI m) {k : Var} {a : Addr} (hk : m.nodeOf k = some a) (hg : m.Guarded a true) : rstep m (.borrow k) = .panic m := by
  obtain ⟨G, K, T, I, B⟩ := hm
  rw [I.nodeOf] at hk
  obtain ⟨r, h1, h2⟩ := I.ref hk
  simp only [rstep, RMachine.onRc, h1, RMachine.run, guardShared, M.bind_apply, I.conflictS B hk h1 hg, Res.bind_err]

theorem si_borrowMut_conflict (hm : SI m) {k : Var} {a : Addr} {w : Bool} (hk : m.nodeOf k = some a) (hg : m.Guarded a w) : rstep m (.borrowMut k) = .panic m := by
  obtain ⟨G, K, T, I, B⟩ := hm
  rw [I.nodeOf] at hk
  obtain ⟨r, h1, h2⟩ := I.ref hk
  simp only [rstep, RMachine.onRc, h1, RMachine.run, guardMut, M.bind_apply, I.conflictM B hk h1 hg, Res.bind_err]

/-- A guard is for the node of a handle. -/
theorem si_guard (hm : SI m) {g k : Var} {a : Addr} {w : Bool} (h : m.refs g = some (.guard k a w)) : ∃ t, m.look k = some t ∧ t.data.1 = a := by
  obtain ⟨G, K, T, I, B⟩ := hm
  have := I.guards g k a w h
  obtain ⟨t, ht⟩ := I.den this
  exact ⟨t, I.look_of this ht, ht.root⟩

theorem si_guardRead (hm : SI m) {g k : Var} {a : Addr} {w : Bool} {t : RTree (Addr × α)} (h : m.refs g = some (.guard k a w)) (hk : m.look k = some t) :
    rstep m (.guardRead g) = .ok m (.item (some t.data.2)) := by
  obtain ⟨G, K, T, I, B⟩ := hm
  have h1 := I.guards g k a w h
  obtain ⟨b, g1, g2⟩ := I.look_iff.mp hk
  rw [h1] at g1; cases g1
  obtain ⟨ha, hx⟩ := (I.tgt k a h1).2
  cases t with
  | node x ts =>
    simp only [Den_node] at g2
    obtain ⟨h3, h4⟩ := Heap.lab_some.mp g2.1
    have e : dataRef a m.heap = .ok x.2 m.heap := dataRef_ok (I.used'.mpr ha).1 (by rw [I.heap]; exact h4)
    simp only [rstep, h, RMachine.run, e, RTree.data_node]

theorem si_guardWrite (hm : SI m) {g k : Var} {a : Addr} {t : RTree (Addr × α)} (d : α) (h : m.refs g = some (.guard k a true)) (hk : m.look k = some t) :
    ∃ m', rstep m (.guardWrite g d) = .ok m' .unit ∧ Edits m m' (RTree.setAt t.data.1 d) [t.data.2] := by
  obtain ⟨G, K, T, I, B⟩ := hm
  have h1 := I.guards g k a true h
  obtain ⟨b, g1, g2⟩ := I.look_iff.mp hk
  rw [h1] at g1; cases g1
  obtain ⟨ha, hx⟩ := (I.tgt k a h1).2
  have hv : G.val a = some t.data.2 := by
    cases t with
    | node x ts => simp only [Den_node] at g2; exact (Heap.lab_some.mp g2.1).2
  rw [g2.root]
  refine ⟨_, ?_, I.put_edits B h1 hv d⟩
  have e : dataMutSet a d m.heap = .ok () (m.heap.put a d [t.data.2]) := dataMutSet_eq (I.used'.mpr ha).1 (by rw [I.heap]; exact hv)
  simp only [rstep, h, RMachine.run, e]

/-- The end of a guard. -/
theorem si_dropGuard (hm : SI m) {g k : Var} {a : Addr} {w : Bool} (h : m.refs g = some (.guard k a w)) :
    ∃ m', rstep m (.drop g) = .ok m' .unit ∧ Loses m m' g := by
  obtain ⟨G, K, T, I, B⟩ := hm
  have h1 := I.guards g k a w h
  obtain ⟨ha, hx⟩ := (I.tgt k a h1).2
  have hTg : T g = none := by
    cases hT : T g with
    | none => rfl
    | some b => obtain ⟨r, hr⟩ := (I.tgt g b hT).1; rw [h] at hr; simp at hr
  have hgl := I.refs_lt h
  have hl : m.heap.live a = true := (I.used'.mpr ha).1
  have e1 : (if w then releaseMut a else releaseShared a : M α Unit) m.heap = .ok () (m.heap.bor a (if w then 0 else m.heap.borrow a - 1)) := by
    cases w
    · exact releaseShared_ok hl
    · exact releaseMut_ok hl
  have I' := (I.bor a (if w then 0 else m.heap.borrow a - 1)).setRef (k := g) (o := none) (n := m.fresh) hTg (I.sep g _ h) trivial hgl (Nat.le_refl _)
  refine ⟨_, by simp only [rstep, h, RMachine.run, e1], ⟨⟨_, K, T, I', ?_⟩, rfl, rfl, rfl, ?_, ?_⟩⟩
  · intro x hx
    show Flag (upd m.heap.borrow a (if w then 0 else m.heap.borrow a - 1) x) (gcount (upd m.refs g none) m.fresh x false) (gcount (upd m.refs g none) m.fresh x true)
    have c1 := gcount_upd (refs := m.refs) hgl none x false
    have c2 := gcount_upd (refs := m.refs) hgl none x true
    have hB := B x hx
    rw [h] at c1 c2
    by_cases e : x = a
    · subst e
      rw [upd_self]
      cases w
      · simp [isGuard] at c1 c2 ⊢
        simp only [Flag] at hB ⊢; omega
      · simp [isGuard] at c1 c2 ⊢
        simp only [Flag] at hB ⊢; omega
    · have e' : ¬ a = x := fun h => e h.symm
      rw [upd_of_ne _ _ e]
      simp [isGuard, e'] at c1 c2
      rw [c1, c2]; exact hB
  · intro j
    exact I.look_congr I' rfl fun _ _ _ _ => ⟨rfl, rfl⟩
  · have := I.store_same I' rfl fun _ _ _ _ _ => ⟨rfl, rfl⟩
    rw [this]
    simp only [Machine.store, Store.mk.injEq, true_and]
    exact ⟨rfl, by show G.log = m.heap.log; rw [I.heap]; rfl⟩

/-- A value that is not a handle and not a guard goes away. -/
theorem RInv.lose (I : RInv m G K T) (B : GInv m) {k : Var} {r : Ref} (h : m.refs k = some r) (h1 : ∀ q, r ≠ .rc q) (h2 : ∀ a w, isGuard a w (some r) = false) :
    Loses m ⟨m.heap, m.env, upd m.refs k none, m.fresh⟩ k := by
  have hT : T k = none := by
    cases hT : T k with
    | none => rfl
    | some b => obtain ⟨q, hr⟩ := (I.tgt k b hT).1; rw [h] at hr; exact absurd (Option.some.inj hr) (h1 q)
  have hl := I.refs_lt h
  have I' := I.setRef (o := none) hT (I.sep k _ h) trivial hl (Nat.le_refl _)
  refine ⟨⟨G, K, T, I', ?_⟩, rfl, rfl, rfl, fun j => I.look_congr I' rfl fun _ _ _ _ => ⟨rfl, rfl⟩, ?_⟩
  · refine B.step (fun a w => ?_) fun a ha => .inl ⟨ha, rfl⟩
    have := gcount_upd (refs := m.refs) hl none a w
    rw [h, h2] at this
    simpa [isGuard] using this
  · rfl

theorem si_dropWeak (hm : SI m) {k : Var} {r : RcRef} (h : m.refs k = some (.weak r)) : ∃ m', rstep m (.drop k) = .ok m' .unit ∧ Loses m m' k := by
  obtain ⟨G, K, T, I, B⟩ := hm
  obtain ⟨a, rfl, -⟩ := I.wk k r h
  refine ⟨_, ?_, I.lose B h (by simp) (by simp [isGuard])⟩
  simp only [rstep, h, RMachine.run, dropWeak, M.pure_apply]

theorem si_dropIter (hm : SI m) {k : Var} {it : RawIter} (h : m.refs k = some (.iter it)) : ∃ m', rstep m (.drop k) = .ok m' .unit ∧ Loses m m' k := by
  obtain ⟨G, K, T, I, B⟩ := hm
  refine ⟨_, ?_, I.lose B h (by simp) (by simp [isGuard])⟩
  simp only [rstep, h]

/-! ### Weak handles -/

theorem si_downgrade (hm : SI m) {k : Var} {t : RTree (Addr × α)} (hk : m.look k = some t) {a : Addr} (hs : m.refs k = some (.rc (.scattered a))) :
    ∃ m', rstep m (.downgrade k) = .ok m' (.var m.fresh) ∧ Adds m m' ∧ m'.refs m.fresh = some (.weak (.scattered t.data.1)) := by
  obtain ⟨G, K, T, I, B⟩ := hm
  obtain ⟨b, h1, h2⟩ := I.look_iff.mp hk
  obtain ⟨ha, hx⟩ := (I.tgt k b h1).2
  obtain ⟨r, h3, h4⟩ := I.ref h1
  rw [hs] at h3; cases h3
  obtain ⟨rfl, hd⟩ := id h4
  rw [h2.root]
  obtain ⟨m', e1, A, e2, -⟩ := I.adds_ref B (r := .weak (.scattered a)) ⟨a, rfl, I.st.liveB a ha.1, fun _ => ⟨hd, hx⟩⟩ (by simp [isGuard])
  exact ⟨m', by simp only [rstep, RMachine.onRc, hs]; exact e1, A, e2⟩

theorem si_iterClone (hm : SI m) {i : Var} {it : RawIter} (hi : m.refs i = some (.iter it)) :
    ∃ m', rstep m (.iterClone i) = .ok m' (.var m.fresh) ∧ Adds m m' ∧ m'.refs m.fresh = some (.iter it) := by
  obtain ⟨G, K, T, I, B⟩ := hm
  obtain ⟨m', e1, A, e2, -⟩ := I.adds_ref B (r := .iter it) trivial (by simp [isGuard])
  exact ⟨m', by simp only [rstep, hi]; exact e1, A, e2⟩

theorem RInv.shown (I : RInv m G K T) {a : Addr} : m.Shown a ↔ G.Used a ∧ ¬ Excl m.env K a := by
  constructor
  · rintro ⟨j, t, h1, h2⟩
    obtain ⟨b, h3, h4⟩ := I.look_iff.mp h1
    obtain ⟨x, h5, rfl⟩ := List.mem_map.mp h2
    have hr := den_pre_reach h4 x h5
    refine ⟨I.inv.reach_used (I.tgt j b h3).2.1 hr, fun ⟨y, hd, g1, g2⟩ => (I.tgt j b h3).2.2 ?_⟩
    have := (I.whole.reach hr).trans (I.tshared h3)
    exact absurd ⟨y, hd, g1, g2⟩ (shared_iff.mp this).2
  · rintro ⟨h1, h2⟩
    obtain ⟨k, r, g1, g2, g3⟩ := I.root_handle h1 h2
    obtain ⟨t, ht⟩ := I.den g1
    exact ⟨k, t, I.look_of g1 ht, den_reach_pre ht g3⟩

theorem RInv.incr (I : RInv m G K T) {a : Addr} {d : α} (ha : G.Used a) (hd : G.data a = .scattered d a) :
    incrCount a m.heap = .ok () (bumpE (upd (extra G m.fresh T) a (extra G m.fresh T a + 1)) G) := by
  have e2 := rcClone_ok (Z := fun _ => false) (e := extra G m.fresh T) I.st ha rfl ⟨rfl, d, hd⟩
  have hs : (RcRef.scattered a).slot m.heap = .ok a m.heap := by simp [RcRef.slot, (I.used'.mpr ha).1]
  have e3 : rcClone (.scattered a) m.heap = .ok (.scattered a) (bumpE (upd (extra G m.fresh T) a (extra G m.fresh T a + 1)) G) := by
    rw [I.heap]; exact e2
  simp only [rcClone, M.bind_apply, hs, Res.bind_ok] at e3
  cases h : incrCount a m.heap with
  | ok u H => rw [h] at e3; simpa using e3
  | err e H => rw [h] at e3; simp at e3

/-- `upgrade` while the node is part of a tree some handle shows. -/
theorem si_upgrade (hm : SI m) {w : Var} {a : Addr} (h : m.refs w = some (.weak (.scattered a))) (hs : m.Shown a) :
    ∃ m' t, rstep m (.upgrade w) = .ok m' (.var m.fresh) ∧ Adds m m' ∧ m'.look m.fresh = some t ∧ t.data.1 = a := by
  obtain ⟨G, K, T, I, B⟩ := hm
  obtain ⟨ha, hx⟩ := I.shown.mp hs
  obtain ⟨b, h1, h2, h3⟩ := I.wk w _ h
  cases h1
  obtain ⟨⟨d, hd⟩, -⟩ := h3 ha.1
  obtain ⟨m', e1, A, I'⟩ := I.adds B ha hx (r := .scattered a) ⟨rfl, d, hd⟩
  obtain ⟨t, ht⟩ := I'.den (k := m.fresh) (a := a) (by simp)
  refine ⟨m', t, ?_, A, I'.look_of (by simp) ht, ht.root⟩
  have e2 : upgradeWeak (.scattered a) m.heap = .ok (some (.scattered a)) (bumpE (upd (extra G m.fresh T) a (extra G m.fresh T a + 1)) G) := by
    simp only [upgradeWeak, (I.used'.mpr ha).1, if_true, I.incr ha hd, Res.bind_ok]
  simp only [rstep, h, RMachine.run, e2, RMachine.retRc]
  exact e1

/-- `upgrade` afterwards. -/
theorem si_upgrade_none (hm : SI m) {w : Var} {a : Addr} (h : m.refs w = some (.weak (.scattered a))) (hs : ¬ m.Shown a) :
    rstep m (.upgrade w) = .ok m .none := by
  obtain ⟨G, K, T, I, B⟩ := hm
  obtain ⟨b, h1, h2, h3⟩ := I.wk w _ h
  cases h1
  have hl : m.heap.live a = false := by
    rw [← Bool.not_eq_true]
    intro hl
    have hl' : G.live a = true := by rw [I.heap] at hl; exact hl
    obtain ⟨⟨d, hd⟩, hx⟩ := h3 hl'
    exact hs (I.shown.mpr ⟨⟨hl', by rw [hd]; rfl⟩, hx⟩)
  simp [rstep, h, RMachine.run, upgradeWeak, hl, RMachine.retRc]

theorem si_weak_scattered (hm : SI m) {w : Var} {r : RcRef} (h : m.refs w = some (.weak r)) : ∃ a, r = .scattered a := by
  obtain ⟨G, K, T, I, B⟩ := hm
  obtain ⟨b, h1, -⟩ := I.wk w _ h
  exact ⟨b, h1⟩

/-! ### Iterators -/

/-- A new handle in the next variable, and the iterator in `i` moves on; nothing else changes. -/
structure Yields (m m' : RMachine α) (i : Var) : Prop where
  si : SI m'
  fresh : m'.fresh = m.fresh + 1
  refs : ∀ j, j ≠ m.fresh → j ≠ i → m'.refs j = m.refs j
  looks : ∀ j, j ≠ m.fresh → m'.look j = m.look j
  vars : m'.excl.store.vars = m.excl.store.vars
  log : m'.heap.log = m.heap.log

theorem RInv.iter_same (I : RInv m G K T) (B : GInv m) {i : Var} {it it' : RawIter} (h : m.refs i = some (.iter it)) :
    RInv ⟨m.heap, m.env, upd m.refs i (some (.iter it')), m.fresh⟩ G K T ∧ GInv ⟨m.heap, m.env, upd m.refs i (some (.iter it')), m.fresh⟩ := by
  have hT : T i = none := by
    cases hT : T i with
    | none => rfl
    | some b => obtain ⟨q, hr⟩ := (I.tgt i b hT).1; rw [h] at hr; simp at hr
  have hl := I.refs_lt h
  refine ⟨I.setRef hT (I.sep i _ h) trivial hl (Nat.le_refl _), ?_⟩
  refine B.step (fun a w => ?_) fun a ha => .inl ⟨ha, rfl⟩
  have := gcount_upd (refs := m.refs) hl (some (.iter it')) a w
  rw [h] at this
  simpa [isGuard] using this

theorem DenL.kidIds {h : Heap α} {K : Addr → List Addr} {cs : List Addr} {ts : List (RTree (Addr × α))} (hd : DenL h.lab K cs ts) :
    ts.map (fun c => c.data.1) = cs := by
  have := DenL_forall₂.mp hd
  clear hd
  induction this with
  | nil => rfl
  | cons hd _ ih => simp [hd.root, ih]

theorem si_iterRc (hm : SI m) {k : Var} {t : RTree (Addr × α)} (hk : m.look k = some t) (hg : ¬ m.Guarded t.data.1 true) :
    ∃ m', rstep m (.iterRc k) = .ok m' (.var m.fresh) ∧ Adds m m' ∧ m'.IterAt m.fresh (t.kids.map fun c => c.data.1) := by
  obtain ⟨G, K, T, I, B⟩ := hm
  obtain ⟨a, h1, h2⟩ := I.look_iff.mp hk
  obtain ⟨ha, hx⟩ := (I.tgt k a h1).2
  rw [h2.root] at hg
  obtain ⟨r, h3, h4⟩ := I.ref h1
  have hkids : t.kids.map (fun c => c.data.1) = K a := by
    cases t with
    | node x ts =>
      simp only [Den_node] at h2
      rw [RTree.kids_node]
      exact h2.2.kidIds
  obtain ⟨m', e1, A, e2, -⟩ := I.adds_ref B (r := .iter ⟨(K a).head?, (K a).length⟩) trivial (by simp [isGuard])
  refine ⟨m', ?_, A, ⟨_, e2, by rw [hkids], fun _ => by rw [hkids]⟩⟩
  have e3 : iterRc r m.heap = .ok ⟨(K a).head?, (K a).length⟩ m.heap := by
    have hI : Inv (bumpE (extra G m.fresh T) (G.bor a (G.borrow a + 1))) K := (I.inv.bor _ _).over _ _
    have hu : (bumpE (extra G m.fresh T) (G.bor a (G.borrow a + 1))).Used a := ha
    have q1 := hasNoChild_ok (h := bumpE (extra G m.fresh T) (G.bor a (G.borrow a + 1))) ha.1
    have q2 := front_ok (h := bumpE (extra G m.fresh T) (G.bor a (G.borrow a + 1))) ha.1
    have q3 := degree_len hI hu
    rw [hI.l.head a hu] at q1 q2
    rw [I.heap]
    refine withShared_read h4 ha (B.shared I ha hg) ?_
    simp only [M.bind_apply, q1, Res.bind_ok]
    cases hK : K a with
    | nil => simp
    | cons c cs =>
      rw [hK] at q2 q3
      simp [M.bind_apply, q2, Res.bind_ok, q3, M.pure_apply]
  simp only [rstep, RMachine.onRc, h3, RMachine.run, e3]
  exact e1

/-- The next node, if the list of children is as it was. -/
theorem RInv.iterNext (I : RInv m G K T) (B : GInv m) {i : Var} {n : Nat} {c : Addr} (hi : m.refs i = some (.iter ⟨some c, n + 1⟩)) (hu : G.Used c) (hx : ¬ Excl m.env K c)
    (hv : G.IsVal c) :
    ∃ m' t, rstep m (.iterNext i) = .ok m' (.var m.fresh) ∧ Yields m m' i ∧ m'.look m.fresh = some t ∧ Den G.lab K c t ∧ m'.refs i = some (.iter ⟨G.next c, n⟩) := by
  obtain ⟨I1, B1⟩ := I.iter_same B (it' := ⟨G.next c, n⟩) hi
  obtain ⟨q, hq, e1⟩ := nodeRc_ok (Z := fun _ => false) (e := extra G m.fresh T) I.st (a := c) hu hv rfl
  obtain ⟨m', e2, A, I'⟩ := I1.adds B1 hu hx hq
  obtain ⟨t, ht⟩ := I'.den (k := m.fresh) (a := c) (by simp)
  have hif : i ≠ m.fresh := Nat.ne_of_lt (I.refs_lt hi)
  refine ⟨m', t, ?_, ⟨A.si, A.fresh, ?_, ?_, ?_, A.log⟩, I'.look_of (by simp) ht, ht, ?_⟩
  · have e3 : iterRcNext ⟨some c, n + 1⟩ m.heap = .ok (some q, ⟨G.next c, n⟩) (bumpE (upd (extra G m.fresh T) c (extra G m.fresh T c + 1)) G) := by
      have e4 := RawIter.next_succ (h := m.heap) (n := n) (I.used'.mpr hu).1
      have e5 : m.heap.next = G.next := by rw [I.heap]; rfl
      have e6 : nodeRc c m.heap = .ok q (bumpE (upd (extra G m.fresh T) c (extra G m.fresh T c + 1)) G) := by rw [I.heap]; exact e1
      rw [e5] at e4
      simp only [iterRcNext, M.bind_apply, e4, Res.bind_ok, e6, M.pure_apply]
    simp only [rstep, hi, RMachine.run, e3, RMachine.retRc]
    exact e2
  · intro j h1 h2
    rw [A.refs j h1]; exact upd_of_ne _ _ h2
  · intro j hj
    rw [A.looks j hj]
    exact I.look_congr I1 rfl fun _ _ _ _ => ⟨rfl, rfl⟩
  · rw [A.vars]; rfl
  · rw [A.refs i hif]; exact upd_self _ _ _

mutual
theorem Den.sub {v : Addr → Option β} {K : Addr → List Addr} : ∀ {a} {t : RTree β}, Den v K a t → ∀ {s}, s ∈ t.subs → ∃ u, Reach K a u ∧ Den v K u s
  | a, .node x ts, hd, s, hs => by
    simp only [RTree.subs, List.mem_cons] at hs
    rcases hs with rfl | hs
    · exact ⟨a, .refl _, hd⟩
    · simp only [Den_node] at hd
      obtain ⟨c, u, h1, h2, h3⟩ := DenL.sub hd.2 hs
      exact ⟨u, .step h1 h2, h3⟩
theorem DenL.sub {v : Addr → Option β} {K : Addr → List Addr} : ∀ {cs} {ts : List (RTree β)}, DenL v K cs ts → ∀ {s}, s ∈ RTree.subsL ts → ∃ c u, c ∈ cs ∧ Reach K c u ∧ Den v K u s
  | _, [], _, s, hs => by simp [RTree.subsL] at hs
  | [], t :: ts, hd, s, hs => by simp at hd
  | c :: cs, t :: ts, hd, s, hs => by
    simp only [DenL_cons] at hd
    simp only [RTree.subsL, List.mem_append] at hs
    rcases hs with hs | hs
    · obtain ⟨u, h1, h2⟩ := Den.sub hd.1 hs
      exact ⟨c, u, by simp, h1, h2⟩
    · obtain ⟨d, u, h1, h2, h3⟩ := DenL.sub hd.2 hs
      exact ⟨d, u, by simp [h1], h2, h3⟩
end

/-- `next` yields a handle to the next child, as long as the remaining children are still those of a node some handle shows. -/
theorem si_iterNext (hm : SI m) {i j : Var} {t s : RTree (Addr × α)} {c : RTree (Addr × α)} {cs : List (RTree (Addr × α))}
    (hi : m.IterAt i ((c :: cs).map fun c => c.data.1)) (hj : m.look j = some t) (hs : s ∈ t.subs) (hc : (c :: cs) <:+ s.kids) :
    ∃ m', rstep m (.iterNext i) = .ok m' (.var m.fresh) ∧ Yields m m' i ∧ m'.look m.fresh = some c ∧ m'.IterAt i (cs.map fun c => c.data.1) := by
  obtain ⟨G, K, T, I, B⟩ := hm
  obtain ⟨a, h1, h2⟩ := I.look_iff.mp hj
  obtain ⟨u, h3, h4⟩ := h2.sub hs
  obtain ⟨l, hl⟩ := hc
  obtain ⟨it, g1, g2, g3⟩ := hi
  obtain ⟨cu, n⟩ := it
  simp only [List.map_cons, List.length_cons, List.length_map, ne_eq, reduceCtorEq, not_false_eq_true, List.head?_cons, forall_const] at g2 g3
  subst g2 g3
  cases s with
  | node x ts =>
    simp only [Den_node] at h4
    rw [RTree.kids_node] at hl
    subst hl
    have hd := h4.2
    have hsu : Trees.shared m.env G K u = true := (I.whole.reach h3).trans (I.tshared h1)
    obtain ⟨huU, hux⟩ := shared_iff.mp hsu
    have hK : K u = l.map (fun c => c.data.1) ++ c.data.1 :: cs.map (fun c => c.data.1) := by rw [← hd.kidIds]; simp
    have hcm : c.data.1 ∈ K u := by rw [hK]; simp
    obtain ⟨b, q1, q2⟩ := hd.mem l.length c (by simp)
    have hb : b = c.data.1 := q2.root.symm
    subst hb
    have hn : G.next c.data.1 = (cs.map fun c => c.data.1).head? := by
      have := I.inv.l.links u huU
      rw [hK, links_append] at this
      simpa [Links] using this.2.2.1
    obtain ⟨m', t', e1, Y, e2, e3, e4⟩ := I.iterNext B g1 (I.inv.used_of_mem hcm) (I.kidX hcm hux) (I.kv u _ hcm)
    have : t' = c := Den.unique e3 q2
    subst this
    exact ⟨m', e1, Y, e2, _, e4, by simp, fun _ => hn⟩

/-- At the end. -/
theorem si_iterNext_nil {i : Var} (hi : m.IterAt i []) : rstep m (.iterNext i) = .ok m .none := by
  obtain ⟨it, h1, h2, -⟩ := hi
  obtain ⟨cu, n⟩ := it
  simp at h2; subst h2
  simp only [rstep, h1, RMachine.run, iterRcNext, M.bind_apply, RawIter.next_zero, Res.bind_ok, M.pure_apply, RMachine.retRc, upd_id h1]

end
end Trees
