import Verif.Proof.RcRead
/-
Calls through handles: removing children, changing data items.
-/
namespace Trees
set_option linter.unusedSimpArgs false
set_option linter.unusedVariables false
variable {α β γ : Type}
open Classical

section
variable {m : RMachine α} {G : Heap α} {K : Addr → List Addr} {T : Var → Option Addr}

theorem RcRef.Is.same' {G G' : Heap α} (s : Same G G') {r : RcRef} {a : Addr} (h : r.Is G' a) : r.Is G a := by
  cases r <;> simpa [RcRef.Is, s.data, s.vec] using h

/-- A child has been removed and stays with its handles. -/
theorem RInv.remove (I : RInv m G K T) {a c : Addr} {G' : Heap α} {ks : List Addr} (hc : c ∈ K a) (hx : ¬ Excl m.env K a) (R : Removed G G' K a c ks)
    (hks : ∀ x ∈ ks, x ∈ K a) (hT : ∃ k, T k = some c) :
    RInv ⟨bumpE (extra G' m.fresh T) G', m.env, m.refs, m.fresh⟩ G' (upd K a ks) T := by
  obtain ⟨s, hup, hI'⟩ := R
  have hcx := I.kidX hc hx
  refine I.change (fun x hd h => h) hI' (I.st.same s) ?_ ?_ ?_ ?_ (Nat.le_of_eq s.nextAddr.symm) ?_ ?_
  · intro b d hd
    have hv : G'.IsVal d ↔ G.IsVal d := by simp only [Heap.IsVal, s.data]
    rw [hv]
    by_cases hb : b = a
    · subst hb; rw [upd_self] at hd; exact I.kv _ d (hks d hd)
    · rw [upd_of_ne _ _ hb] at hd; exact I.kv b d hd
  · intro x hd h b hb
    have hbu := I.inv.reach_used (I.hnd x hd h).used hb
    refine ⟨(s.used b).mpr hbu, upd_of_ne _ _ ?_, by rw [s.data], ?_⟩
    · rintro rfl; exact hx ⟨x, hd, h, hb⟩
    · rw [hup, upd_of_ne]
      rintro rfl; exact hcx ⟨x, hd, h, hb⟩
  · intro k b hk
    exact ⟨(s.used b).mpr (I.tgt k b hk).2.1, fun r hr => hr.same s⟩
  · intro b hb hn
    have hb' := (s.used b).mp hb
    by_cases e : b = c
    · subst e; exact .inr hT
    · rw [hup, upd_of_ne _ _ e] at hn
      exact I.roots b hb' hn
  · intro b h _; rw [← s.live]; exact h
  · intro b d _ _ h; exact ⟨d, by rw [s.data]; exact h⟩

/-- The other handles see the children of one node change. -/
theorem RInv.remove_look {m' : RMachine α} {G' : Heap α} {T' : Var → Option Addr} {a c : Addr} {ks : List Addr} (I : RInv m G K T) (I' : RInv m' G' (upd K a ks) T')
    (s : Same G G') {f : List (RTree (Addr × α)) → List (RTree (Addr × α))} (hf : ∀ ts, DenL G.lab K (K a) ts → DenL G.lab K ks (f ts)) (hks : ∀ x ∈ ks, x ∈ K a)
    {j : Var} (hj : T' j = T j) : m'.look j = (m.look j).map (RTree.modAt a f) := by
  refine I.look_map I' hj fun b hb tt ht => ?_
  refine Den.modAt (K' := upd K a ks) ?_ ht (fun c _ hc => upd_of_ne _ _ hc) (fun c _ => lab_congr (by rw [s.data]))
  intro ts hts
  rw [upd_self]
  exact DenL.keep (m' := m') I s hks (hf ts hts)

/-- A child is returned as a new handle; the handles see `f`. -/
structure Takes (m m' : RMachine α) (f : RTree (Addr × α) → RTree (Addr × α)) : Prop where
  si : SI m'
  fresh : m'.fresh = m.fresh + 1
  refs : ∀ j, j ≠ m.fresh → m'.refs j = m.refs j
  looks : ∀ j, j ≠ m.fresh → m'.look j = (m.look j).map f
  vars : m'.excl.store.vars = m.excl.store.vars
  log : m'.heap.log = m.heap.log

theorem RInv.pop_step (I : RInv m G K T) (B : GInv m) {k : Var} {a c : Addr} {G' : Heap α} {ks : List Addr} {q : RcRef} (hk : T k = some a) (hc : c ∈ K a)
    (R : Removed G G' K a c ks) (hq : q.Is G' c) (hks : ∀ x ∈ ks, x ∈ K a) {f : List (RTree (Addr × α)) → List (RTree (Addr × α))}
    (hf : ∀ ts, DenL G.lab K (K a) ts → DenL G.lab K ks (f ts)) {t : RTree (Addr × α)} (ht : Den G.lab K c t) :
    ∃ m', m.bindRef (bumpE (extra G m.fresh T) G') m.refs (.rc q) = .ok m' (.var m.fresh) ∧ Takes m m' (RTree.modAt a f) ∧ m'.look m.fresh = some t := by
  obtain ⟨ha, hx⟩ := (I.tgt k a hk).2
  have hcx := I.kidX hc hx
  have I1 := I.bindRc (I.inv.used_of_mem hc) hcx (hq.same' R.1)
  have I2 := I1.remove (a := a) (c := c) hc hx R hks ⟨m.fresh, by simp⟩
  have hE : extra G' (m.fresh + 1) (upd T m.fresh (some c)) = extra G m.fresh T := by
    funext x
    simp only [extra, nh_bind (I.tnone (Nat.le_refl _)), R.2.1, upd_apply]
    by_cases e : x = c
    · subst e; simp [I.inv.up_of_mem hc]
    · have : ¬ c = x := fun h => e h.symm
      simp [e, this]
  simp only [hE] at I2
  refine ⟨_, rfl, ⟨⟨_, _, _, I2, ?_⟩, rfl, fun j hj => upd_of_ne _ _ hj, ?_, ?_, ?_⟩, ?_⟩
  · refine B.step (fun a w => ?_) fun x hx => .inl ⟨?_, ?_⟩
    · rw [gcount_bind fun k hk => (I.fr k hk).2]; simp [isGuard]
    · rw [I.heap]; show G.live x = true; rw [← R.1.live]; exact hx
    · rw [I.heap]; show G'.borrow x = G.borrow x; rw [R.1.borrow]
  · intro j hj
    exact I.remove_look (c := c) I2 R.1 hf hks (upd_of_ne _ _ hj)
  · rw [I.store_same I2 rfl]
    intro x hd h b hb
    refine ⟨upd_of_ne _ _ ?_, by rw [R.1.data]⟩
    rintro rfl; exact hx ⟨x, hd, h, hb⟩
  · rw [I.heap]; exact R.1.log
  · refine I2.look_of (by simp) (ht.congr fun b hb => ⟨upd_of_ne _ _ ?_, lab_congr (by rw [R.1.data])⟩)
    rintro rfl
    exact I.inv.not_reach_up hc hb

theorem si_popFront (hm : SI m) {k : Var} {t c : RTree (Addr × α)} (hk : m.look k = some t) (hg : ∀ w, ¬ m.Guarded t.data.1 w) (hc : t.kids.head? = some c) :
    ∃ m', rstep m (.popFront k) = .ok m' (.var m.fresh) ∧ Takes m m' (RTree.modAt t.data.1 List.tail) ∧ m'.look m.fresh = some c := by
  obtain ⟨G, K, T, I, B⟩ := hm
  obtain ⟨a, h1, h2⟩ := I.look_iff.mp hk
  obtain ⟨ha, hx⟩ := (I.tgt k a h1).2
  rw [h2.root] at hg ⊢
  cases t with
  | node x ts =>
    simp only [Den_node] at h2
    cases ts with
    | nil => simp at hc
    | cons c0 ts =>
      simp at hc; subst hc
      cases hK : K a with
      | nil => rw [hK] at h2; simp at h2
      | cons b bs =>
        rw [hK] at h2
        simp only [DenL_cons] at h2
        have hb : b ∈ K a := by rw [hK]; simp
        obtain ⟨r, h3, h4⟩ := I.ref h1
        obtain ⟨q, G', e1, e2, R⟩ := popFrontRc_ok (Z := fun _ => false) (e := extra G m.fresh T) I.inv I.st h4 (B.free I ha hg) hK (I.kv a b hb)
        obtain ⟨m', e3, A, e4⟩ := I.pop_step B h1 hb R e2 (f := List.tail) (fun y hy => by rw [hK]; simp [hy])
          (fun us hus => by rw [hK] at hus; cases us <;> simp_all) h2.2.1
        refine ⟨m', ?_, A, e4⟩
        have e1' : popFrontRc r m.heap = .ok (some q) (bumpE (extra G m.fresh T) G') := by rw [I.heap]; exact e1
        simp only [rstep, RMachine.onRc, h3, RMachine.run, e1', RMachine.retRc]
        exact e3

theorem si_popBack (hm : SI m) {k : Var} {t c : RTree (Addr × α)} (hk : m.look k = some t) (hg : ∀ w, ¬ m.Guarded t.data.1 w) (hc : t.kids.getLast? = some c) :
    ∃ m', rstep m (.popBack k) = .ok m' (.var m.fresh) ∧ Takes m m' (RTree.modAt t.data.1 List.dropLast) ∧ m'.look m.fresh = some c := by
  obtain ⟨G, K, T, I, B⟩ := hm
  obtain ⟨a, h1, h2⟩ := I.look_iff.mp hk
  obtain ⟨ha, hx⟩ := (I.tgt k a h1).2
  rw [h2.root] at hg ⊢
  cases t with
  | node x ts =>
    simp only [Den_node] at h2
    have hlen := h2.2.len
    rw [RTree.kids_node] at hc
    have hts : ts = ts.dropLast ++ [c] := (List.dropLast_append_getLast? c hc).symm
    have hne : K a ≠ [] := by
      intro h; rw [h, hts] at hlen; simp at hlen
    obtain ⟨bs, b, hK⟩ : ∃ bs b, K a = bs ++ [b] := ⟨_, _, (List.dropLast_append_getLast hne).symm⟩
    have hd := h2.2
    have hsp : ∀ us, DenL G.lab K (K a) us → DenL G.lab K bs us.dropLast ∧ ∀ u, us.getLast? = some u → Den G.lab K b u := by
      intro us hus
      rw [hK] at hus
      obtain ⟨us1, us2, e, g1, g2⟩ := hus.split
      cases us2 with
      | nil => simp at g2
      | cons u us2 =>
        simp only [DenL_cons] at g2
        have : us2 = [] := by cases us2 with
          | nil => rfl
          | cons v us2 => simp at g2
        subst this; subst e
        refine ⟨by simpa using g1, fun v hv => ?_⟩
        simp at hv; subst hv; exact g2.1
    have hb : b ∈ K a := by rw [hK]; simp
    obtain ⟨r, h3, h4⟩ := I.ref h1
    obtain ⟨q, G', e1, e2, R⟩ := popBackRc_ok (Z := fun _ => false) (e := extra G m.fresh T) I.inv I.st h4 (B.free I ha hg) hK (I.kv a b hb)
    obtain ⟨m', e3, A, e4⟩ := I.pop_step B h1 hb R e2 (f := List.dropLast) (fun y hy => by rw [hK]; simp [hy])
      (fun us hus => (hsp us hus).1) ((hsp ts hd).2 c hc)
    refine ⟨m', ?_, A, e4⟩
    have e1' : popBackRc r m.heap = .ok (some q) (bumpE (extra G m.fresh T) G') := by rw [I.heap]; exact e1
    simp only [rstep, RMachine.onRc, h3, RMachine.run, e1', RMachine.retRc]
    exact e3

theorem si_popFront_none (hm : SI m) {k : Var} {t : RTree (Addr × α)} (hk : m.look k = some t) (hg : ∀ w, ¬ m.Guarded t.data.1 w) (hc : t.kids = []) :
    rstep m (.popFront k) = .ok m .none := by
  obtain ⟨G, K, T, I, B⟩ := hm
  obtain ⟨a, h1, h2⟩ := I.look_iff.mp hk
  obtain ⟨ha, hx⟩ := (I.tgt k a h1).2
  rw [h2.root] at hg
  cases t with
  | node x ts =>
    simp only [Den_node] at h2
    rw [RTree.kids_node] at hc
    have hK : K a = [] := by have := h2.2.len; rw [hc] at this; exact List.length_eq_zero_iff.mp this
    obtain ⟨r, h3, h4⟩ := I.ref h1
    have e1 : popFrontRc r m.heap = .ok none m.heap := by rw [I.heap]; exact popFrontRc_nil I.inv h4 ha (B.free I ha hg) hK
    simp only [rstep, RMachine.onRc, h3, RMachine.run, e1, RMachine.retRc]

theorem si_popBack_none (hm : SI m) {k : Var} {t : RTree (Addr × α)} (hk : m.look k = some t) (hg : ∀ w, ¬ m.Guarded t.data.1 w) (hc : t.kids = []) :
    rstep m (.popBack k) = .ok m .none := by
  obtain ⟨G, K, T, I, B⟩ := hm
  obtain ⟨a, h1, h2⟩ := I.look_iff.mp hk
  obtain ⟨ha, hx⟩ := (I.tgt k a h1).2
  rw [h2.root] at hg
  cases t with
  | node x ts =>
    simp only [Den_node] at h2
    rw [RTree.kids_node] at hc
    have hK : K a = [] := by have := h2.2.len; rw [hc] at this; exact List.length_eq_zero_iff.mp this
    obtain ⟨r, h3, h4⟩ := I.ref h1
    have e1 : popBackRc r m.heap = .ok none m.heap := by rw [I.heap]; exact popBackRc_nil I.inv h4 ha (B.free I ha hg) hK
    simp only [rstep, RMachine.onRc, h3, RMachine.run, e1, RMachine.retRc]

/-! ### Detaching -/

/-- The variables stay; the handles see `f`. -/
structure Edits (m m' : RMachine α) (f : RTree (Addr × α) → RTree (Addr × α)) (lg : List α) : Prop where
  si : SI m'
  refs : m'.refs = m.refs
  looks : ∀ j, m'.look j = (m.look j).map f
  store : m'.excl.store = m.excl.store.drop lg

theorem si_detach (hm : SI m) {k : Var} {a : Addr} (hk : m.nodeOf k = some a) (hg : ∀ w, ¬ m.Guarded a w) (hp : m.HasParent a) :
    ∃ m', rstep m (.detach k) = .ok m' .unit ∧ Edits m m' (RTree.sibAt a fun _ => []) [] := by
  obtain ⟨G, K, T, I, B⟩ := hm
  rw [I.nodeOf] at hk
  obtain ⟨ha, hx⟩ := (I.tgt k a hk).2
  rw [I.hasParent ha hx] at hp
  obtain ⟨u, hu⟩ := Option.ne_none_iff_exists'.mp hp
  have hmem := I.inv.mem_iff.mpr ⟨ha, hu⟩
  obtain ⟨hu1, hu2⟩ := I.shared_parent hmem hx
  obtain ⟨l, q, hK⟩ := List.append_of_mem hmem
  have hb := B.free I ha hg
  have hv := I.isV hk
  obtain ⟨r, h3, h4⟩ := I.ref hk
  -- the code
  obtain ⟨H', e1, R⟩ := detach_ok (h := bumpE (extra G m.fresh T) (G.bor a (-1))) ((I.inv.bor a (-1)).over _ _) hK hv
  obtain ⟨h', f1, f2, f3, f4⟩ := same_over R.1
  have f5 : H' = bumpE (extra G m.fresh T) h' := by
    subst f1
    refine heap_ext rfl rfl rfl rfl rfl rfl rfl rfl ?_ rfl ?_ rfl rfl rfl
    · funext x; simp [bumpZ, Heap.over, f2.count]
    · simp only [bumpZ, Heap.over, f2.vec]
  have hS1 : SInv h' := (I.bor a (-1)).st.same f2
  have ha1 : h'.Used a := (f2.used a).mpr ha
  have hv1 : h'.IsVal a := by unfold Heap.IsVal at hv ⊢; rw [f2.data]; exact hv
  obtain ⟨p, hp1, e2⟩ := intoRc_ok (Z := fun _ => false) (e := extra G m.fresh T) hS1 ha1 hv1
  have hne : extra G m.fresh T a ≠ 0 := by
    have : nh m.fresh T a ≠ 0 := nh_pos.mpr ⟨k, I.lt hk, hk⟩
    simp [extra, hu, this]
  have e3 : dropHandle p (bumpE (extra G m.fresh T) h') = .ok () (bumpE (upd (extra G m.fresh T) a (extra G m.fresh T a - 1)) h') := by
    simp only [dropHandle, M.fuelled_apply]
    exact dropRc_more hS1 ha1 rfl hp1 hne _
  -- seen without the borrow
  have s : Same G (h'.bor a 0) := by
    have h2 := f2.bor a 0
    rw [bor_bor, bor_self hb] at h2
    exact h2
  have R' : Removed G (h'.bor a 0) K u a (l ++ q) := by
    refine ⟨s, ?_, ?_⟩
    · show h'.up = _
      rw [f3, R.2.1]; rfl
    · have h5 := R.2.2
      rw [f1] at h5
      exact h5.unover.bor a 0
  have I2 := I.remove hmem hu2 R' (by intro y hy; rw [hK]; simp at hy ⊢; grind) ⟨k, hk⟩
  have hE : extra (h'.bor a 0) m.fresh T = upd (extra G m.fresh T) a (extra G m.fresh T a - 1) := by
    funext x
    simp only [extra, R'.2.1, upd_apply]
    by_cases e : x = a
    · subst e; simp [hu]
    · simp [e]
  rw [hE] at I2
  have e4 : detachRc r m.heap = .ok () (bumpE (upd (extra G m.fresh T) a (extra G m.fresh T a - 1)) (h'.bor a 0)) := by
    rw [I.heap]
    refine withMut_ok (H' := bumpE (upd (extra G m.fresh T) a (extra G m.fresh T a - 1)) h') h4 ha hb ?_ ha1.1
    simp only [M.bind_apply, e1, Res.bind_ok, f5, e2, e3]
  refine ⟨_, ?_, ⟨⟨_, _, _, I2, ?_⟩, rfl, ?_, ?_⟩⟩
  · simp only [rstep, RMachine.call, RMachine.onRc, h3, RMachine.run, e4]
  · refine B.step (fun _ _ => rfl) fun x hx => .inl ⟨?_, ?_⟩
    · rw [I.heap]; show G.live x = true; rw [← s.live]; exact hx
    · rw [I.heap]; show (h'.bor a 0).borrow x = G.borrow x; rw [s.borrow]
  · intro j
    refine I.insert_look (u := u) (s := a) (l := l) (r := q) (cn := []) (y := 0) (t := 0) (m' := ⟨_, m.env, m.refs, m.fresh⟩) (G' := h'.bor a 0) ?_ s hu2 hK (fun t ht => by simp) j
    simpa using I2
  · have := I.store_same I2 rfl (fun x hd h b hb => ?_)
    · rw [this]
      simp only [Store.drop, List.append_nil]
      simp only [Machine.store, Store.mk.injEq, true_and]
      refine ⟨rfl, ?_⟩
      show (h'.bor a 0).log = m.heap.log
      rw [I.heap]; exact s.log
    · refine ⟨upd_of_ne _ _ ?_, by rw [s.data]⟩
      rintro rfl; exact hu2 ⟨x, hd, h, hb⟩

/-- `detach` of a root panics; nothing changes. -/
theorem si_detach_root (hm : SI m) {k : Var} {a : Addr} (hk : m.nodeOf k = some a) (hg : ∀ w, ¬ m.Guarded a w) (hp : ¬ m.HasParent a) :
    rstep m (.detach k) = .panic m := by
  obtain ⟨G, K, T, I, B⟩ := hm
  rw [I.nodeOf] at hk
  obtain ⟨ha, hx⟩ := (I.tgt k a hk).2
  rw [I.hasParent ha hx] at hp
  have hu : G.up a = none := by simpa using hp
  obtain ⟨r, h3, h4⟩ := I.ref hk
  have hb := B.free I ha hg
  have e1 : detach a (bumpE (extra G m.fresh T) (G.bor a (-1))) = .err .panic (bumpE (extra G m.fresh T) (G.bor a (-1))) := by
    have hl : (bumpE (extra G m.fresh T) (G.bor a (-1))).live a = true := ha.1
    have hu' : (bumpE (extra G m.fresh T) (G.bor a (-1))).up a = none := hu
    simp [detach, getUp, rd, hl, hu', unwrap, M.throw]
  have e2 : detachRc r m.heap = .err .panic m.heap := by
    rw [I.heap]
    refine (withMut_panic (H' := bumpE (extra G m.fresh T) (G.bor a (-1))) h4 ha hb ?_ ha.1).trans ?_
    · simp only [M.bind_apply, e1, Res.bind_err]
    · congr 1
      show bumpE _ ((G.bor a (-1)).bor a 0) = _
      rw [bor_bor, bor_self hb]
  simp only [rstep, RMachine.call, RMachine.onRc, h3, RMachine.run, e2]

/-! ### Changing a data item -/

/-- The node gets another data item. -/
def Data.put (d : α) : Data α → Data α
  | .scattered _ o => .scattered d o
  | .piled _ v => .piled d v
  | x => x

theorem put_same {D : Data α} {d : α} (h : D.val?.isSome) : SameOwner D (D.put d) := by
  cases D <;> simp [Data.val?] at h <;> rfl

theorem put_val {D : Data α} {d : α} (h : D.val?.isSome) : (D.put d).val? = some d := by
  cases D <;> simp [Data.val?] at h <;> rfl

theorem dataMutSet_eq {h : Heap α} {a : Addr} {old d : α} (hl : h.live a = true) (hv : h.val a = some old) :
    dataMutSet a d h = .ok () { h with data := upd h.data a ((h.data a).put d), log := h.log ++ [old] } := by
  unfold Heap.val at hv
  cases hd : h.data a with
  | none => simp [hd, Data.val?] at hv
  | scatteredNone o => simp [hd, Data.val?] at hv
  | piledNone o => simp [hd, Data.val?] at hv
  | scattered d' o =>
    simp [hd, Data.val?] at hv; subst hv
    simp [dataMutSet, hl, hd, logDrop, Data.put]
  | piled d' o =>
    simp [hd, Data.val?] at hv; subst hv
    simp [dataMutSet, hl, hd, logDrop, Data.put]

/-- Memory after the assignment. -/
def Heap.put (h : Heap α) (a : Addr) (d : α) (lg : List α) : Heap α := { h with data := upd h.data a ((h.data a).put d), log := h.log ++ lg }

theorem RInv.put (I : RInv m G K T) {a : Addr} {old : α} (ha : G.Used a) (hx : ¬ Excl m.env K a) (hv : G.val a = some old) (d : α) (lg : List α) :
    RInv ⟨m.heap.put a d lg, m.env, m.refs, m.fresh⟩ (G.put a d lg) K T := by
  have hs : (G.data a).val?.isSome := by unfold Heap.val at hv; rw [hv]; rfl
  obtain ⟨g1, g2, g3⟩ := setData_inv I.inv I.st ha (d := (G.data a).put d) (put_same hs) lg
  have hval : ∀ x, (G.put a d lg).val x = if x = a then some d else G.val x := by
    intro x
    simp only [Heap.put, Heap.val, upd_apply]
    split
    · exact put_val hs
    · rfl
  have hdata : ∀ {x}, x ≠ a → (G.put a d lg).data x = G.data x := fun h => upd_of_ne _ _ h
  have hE : extra (G.put a d lg) m.fresh T = extra G m.fresh T := rfl
  have hh : m.heap.put a d lg = bumpE (extra (G.put a d lg) m.fresh T) (G.put a d lg) := by rw [hE, I.heap]; rfl
  rw [hh]
  refine I.change (fun x hd h => h) g1 g2 ?_ ?_ ?_ ?_ (Nat.le_refl _) (fun a h _ => h) ?_
  · intro b c hc
    have := I.kv b c hc
    rw [Heap.isVal_iff] at this ⊢
    show ∃ e, (G.put a d lg).val c = some e
    rw [hval]
    split
    · exact ⟨d, rfl⟩
    · exact this
  · intro x hd h b hb
    have hbu := I.inv.reach_used (I.hnd x hd h).used hb
    exact ⟨(g3 b).mpr hbu, rfl, hdata (by rintro rfl; exact hx ⟨x, hd, h, hb⟩), rfl⟩
  · intro k b hk
    refine ⟨(g3 b).mpr (I.tgt k b hk).2.1, fun r hr => ?_⟩
    by_cases e : b = a
    · subst e
      cases r with
      | scattered o =>
        obtain ⟨h1, d', h2⟩ := hr
        exact ⟨h1, d, by simp [Heap.put, h2, Data.put]⟩
      | piled v i =>
        obtain ⟨nv, d', h1, h2, h3, h4⟩ := hr
        exact ⟨nv, d, h1, h2, h3, by simp [Heap.put, h4, Data.put]⟩
    · cases r with
      | scattered o => exact ⟨hr.1, by rw [hdata e]; exact hr.2⟩
      | piled v i =>
        obtain ⟨nv, d', h1, h2, h3, h4⟩ := hr
        exact ⟨nv, d', h1, h2, h3, by rw [hdata e]; exact h4⟩
  · intro b hb hn
    exact I.roots b ((g3 b).mp hb) hn
  · intro b d' _ _ h
    by_cases e : b = a
    · subst e; exact ⟨d, by simp [Heap.put, h, Data.put]⟩
    · exact ⟨d', by rw [hdata e]; exact h⟩

theorem RInv.put_edits (I : RInv m G K T) (B : GInv m) {k : Var} {a : Addr} {old : α} (hk : T k = some a) (hv : G.val a = some old) (d : α) :
    Edits m ⟨m.heap.put a d [old], m.env, m.refs, m.fresh⟩ (RTree.setAt a d) [old] := by
  obtain ⟨ha, hx⟩ := (I.tgt k a hk).2
  have I' := I.put ha hx hv d [old]
  have hs : (G.data a).val?.isSome := by unfold Heap.val at hv; rw [hv]; rfl
  refine ⟨⟨_, _, _, I', ?_⟩, rfl, ?_, ?_⟩
  · exact B.step (fun _ _ => rfl) fun x hx => .inl ⟨hx, rfl⟩
  · intro j
    refine I.look_map I' rfl fun b hb t ht => Den.setAt ?_ ?_ ht
    · simp [Heap.lab, Heap.val, Heap.put, put_val hs]
    · intro b hb; exact lab_congr (upd_of_ne _ _ hb)
  · have := I.store_same I' rfl (fun x hd h b hb => ?_)
    · rw [this]
      simp only [Store.drop, Machine.store, Store.mk.injEq, true_and]
      refine ⟨rfl, ?_⟩
      show G.log ++ [old] = m.heap.log ++ [old]
      rw [I.heap]; rfl
    · exact ⟨rfl, upd_of_ne _ _ (by rintro rfl; exact hx ⟨x, hd, h, hb⟩)⟩

theorem si_setData (hm : SI m) {k : Var} {t : RTree (Addr × α)} (d : α) (hk : m.look k = some t) (hg : ∀ w, ¬ m.Guarded t.data.1 w) :
    ∃ m', rstep m (.setData k d) = .ok m' .unit ∧ Edits m m' (RTree.setAt t.data.1 d) [t.data.2] := by
  obtain ⟨G, K, T, I, B⟩ := hm
  obtain ⟨a, h1, h2⟩ := I.look_iff.mp hk
  obtain ⟨ha, hx⟩ := (I.tgt k a h1).2
  have hv : G.val a = some t.data.2 := by
    cases t with
    | node x ts => simp only [Den_node] at h2; exact (Heap.lab_some.mp h2.1).2
  rw [h2.root] at hg ⊢
  have hb := B.free I ha hg
  refine ⟨_, ?_, I.put_edits B h1 hv d⟩
  obtain ⟨r, h3, h4⟩ := I.ref h1
  have e1 : withMut r (fun a => dataMutSet a d) m.heap = .ok () (m.heap.put a d [t.data.2]) := by
    rw [I.heap]
    refine (withMut_ok (H' := bumpE (extra G m.fresh T) ((G.put a d [t.data.2]).bor a (-1))) h4 ha hb (dataMutSet_eq (h := bumpE (extra G m.fresh T) (G.bor a (-1))) ha.1 hv) ha.1).trans ?_
    congr 1
    show bumpE _ (((G.put a d [t.data.2]).bor a (-1)).bor a 0) = _
    rw [bor_bor, bor_self (h := G.put a d [t.data.2]) hb]
    rfl
  simp only [rstep, RMachine.call, RMachine.onRc, h3, RMachine.run, e1]
end
end Trees
