import Verif.Proof.RcAttach
/-
Calls through handles: attaching trees.
-/
namespace Trees
set_option linter.unusedSimpArgs false
set_option linter.unusedVariables false
variable {α β γ : Type}
open Classical

/-- The state of a well-behaved client program with shared nodes. -/
def SI (m : RMachine α) : Prop := ∃ G K T, RInv m G K T ∧ GInv m

section
variable {m : RMachine α} {G : Heap α} {K : Addr → List Addr} {T : Var → Option Addr}

theorem RInv.lookTree_iff (I : RInv m G K T) {y : Var} {t : RTree (Addr × α)} :
    m.lookTree y = some t ↔ ∃ r, m.env y = some (.tree r) ∧ Den G.lab K r t := by
  have key : ∀ r t', m.env y = some (.tree r) → Den G.lab K r t' → m.lookTree y = some t' := by
    intro r t' h hd
    have ho := I.hnd y _ h
    have h4 : m.heap.Used r := I.used'.mpr ho.used
    have h5 : Den m.heap.lab K r t' := by rw [I.heap]; exact hd
    simp only [RMachine.lookTree, h, readNode_ok I.inv' h4 h5]
  constructor
  · intro h
    have h' := h
    simp only [RMachine.lookTree] at h'
    split at h'
    · rename_i r hr
      have ho := I.hnd y _ hr
      obtain ⟨t', ht⟩ := exists_lab I.inv I.kv ho.used ho.kind
      rw [key r t' hr ht] at h; cases h
      exact ⟨r, hr, ht⟩
    · simp at h'
  · rintro ⟨r, h1, h2⟩; exact key r t h1 h2

theorem exists_labL {h : Heap α} {K : Addr → List Addr} (hI : Inv h K) (kv : ∀ a c, c ∈ K a → h.IsVal c) {a : Addr} (ha : h.Used a) :
    ∃ ts, DenL h.lab K (K a) ts := hI.exists_den h.lab (fun a c hc => lab_isSome.mpr (kv a c hc)) ha

theorem RInv.lookForest_iff (I : RInv m G K T) {y : Var} {ts : List (RTree (Addr × α))} :
    m.lookForest y = some ts ↔ ∃ r, m.env y = some (.forest r) ∧ DenL G.lab K (K r) ts := by
  have key : ∀ r ts', m.env y = some (.forest r) → DenL G.lab K (K r) ts' → m.lookForest y = some ts' := by
    intro r ts' h hd
    have ho := I.hnd y _ h
    have h4 : m.heap.Used r := I.used'.mpr ho.used
    have h5 : DenL m.heap.lab K (K r) ts' := by rw [I.heap]; exact hd
    have h6 : (do readMany readNode (← children r) : M α _) m.heap = .ok ts' m.heap := by
      simp only [M.bind_apply, children_ok I.inv' h4, Res.bind_ok]
      exact readMany_ok (R := Den m.heap.lab K) (fun c hc t ht => readNode_ok I.inv' (I.inv'.used_of_mem hc) ht) (DenL_forall₂.mp h5)
    simp only [RMachine.lookForest, h, h6]
  constructor
  · intro h
    have h' := h
    simp only [RMachine.lookForest] at h'
    split at h'
    · rename_i r hr
      have ho := I.hnd y _ hr
      obtain ⟨t', ht⟩ := exists_labL I.inv I.kv ho.used
      rw [key r t' hr ht] at h; cases h
      exact ⟨r, hr, ht⟩
    · simp at h'
  · rintro ⟨r, h1, h2⟩; exact key r ts h1 h2

/-- Only one exclusive variable changes. -/
theorem RInv.store_take {m' : RMachine α} {G' : Heap α} {K' T'} (I : RInv m G K T) (I' : RInv m' G' K' T') {y : Var} (he : m'.env = upd m.env y none)
    (hf : m'.fresh = m.fresh) (hl : G'.log = G.log)
    (h : ∀ x hd, x ≠ y → m.env x = some hd → ∀ b, Reach K hd.addr b → K' b = K b ∧ G'.data b = G.data b) : m'.excl.store = m.excl.store.set y none := by
  simp only [Machine.store, Store.set, Store.mk.injEq]
  refine ⟨?_, hf, ?_⟩
  · funext x
    by_cases hx : x = y
    · subst hx
      have : m'.excl.env x = none := by show m'.env x = none; rw [he]; simp
      simp [Machine.view, this]
    · rw [if_neg hx]
      exact I.view_congr I' (by rw [he, upd_of_ne _ _ hx]) (fun hd => h x hd hx)
  · show m'.heap.log = m.heap.log
    rw [I.heap, I'.heap]; exact hl

/-- No exclusive variable changes. -/
theorem RInv.store_same {m' : RMachine α} {G' : Heap α} {K' T'} (I : RInv m G K T) (I' : RInv m' G' K' T') (he : m'.env = m.env)
    (h : ∀ x hd, m.env x = some hd → ∀ b, Reach K hd.addr b → K' b = K b ∧ G'.data b = G.data b) :
    m'.excl.store = ⟨m.excl.store.vars, m'.fresh, G'.log⟩ := by
  simp only [Machine.store, Store.mk.injEq]
  refine ⟨?_, rfl, ?_⟩
  · funext x
    exact I.view_congr I' (by rw [he]) (fun hd => h x hd)
  · show m'.heap.log = _
    rw [I'.heap]; rfl

/-- A tree is attached below node `u` by a call through a handle to node `a`. -/
theorem RInv.attach_step (I : RInv m G K T) (B : GInv m) {k y : Var} {a u t : Addr} {ks : List Addr} {f : Addr → M α Unit} (hk : T k = some a)
    (hg : ∀ w, ¬ m.Guarded a w) (hu : G.Used u) (hx : ¬ Excl m.env K u) (hy : m.env y = some (.tree t)) (hks : ∀ c, c ∈ ks ↔ c = t ∨ c ∈ K u)
    (hf : ∀ h, Attach h K u t → ∃ h', f a h = .ok () h' ∧ Same h h' ∧ Inv h' (upd K u ks)) :
    ∃ m' G', m.takeTree y (fun t => m.consume k y fun r => withMutArg r t f) = .ok m' .unit ∧
      RInv m' G' (upd K u ks) T ∧ GInv m' ∧ Same G G' ∧ m'.refs = m.refs ∧ m'.excl.store = m.excl.store.set y none := by
  obtain ⟨r, h1, h2⟩ := I.ref hk
  have ha := (I.tgt k a hk).2.1
  obtain ⟨G', e1, e2, e3⟩ := I.attach_call (f := f) ha h2 (B.free I ha hg) hu hx hy hks hf
  refine ⟨_, G', ?_, e3, ?_, e2, rfl, ?_⟩
  · simp only [RMachine.takeTree, hy, RMachine.consume, RMachine.onRc, h1, RMachine.run, e1]
  · refine B.step (fun _ _ => rfl) fun b hb => .inl ⟨?_, ?_⟩
    · rw [I.heap]; show G.live b = true; rw [← e2.live]; exact hb
    · rw [I.heap]; show G'.borrow b = G.borrow b; rw [e2.borrow]
  · refine I.store_take e3 rfl rfl e2.log ?_
    intro x hd hxy h b hb
    refine ⟨upd_of_ne _ _ ?_, by rw [e2.data]⟩
    rintro rfl; exact hx ⟨x, hd, h, hb⟩

/-- The effect seen through the handles. -/
theorem RInv.attach_look {m' : RMachine α} {G' : Heap α} {u t : Addr} {y : Var} {ks : List Addr} (I : RInv m G K T) (I' : RInv m' G' (upd K u ks) T)
    (s : Same G G') (hx : ¬ Excl m.env K u) (hy : m.env y = some (.tree t)) {tt : RTree (Addr × α)} (hd : Den G.lab K t tt) : Den G'.lab (upd K u ks) t tt := by
  refine hd.congr fun b hb => ⟨upd_of_ne _ _ ?_, lab_congr (by rw [s.data])⟩
  rintro rfl; exact hx ⟨y, _, hy, hb⟩

theorem DenL.keep {m' : RMachine α} {G' : Heap α} {u : Addr} {ks : List Addr} (I : RInv m G K T) (s : Same G G') {cs : List Addr} (hcs : ∀ c ∈ cs, c ∈ K u)
    {ts : List (RTree (Addr × α))} (hd : DenL G.lab K cs ts) : DenL G'.lab (upd K u ks) cs ts := by
  refine hd.congr fun c hc b hb => ⟨upd_of_ne _ _ ?_, lab_congr (by rw [s.data])⟩
  rintro rfl
  exact I.inv.not_reach_up (hcs c hc) hb

theorem si_pushBack (hm : SI m) {k y : Var} {a : Addr} {t : RTree (Addr × α)} (hk : m.nodeOf k = some a) (hy : m.lookTree y = some t)
    (hg : ∀ w, ¬ m.Guarded a w) :
    ∃ m', rstep m (.pushBack k y) = .ok m' .unit ∧ SI m' ∧ m'.refs = m.refs ∧ m'.excl.store = m.excl.store.set y none ∧
      ∀ j, m'.look j = (m.look j).map (RTree.modAt a fun ts => ts ++ [t]) := by
  obtain ⟨G, K, T, I, B⟩ := hm
  rw [I.nodeOf] at hk
  obtain ⟨r, hy, hd⟩ := I.lookTree_iff.mp hy
  obtain ⟨ha, hx⟩ := (I.tgt k a hk).2
  obtain ⟨m', G', e1, I', B', s, e2, e3⟩ := I.attach_step (ks := K a ++ [r]) (f := fun a => pushBack a r) B hk hg ha hx hy
    (by intro c; simp [or_comm]) (fun h A => pushBack_ok A)
  refine ⟨m', ?_, ⟨G', _, T, I', B'⟩, e2, e3, fun j => I.look_map I' rfl fun b hb tt ht => ?_⟩
  · simp only [RMachine.takeTree, hy] at e1
    simpa only [rstep, RMachine.takeTree, hy] using e1
  · refine Den.modAt (K' := upd K a (K a ++ [r])) ?_ ht (fun c _ hc => upd_of_ne _ _ hc) (fun c _ => lab_congr (by rw [s.data]))
    intro ts hts
    rw [upd_self]
    exact (DenL.keep (m' := m') I s (fun c h => h) hts).append (by simp [I.attach_look I' s hx hy hd])

theorem si_pushFront (hm : SI m) {k y : Var} {a : Addr} {t : RTree (Addr × α)} (hk : m.nodeOf k = some a) (hy : m.lookTree y = some t)
    (hg : ∀ w, ¬ m.Guarded a w) :
    ∃ m', rstep m (.pushFront k y) = .ok m' .unit ∧ SI m' ∧ m'.refs = m.refs ∧ m'.excl.store = m.excl.store.set y none ∧
      ∀ j, m'.look j = (m.look j).map (RTree.modAt a fun ts => t :: ts) := by
  obtain ⟨G, K, T, I, B⟩ := hm
  rw [I.nodeOf] at hk
  obtain ⟨r, hy, hd⟩ := I.lookTree_iff.mp hy
  obtain ⟨ha, hx⟩ := (I.tgt k a hk).2
  obtain ⟨m', G', e1, I', B', s, e2, e3⟩ := I.attach_step (ks := r :: K a) (f := fun a => pushFront a r) B hk hg ha hx hy
    (by intro c; simp) (fun h A => pushFront_ok A)
  refine ⟨m', ?_, ⟨G', _, T, I', B'⟩, e2, e3, fun j => I.look_map I' rfl fun b hb tt ht => ?_⟩
  · simp only [RMachine.takeTree, hy] at e1
    simpa only [rstep, RMachine.takeTree, hy] using e1
  · refine Den.modAt (K' := upd K a (r :: K a)) ?_ ht (fun c _ hc => upd_of_ne _ _ hc) (fun c _ => lab_congr (by rw [s.data]))
    intro ts hts
    rw [upd_self, DenL_cons]
    exact ⟨I.attach_look I' s hx hy hd, DenL.keep (m' := m') I s (fun c h => h) hts⟩

mutual
theorem sibAt_id {s : Addr} {f : RTree (Addr × α) → List (RTree (Addr × α))} : ∀ (t : RTree (Addr × α)), (∀ x ∈ RTree.preL t.kids, x.1 ≠ s) → t.sibAt s f = t
  | .node x ts, h => by simp only [RTree.sibAt]; rw [sibAtL_id ts h]
theorem sibAtL_id {s : Addr} {f : RTree (Addr × α) → List (RTree (Addr × α))} : ∀ (ts : List (RTree (Addr × α))), (∀ x ∈ RTree.preL ts, x.1 ≠ s) → RTree.sibAtL s f ts = ts
  | [], _ => rfl
  | t :: ts, h => by
    have h1 : t.data.1 ≠ s := h t.data (by cases t; simp)
    simp only [RTree.sibAtL, if_neg h1]
    rw [sibAt_id t fun x hx => h x (by cases t; simp at hx ⊢; exact .inr (.inl hx)), sibAtL_id ts fun x hx => h x (by simp [hx])]
end

/-- A node does not occur below its descendants. -/
theorem sibAt_below {f : RTree (Addr × α) → List (RTree (Addr × α))} (hI : Inv G K) {s b : Addr} (hr : Reach K s b) {t : RTree (Addr × α)} (hd : Den G.lab K b t) :
    t.sibAt s f = t := by
  refine sibAt_id t fun x hx e => ?_
  cases t with
  | node d ts =>
    simp only [Den_node] at hd
    obtain ⟨c, hc, h⟩ := denL_pre_reach hd.2 x hx
    rw [e] at h
    exact hI.not_reach_up hc (h.trans hr)

theorem split_unique {l l' r r' : List Addr} {s : Addr} (hn : (l ++ s :: r).Nodup) (h : l ++ s :: r = l' ++ s :: r') : l = l' ∧ r = r' := by
  have h1 : s ∉ l := by
    intro hm; simp [List.nodup_append] at hn; exact (hn.2.2 s hm).1 rfl
  have hn' := hn
  rw [h] at hn'
  have h2 : s ∉ l' := by
    intro hm; simp [List.nodup_append] at hn'; exact (hn'.2.2 s hm).1 rfl
  rcases List.append_eq_append_iff.mp h with ⟨q, e1, e2⟩ | ⟨q, e1, e2⟩
  · cases q with
    | nil => simp at e1 e2; exact ⟨e1.symm, e2⟩
    | cons z q => simp at e2; exact absurd (by rw [e1, ← e2.1]; simp) h2
  · cases q with
    | nil => simp at e1 e2; exact ⟨e1, e2.symm⟩
    | cons z q => simp at e2; exact absurd (by rw [e1, ← e2.1]; simp) h1

/-- The effect of inserting next to node `s`. -/
theorem RInv.insert_look {m' : RMachine α} {G' : Heap α} {u s t : Addr} {y : Var} {l r cn : List Addr} (I : RInv m G K T)
    (I' : RInv m' G' (upd K u (l ++ cn ++ r)) T) (hs : Same G G') (hx : ¬ Excl m.env K u) (hK : K u = l ++ s :: r)
    {f : RTree (Addr × α) → List (RTree (Addr × α))} (hf : ∀ t, Den G.lab K s t → DenL G'.lab (upd K u (l ++ cn ++ r)) cn (f t)) (j : Var) :
    m'.look j = (m.look j).map (RTree.sibAt s f) := by
  have hsu : s ∈ K u := by rw [hK]; simp
  refine I.look_map I' rfl fun b hb tt ht => ?_
  by_cases hr : Reach K s b
  · rw [sibAt_below I.inv hr ht]
    refine ht.congr fun c hc => ⟨upd_of_ne _ _ ?_, lab_congr (by rw [hs.data])⟩
    rintro rfl
    exact I.inv.not_reach_up hsu (hr.trans hc)
  · refine Den.sibAt I.inv ?_ ?_ ?_ ht (I.tgt j b hb).2.1 hr
    · intro p l' r' e
      have hp : p = u := I.inv.eq_of_mem (c := s) (by rw [e]; simp) hsu
      subst hp
      rw [hK] at e
      obtain ⟨e1, e2⟩ := split_unique (by rw [← hK]; exact I.inv.l.nodup p) e
      subst e1 e2
      exact ⟨cn, by rw [upd_self], hf⟩
    · intro p hp _ _
      refine upd_of_ne _ _ ?_
      rintro rfl; exact hp hsu
    · intro p _ _; exact lab_congr (by rw [hs.data])

theorem RInv.shared_parent (I : RInv m G K T) {u a : Addr} (h : a ∈ K u) (hx : ¬ Excl m.env K a) : G.Used u ∧ ¬ Excl m.env K u :=
  ⟨I.inv.used_parent h, fun hu => hx ((Excl.up I.inv I.hnd h).mpr hu)⟩

theorem si_insertPrevSib (hm : SI m) {k y : Var} {a : Addr} {t : RTree (Addr × α)} (hk : m.nodeOf k = some a) (hy : m.lookTree y = some t)
    (hg : ∀ w, ¬ m.Guarded a w) (hup : m.heap.up a ≠ none) :
    ∃ m', rstep m (.insertPrevSib k y) = .ok m' .unit ∧ SI m' ∧ m'.refs = m.refs ∧ m'.excl.store = m.excl.store.set y none ∧
      ∀ j, m'.look j = (m.look j).map (RTree.sibAt a fun s => [t, s]) := by
  obtain ⟨G, K, T, I, B⟩ := hm
  rw [I.nodeOf] at hk
  obtain ⟨r, hy, hd⟩ := I.lookTree_iff.mp hy
  obtain ⟨ha, hx⟩ := (I.tgt k a hk).2
  have hup' : G.up a ≠ none := by rw [I.heap] at hup; exact hup
  obtain ⟨u, hu⟩ := Option.ne_none_iff_exists'.mp hup'
  have hm : a ∈ K u := I.inv.mem_iff.mpr ⟨ha, hu⟩
  obtain ⟨hu1, hu2⟩ := I.shared_parent hm hx
  obtain ⟨l, q, hK⟩ := List.append_of_mem hm
  obtain ⟨m', G', e1, I', B', s, e2, e3⟩ := I.attach_step (ks := l ++ [r, a] ++ q) (f := fun a => insertPrevSib a r) B hk hg hu1 hu2 hy
    (by intro c; rw [hK]; simp; grind) (fun h A => by simpa using insertPrevSib_ok A hK)
  refine ⟨m', ?_, ⟨G', _, T, I', B'⟩, e2, e3, fun j => I.insert_look (y := y) (t := r) I' s hu2 hK ?_ j⟩
  · simp only [RMachine.takeTree, hy] at e1
    simpa only [rstep, RMachine.takeTree, hy] using e1
  · intro t' ht'
    simp only [DenL_cons, DenL_nil, and_true]
    refine ⟨I.attach_look I' s hu2 hy hd, ?_⟩
    have := DenL.keep (m' := m') (ks := l ++ [r, a] ++ q) I s (cs := [a]) (by simpa using hm) (ts := [t']) (by simpa using ht')
    simpa using this

theorem si_insertNextSib (hm : SI m) {k y : Var} {a : Addr} {t : RTree (Addr × α)} (hk : m.nodeOf k = some a) (hy : m.lookTree y = some t)
    (hg : ∀ w, ¬ m.Guarded a w) (hup : m.heap.up a ≠ none) :
    ∃ m', rstep m (.insertNextSib k y) = .ok m' .unit ∧ SI m' ∧ m'.refs = m.refs ∧ m'.excl.store = m.excl.store.set y none ∧
      ∀ j, m'.look j = (m.look j).map (RTree.sibAt a fun s => [s, t]) := by
  obtain ⟨G, K, T, I, B⟩ := hm
  rw [I.nodeOf] at hk
  obtain ⟨r, hy, hd⟩ := I.lookTree_iff.mp hy
  obtain ⟨ha, hx⟩ := (I.tgt k a hk).2
  have hup' : G.up a ≠ none := by rw [I.heap] at hup; exact hup
  obtain ⟨u, hu⟩ := Option.ne_none_iff_exists'.mp hup'
  have hm : a ∈ K u := I.inv.mem_iff.mpr ⟨ha, hu⟩
  obtain ⟨hu1, hu2⟩ := I.shared_parent hm hx
  obtain ⟨l, q, hK⟩ := List.append_of_mem hm
  obtain ⟨m', G', e1, I', B', s, e2, e3⟩ := I.attach_step (ks := l ++ [a, r] ++ q) (f := fun a => insertNextSib a r) B hk hg hu1 hu2 hy
    (by intro c; rw [hK]; simp; grind) (fun h A => by simpa using insertNextSib_ok A hK)
  refine ⟨m', ?_, ⟨G', _, T, I', B'⟩, e2, e3, fun j => I.insert_look (y := y) (t := r) I' s hu2 hK ?_ j⟩
  · simp only [RMachine.takeTree, hy] at e1
    simpa only [rstep, RMachine.takeTree, hy] using e1
  · intro t' ht'
    simp only [DenL_cons, DenL_nil, and_true]
    refine ⟨?_, I.attach_look I' s hu2 hy hd⟩
    have := DenL.keep (m' := m') (ks := l ++ [a, r] ++ q) I s (cs := [a]) (by simpa using hm) (ts := [t']) (by simpa using ht')
    simpa using this


/-! ### Panics -/

theorem RInv.shared_reach (I : RInv m G K T) {k : Var} {a b : Addr} (h : T k = some a) (hr : Reach K a b) : Trees.shared m.env G K b = true :=
  (I.whole.reach hr).trans (I.tshared h)

theorem RInv.keep_look {m' : RMachine α} {G' : Heap α} {K'} (I : RInv m G K T) (I' : RInv m' G' K' T) (hk : Keep (Trees.shared m.env G K) G K G' K') (j : Var) :
    m'.look j = m.look j :=
  I.look_congr I' rfl fun a ha b hb => ⟨hk.kids b (I.shared_reach ha hb), hk.data b (I.shared_reach ha hb)⟩

theorem Keep.bor {P : Addr → Bool} {G' : Heap α} {K'} {a : Addr} {b : Int} (h : Keep P (G.bor a b) K G' K') (ha : a < G.nextAddr) : Keep P G K (G'.bor a (G.borrow a)) K' := by
  refine ⟨h.used, h.kids, h.data, h.up, h.mono.nextAddr, h.mono.nextVec, h.mono.live, ?_, ?_⟩
  · intro x hx
    by_cases e : x = a
    · subst e; simp [Heap.bor]
    · have := h.mono.borrow x hx
      simp only [Heap.bor, upd_of_ne _ _ e] at this ⊢
      exact this
  · intro x hx hx'
    have e : x ≠ a := fun e => by subst e; exact absurd ha (Nat.not_lt.mpr hx)
    have := h.mono.newB x hx hx'
    simp only [Heap.bor, upd_of_ne _ _ e]
    exact this

/-- A call that consumes the value in `y` panics; nothing else happens. -/
def ArgPanics (m : RMachine α) (y : Var) (o : Outcome (RMachine α) α) : Prop :=
  ∃ m' v, o = .panic m' ∧ SI m' ∧ m'.refs = m.refs ∧ (∀ j, m'.look j = m.look j) ∧ m.excl.store.vars y = some v ∧
    m'.excl.store = (m.excl.store.set y none).drop v.post

theorem RInv.consume_conflict (I : RInv m G K T) (B : GInv m) {k y : Var} {a : Addr} {hd : Handle} {w : Bool} {f : Addr → M α Unit} (hk : T k = some a)
    (hg : m.Guarded a w) (hy : m.env y = some hd) (hi : hd.isIter = false) :
    ArgPanics m y (m.consume k y fun r => withMutArg r hd.addr f) := by
  obtain ⟨r, h1, h2⟩ := I.ref hk
  have ha := (I.tgt k a hk).2.1
  obtain ⟨G', K', e1, I', hk', v, e2, e3⟩ := I.dropArg hy hi
  have e4 := I.arg_conflict (f := f) ha h2 (B.conflict I ha hg) e1
  refine ⟨_, v, ?_, ⟨G', K', T, I', ?_⟩, rfl, I.keep_look I' hk', e2, e3⟩
  · simp only [RMachine.consume, RMachine.onRc, h1, RMachine.run, e4]
  · exact B.mono I hk'.mono I'.st (Nat.le_refl _)

theorem RInv.insert_root (I : RInv m G K T) (B : GInv m) {k y : Var} {a t : Addr} {f : Addr → M α Unit} (hk : T k = some a)
    (hg : ∀ w, ¬ m.Guarded a w) (hy : m.env y = some (.tree t))
    (hf : ∀ h h', h.live a = true → h.up a = none → dropRoot t h = .ok () h' → f a h = .err .panic h') (hup : G.up a = none) :
    ArgPanics m y (m.consume k y fun r => withMutArg r t f) := by
  obtain ⟨r, h1, h2⟩ := I.ref hk
  have ha := (I.tgt k a hk).2.1
  have hb := B.free I ha hg
  obtain ⟨G', K', e1, I', hk', v, e2, e3⟩ := (I.bor a (-1)).dropArg (y := y) hy (by simp [Handle.isIter])
  have hE : extra (G.bor a (-1)) m.fresh T = extra G m.fresh T := rfl
  have hl' : G'.live a = true := (hk'.used a (I.tshared hk)).1
  have I'' := I'.bor a 0
  have hst : (⟨m.heap.bor a (-1), m.env, m.refs, m.fresh⟩ : RMachine α).excl.store = m.excl.store := by
    have h := I.store_same (I.bor a (-1)) rfl (fun _ _ _ _ _ => ⟨rfl, rfl⟩)
    have h' := I.store_same I rfl (fun _ _ _ _ _ => ⟨rfl, rfl⟩)
    rw [h, h']; rfl
  rw [hst] at e2 e3
  have hk'' : Keep (Trees.shared m.env G K) G K (G'.bor a 0) K' := by
    have := hk'.bor (I.st.liveB a ha.1)
    rw [hb] at this; exact this
  refine ⟨_, v, ?_, ⟨_, K', T, I'', ?_⟩, rfl, I.keep_look I'' hk'', e2, ?_⟩
  · have e4 : f a (bumpE (extra G m.fresh T) (G.bor a (-1))) = .err .panic (bumpE (extra G m.fresh T) G') := by
      refine hf _ _ ha.1 hup ?_
      have : m.heap.bor a (-1) = bumpE (extra G m.fresh T) (G.bor a (-1)) := by rw [I.heap]; rfl
      rw [← this]; exact e1
    have e5 : withMutArg r t f m.heap = .err .panic ((bumpE (extra G m.fresh T) G').bor a 0) := by
      simp only [withMutArg, I.heap, borrowMut_ok h2 ha hb, finally_, e4, releaseMut_ok (h := bumpE (extra G m.fresh T) G') hl', Res.bind_ok]
    simp only [RMachine.consume, RMachine.onRc, h1, RMachine.run, e5]
    rfl
  · exact B.mono I (G' := G'.bor a 0) hk''.mono I''.st (Nat.le_refl _)
  · refine Eq.trans ?_ e3
    have h := I'.store_same I'' rfl (fun _ _ _ _ _ => ⟨rfl, rfl⟩)
    have h' := I'.store_same I' rfl (fun _ _ _ _ _ => ⟨rfl, rfl⟩)
    exact h.trans h'.symm

theorem insertPrevSib_root {a t : Addr} (h h' : Heap α) (hl : h.live a = true) (hu : h.up a = none) (hd : dropRoot t h = .ok () h') :
    insertPrevSib a t h = .err .panic h' := by
  simp [insertPrevSib, getUp, rd, hl, hu, hd, M.throw]

theorem insertNextSib_root {a t : Addr} (h h' : Heap α) (hl : h.live a = true) (hu : h.up a = none) (hd : dropRoot t h = .ok () h') :
    insertNextSib a t h = .err .panic h' := by
  simp [insertNextSib, getUp, rd, hl, hu, hd, M.throw]


/-! ### Splicing forests -/

theorem Robust.mono {c : M α β} (hc : Robust c) (X : Heap α) : Mono X (c X).heap := by
  have A0 : HRel (⟨fun _ => false, X, fun _ => 0, fun _ => none⟩ : Ctx α) X X := by
    refine ⟨?_, ?_, ?_, ?_, ?_, ?_, ?_, ?_, ?_, ?_, rfl, rfl, rfl, ?_, ?_, ?_, ?_, ?_, ?_, ?_, ?_, ?_⟩ <;> intros <;> simp_all
  exact (hc _ X X A0).1

/-- Handles stay valid. -/
theorem Robust.is {c : M α β} (hc : Robust c) {D D' : Nat → Nat} {G' : Heap α} {b : β} (hS : SInvD G D) (h : c G = .ok b G') (hS' : SInvD G' D') {a : Addr}
    (hu : G.Used a) (hu' : G'.Used a) (hd : G'.data a = G.data a) {r : RcRef} (hr : r.Is G a) : r.Is G' a := by
  cases r with
  | scattered o => exact ⟨hr.1, by rw [hd]; exact hr.2⟩
  | piled v i =>
    obtain ⟨nv, d, g1, g2, g3, g4⟩ := hr
    let e : Addr → Nat := fun x => if x = a then 1 else 0
    have he : ∀ x, e x ≠ 0 → x = a := fun x hx => by
      by_contra hn; simp [e, hn] at hx
    obtain ⟨-, q⟩ := hc _ _ _ (hrel_bump (e := e) hS fun x hx => by rw [he x hx]; exact hS.liveB a hu.1)
    rw [h] at q
    obtain ⟨H', -, A⟩ := q fun x _ hx => by rw [he x hx]; exact hu'.1
    have hin : InVec nv a := ⟨by rw [g3]; exact Nat.le_add_right _ _, by rw [g3]; exact Nat.add_lt_add_left g2 _⟩
    have hne : esum e nv ≠ 0 := Nat.ne_of_gt (esum_pos hin (by simp [e]))
    have hR : (extCtx e G).R v = some { nv with refCnt := esum e nv } := by simp [extCtx, g1, extVec, hne]
    obtain ⟨nw, f1, f2⟩ := hS'.hasBlk hu' (w := v) (by rw [hd, g4]; rfl)
    have hs := A.same v nw _ f1 hR
    have h1 : nv.base = nw.base := hs.1
    have h2 : nv.cap = nw.cap := hs.2.1
    exact ⟨nw, d, f1, by rw [← h2]; exact g2, by rw [← h1]; exact g3, by rw [hd]; exact g4⟩

/-- A forest has been spliced below a shared node. -/
theorem RInv.splice (I : RInv m G K T) {u f : Addr} {y : Var} {G' : Heap α} {K' : Addr → List Addr} {ks : List Addr} (hu : G.Used u) (hx : ¬ Excl m.env K u)
    (hy : m.env y = some (.forest f)) (S : Spliced G K (fun _ => 0) u f ks G' K') (hks : ∀ c ∈ ks, c ∈ K u ∨ c ∈ K f) (hM : Mono G G')
    (hR : ∀ k a, T k = some a → ∀ r : RcRef, r.Is G a → r.Is G' a) :
    RInv ⟨bumpE (extra G m.fresh T) G', upd m.env y none, m.refs, m.fresh⟩ G' K' T := by
  have hf := I.hnd y _ hy
  have henv : ∀ x hd, upd m.env y none x = some hd → m.env x = some hd ∧ x ≠ y := by
    intro x hd h
    by_cases e : x = y
    · subst e; simp at h
    · rw [upd_of_ne _ _ e] at h; exact ⟨h, e⟩
  have hEf : Excl m.env K f := ⟨y, _, hy, .refl _⟩
  have hEk : ∀ c ∈ K f, Excl m.env K c := fun c hc => ⟨y, _, hy, .step hc (.refl _)⟩
  have hT : ∀ k a, T k = some a → G.Used a ∧ a ≠ f ∧ G'.up a = G.up a := by
    intro k a hk
    have h1 := (I.tgt k a hk).2
    have h2 : a ≠ f := by rintro rfl; exact h1.2 hEf
    refine ⟨h1.1, h2, ?_⟩
    rw [S.up a h1.1 h2, if_neg]
    intro h; exact h1.2 (hEk a h)
  have hE : extra G' m.fresh T = extra G m.fresh T := extra_congr fun k a hk => by rw [(hT k a hk).2.2]
  rw [← hE]
  have hdata : ∀ {b}, G.Used b → b ≠ f → G'.data b = G.data b := fun h1 h2 => S.data _ h1 h2
  refine I.change (fun x hd h => (henv x hd h).1) S.inv S.st ?_ ?_ ?_ ?_ (Nat.le_of_eq S.nextAddr.symm) (fun a h h' => hM.live a h' h) ?_
  · intro a c hc
    have hcu := S.inv.used_of_mem hc
    have hau := S.inv.used_parent hc
    obtain ⟨h1, h2⟩ := (S.used c).mp hcu
    obtain ⟨h3, h4⟩ := (S.used a).mp hau
    have hv : G'.IsVal c ↔ G.IsVal c := by simp only [Heap.IsVal, hdata h1 h2]
    rw [hv]
    by_cases ha : a = u
    · subst ha
      rw [S.kidsU] at hc
      rcases hks c hc with h | h
      · exact I.kv _ c h
      · exact I.kv _ c h
    · rw [S.kids a h3 ha h4] at hc; exact I.kv a c hc
  · intro x hd h b hb
    obtain ⟨h1, h2⟩ := henv x hd h
    have hbu := I.inv.reach_used (I.hnd x hd h1).used hb
    have hbne : b ≠ u := by rintro rfl; exact hx ⟨x, hd, h1, hb⟩
    have hnf : ¬ Reach K f b := by
      intro hr
      have := I.inv.root_disjoint (I.hnd x hd h1).root hf.root hb hr
      exact h2 (I.dist x y hd _ h1 hy this)
    have hbf : b ≠ f := by rintro rfl; exact hnf (.refl _)
    refine ⟨(S.used b).mpr ⟨hbu, hbf⟩, S.kids b hbu hbne hbf, hdata hbu hbf, ?_⟩
    rw [S.up b hbu hbf, if_neg]
    intro h; exact hnf (.step h (.refl _))
  · intro k a hk
    obtain ⟨h1, h2, h3⟩ := hT k a hk
    have hu' := (S.used a).mpr ⟨h1, h2⟩
    refine ⟨hu', fun r hr => ?_⟩
    exact hR k a hk r hr
  · intro a ha hn
    obtain ⟨h1, h2⟩ := (S.used a).mp ha
    rw [S.up a h1 h2] at hn
    split at hn
    · simp at hn
    · rcases I.roots a h1 hn with ⟨x, hd, g1, g2⟩ | h
      · refine .inl ⟨x, hd, ?_, g2⟩
        have : x ≠ y := by
          rintro rfl
          rw [hy] at g1; cases g1; exact h2 g2.symm
        rw [upd_of_ne _ _ this]; exact g1
      · exact .inr h
  · intro a d hl he hd
    have h1 : a < G.nextAddr := by
      have := S.st.liveB a hl
      rw [S.nextAddr] at this; exact this
    have h2 : G.Used a := ⟨hM.live a h1 hl, by rw [hd]; rfl⟩
    exact ⟨d, by rw [hdata h2 (by rintro rfl; exact he hEf)]; exact hd⟩

/-- A forest is spliced below the node of a handle. -/
theorem RInv.splice_step (I : RInv m G K T) (B : GInv m) {k y : Var} {a f : Addr} {ks : List Addr} {c : Addr → M α Unit} (hk : T k = some a)
    (hg : ∀ w, ¬ m.Guarded a w) (hy : m.env y = some (.forest f)) (hks : ∀ x ∈ ks, x ∈ K a ∨ x ∈ K f) (hc : Robust (c a))
    (hf : ∀ h, SpliceHyp h K (fun _ => 0) a f → ∃ h' K', c a h = .ok () h' ∧ Spliced h K (fun _ => 0) a f ks h' K') :
    ∃ m' G' K', (m.consume k y fun r => withMutArg r f c) = .ok m' .unit ∧
      RInv m' G' K' T ∧ GInv m' ∧ m'.refs = m.refs ∧ m'.excl.store = m.excl.store.set y none ∧
      K' a = ks ∧ (∀ x, G.Used x → x ≠ a → x ≠ f → K' x = K x) ∧ (∀ x, G.Used x → x ≠ f → G'.data x = G.data x) := by
  obtain ⟨r, h1, h2⟩ := I.ref hk
  obtain ⟨ha, hx⟩ := (I.tgt k a hk).2
  have hb := B.free I ha hg
  have I1 := I.bor a (-1)
  have ho := I1.hnd y _ hy
  have H : SpliceHyp (G.bor a (-1)) K (fun _ => 0) a f := by
    obtain ⟨q, g1, g2, g3⟩ := I1.inv.exists_root (n := a) ha
    refine ⟨I1.inv, I1.st, ha, ho.used, ho.kind, ho.root, q, I1.inv.rootOf_of_reach g2 g3, ?_⟩
    rintro rfl; exact hx ⟨y, _, hy, g3⟩
  obtain ⟨G1, K', e1, S⟩ := hf _ H
  have hM : Mono (G.bor a (-1)) G1 := by have := hc.mono (G.bor a (-1)); rw [e1] at this; exact this
  have hT : ∀ k b, T k = some b → G.Used b ∧ b ≠ f := by
    intro k b hk
    have h1 := (I.tgt k b hk).2
    exact ⟨h1.1, by rintro rfl; exact h1.2 ⟨y, _, hy, .refl _⟩⟩
  have hR : ∀ k b, T k = some b → ∀ r : RcRef, r.Is (G.bor a (-1)) b → r.Is G1 b := by
    intro k b hk r hr
    obtain ⟨g1, g2⟩ := hT k b hk
    exact hc.is I1.st e1 S.st g1 ((S.used b).mpr ⟨g1, g2⟩) (S.data b g1 g2) hr
  have I2 := I1.splice (u := a) ha hx hy S hks hM hR
  have I3 := I2.bor a 0
  have hlift : c a (bumpE (extra G m.fresh T) (G.bor a (-1))) = .ok () (bumpE (extra G m.fresh T) G1) := by
    refine lift_ok hc I1.st (fun x hx => I1.eUsed hx) e1 S.st ⟨fun x hx => ?_, fun x hx => ?_⟩
    · obtain ⟨j, hj⟩ := I1.hE hx
      obtain ⟨g1, g2⟩ := hT j x hj
      exact (S.used x).mpr ⟨g1, g2⟩
    · obtain ⟨j, hj⟩ := I1.hE hx
      obtain ⟨g1, g2⟩ := hT j x hj
      rw [S.data x g1 g2]
  have haf : a ≠ f := (hT k a hk).2
  have hl : G1.live a = true := ((S.used a).mpr ⟨ha, haf⟩).1
  refine ⟨_, _, K', ?_, I3, ?_, rfl, ?_, S.kidsU, S.kids, S.data⟩
  · have e5 : withMutArg r f c m.heap = .ok () ((bumpE (extra G m.fresh T) G1).bor a 0) := by
      simp only [withMutArg, I.heap, borrowMut_ok h2 ha hb, finally_, hlift, releaseMut_ok (h := bumpE (extra G m.fresh T) G1) hl, Res.bind_ok]
    simp only [RMachine.consume, RMachine.onRc, h1, RMachine.run, e5]
    rfl
  · refine B.step (fun _ _ => rfl) fun b hb' => .inl ?_
    have hb1 : G1.live b = true := hb'
    have hlt : b < G.nextAddr := by
      have := S.st.liveB b hb1
      rw [S.nextAddr] at this; exact this
    refine ⟨?_, ?_⟩
    · rw [I.heap]; exact hM.live b hlt hb1
    · rw [I.heap]
      show (G1.bor a 0).borrow b = G.borrow b
      have := hM.borrow b hlt
      by_cases e : b = a
      · subst e; simp [Heap.bor, hb]
      · simp only [Heap.bor, upd_of_ne _ _ e] at this ⊢; exact this
  · refine I.store_take I3 rfl rfl S.log ?_
    intro x hd hxy h b hbr
    have hbu := I.inv.reach_used (I.hnd x hd h).used hbr
    have hbf : b ≠ f := by
      rintro rfl
      exact hxy (I.dist x y hd _ h hy (I.inv.root_disjoint (I.hnd x hd h).root ho.root hbr (.refl _)))
    exact ⟨S.kids b hbu (by rintro rfl; exact hx ⟨x, hd, h, hbr⟩) hbf, S.data b hbu hbf⟩

/-- The trees of the forest, and the children there were, after splicing. -/
theorem RInv.splice_look {m' : RMachine α} {G' : Heap α} {K' : Addr → List Addr} {a f : Addr} {y : Var} {fn : List (RTree (Addr × α)) → List (RTree (Addr × α))}
    (I : RInv m G K T) (I' : RInv m' G' K' T) (hx : ¬ Excl m.env K a) (hy : m.env y = some (.forest f))
    (hk : ∀ x, G.Used x → x ≠ a → x ≠ f → K' x = K x) (hd : ∀ x, G.Used x → x ≠ f → G'.data x = G.data x)
    (hfn : ∀ ts, DenL G'.lab K' (K a) ts → DenL G'.lab K' (K' a) (fn ts)) (j : Var) : m'.look j = (m.look j).map (RTree.modAt a fn) := by
  refine I.look_map I' rfl fun b hb tt ht => ?_
  obtain ⟨hbu, hbx⟩ := (I.tgt j b hb).2
  have hnf : ∀ c, Reach K b c → G.Used c ∧ c ≠ f := by
    intro c hc
    refine ⟨I.inv.reach_used hbu hc, ?_⟩
    rintro rfl
    have hr := (I.hnd y _ hy).root
    rcases hc.cases_tail with e | ⟨p, h1, h2⟩
    · exact hbx ⟨y, _, hy, e ▸ .refl _⟩
    · exact I.inv.not_mem_of_root hr h2
  refine Den.modAt (K' := K') ?_ ht (fun c hc hca => hk c (hnf c hc).1 hca (hnf c hc).2) (fun c hc => lab_congr (hd c (hnf c hc).1 (hnf c hc).2))
  intro ts hts
  refine hfn ts (hts.congr fun c hc d hd' => ?_)
  have h1 : G.Used d := I.inv.reach_used (I.inv.used_of_mem hc) hd'
  have h2 : d ≠ f := by
    rintro rfl
    have hr := (I.hnd y _ hy).root
    rcases hd'.cases_tail with e | ⟨p, g1, g2⟩
    · subst e; exact I.inv.not_mem_of_root hr hc
    · exact I.inv.not_mem_of_root hr g2
  exact ⟨hk d h1 (by rintro rfl; exact I.inv.not_reach_up hc hd') h2, lab_congr (hd d h1 h2)⟩

/-- The trees of the forest. -/
theorem RInv.splice_forest {G' : Heap α} {K' : Addr → List Addr} {a f : Addr} {y : Var}
    (I : RInv m G K T) (hx : ¬ Excl m.env K a) (hy : m.env y = some (.forest f))
    (hk : ∀ x, G.Used x → x ≠ a → x ≠ f → K' x = K x) (hd : ∀ x, G.Used x → x ≠ f → G'.data x = G.data x) {ts : List (RTree (Addr × α))}
    (h : DenL G.lab K (K f) ts) : DenL G'.lab K' (K f) ts := by
  refine h.congr fun c hc d hd' => ?_
  have h1 : G.Used d := I.inv.reach_used (I.inv.used_of_mem hc) hd'
  have h2 : d ≠ f := by rintro rfl; exact I.inv.not_reach_up hc hd'
  exact ⟨hk d h1 (by rintro rfl; exact hx ⟨y, _, hy, .step hc hd'⟩) h2, lab_congr (hd d h1 h2)⟩

theorem si_append (hm : SI m) {k y : Var} {a : Addr} {ts : List (RTree (Addr × α))} (hk : m.nodeOf k = some a) (hy : m.lookForest y = some ts)
    (hg : ∀ w, ¬ m.Guarded a w) :
    ∃ m', rstep m (.append k y) = .ok m' .unit ∧ SI m' ∧ m'.refs = m.refs ∧ m'.excl.store = m.excl.store.set y none ∧
      ∀ j, m'.look j = (m.look j).map (RTree.modAt a fun us => us ++ ts) := by
  obtain ⟨G, K, T, I, B⟩ := hm
  rw [I.nodeOf] at hk
  obtain ⟨f, hy, hd⟩ := I.lookForest_iff.mp hy
  obtain ⟨ha, hx⟩ := (I.tgt k a hk).2
  obtain ⟨m', G', K', e1, I', B', e2, e3, e4, e5, e6⟩ := I.splice_step (ks := K a ++ K f) (c := fun a => append a f) B hk hg hy
    (by intro x; simp) (rob_append _ _) (fun h H => append_ok H)
  refine ⟨m', by simpa only [rstep, RMachine.takeForest, hy] using e1, ⟨G', K', T, I', B'⟩, e2, e3, I.splice_look I' hx hy e5 e6 fun us hus => ?_⟩
  rw [e4]
  exact hus.append (I.splice_forest hx hy e5 e6 hd)

theorem si_prepend (hm : SI m) {k y : Var} {a : Addr} {ts : List (RTree (Addr × α))} (hk : m.nodeOf k = some a) (hy : m.lookForest y = some ts)
    (hg : ∀ w, ¬ m.Guarded a w) :
    ∃ m', rstep m (.prepend k y) = .ok m' .unit ∧ SI m' ∧ m'.refs = m.refs ∧ m'.excl.store = m.excl.store.set y none ∧
      ∀ j, m'.look j = (m.look j).map (RTree.modAt a fun us => ts ++ us) := by
  obtain ⟨G, K, T, I, B⟩ := hm
  rw [I.nodeOf] at hk
  obtain ⟨f, hy, hd⟩ := I.lookForest_iff.mp hy
  obtain ⟨ha, hx⟩ := (I.tgt k a hk).2
  obtain ⟨m', G', K', e1, I', B', e2, e3, e4, e5, e6⟩ := I.splice_step (ks := K f ++ K a) (c := fun a => prepend a f) B hk hg hy
    (by intro x; simp; grind) (rob_prepend _ _) (fun h H => prepend_ok H)
  refine ⟨m', by simpa only [rstep, RMachine.takeForest, hy] using e1, ⟨G', K', T, I', B'⟩, e2, e3, I.splice_look I' hx hy e5 e6 fun us hus => ?_⟩
  rw [e4]
  exact (I.splice_forest hx hy e5 e6 hd).append hus
end
end Trees
