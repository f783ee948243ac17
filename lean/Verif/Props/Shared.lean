import Verif.Props.SharedDemo
import Verif.Props.Memory
/-
Shared nodes: C34, C37, C38, C39.
All theorems range over every state `m` a client program can reach by calls outside of the known defects
(`SReachable`, `Safe`: `Model/RcView.lean`), every handle and every argument. `m.look k` is the tree below the handle in
variable `k`, with the identity of every node; `m.excl.store` are the exclusive values (`Tree`, `Forest`, `IntoIter`) of
the program and the data items dropped so far.
-/
namespace Trees
set_option linter.unusedSimpArgs false
set_option linter.unusedVariables false
variable {α : Type}
open Classical

theorem SI.empty : SI (RMachine.empty : RMachine α) := by
  obtain ⟨K, M⟩ := Proof.reachable_minv (α := α) .init
  have e0 : extra (Heap.empty : Heap α) 0 (fun _ => none) = fun _ => 0 := by funext a; simp [extra, nh]
  refine ⟨Heap.empty, K, fun _ => none, ⟨?_, M.inv, M.st, M.kv, M.hnd, M.dist, fun x _ => ⟨rfl, rfl⟩, ?_, ?_, ?_, ?_, ?_, ?_⟩, ?_⟩
  · show Heap.empty = bumpE (extra Heap.empty 0 fun _ => none) Heap.empty
    rw [e0]
    simp only [bumpE, bumpZ, Heap.over, Heap.empty, Heap.mk.injEq, true_and, and_true]
    exact ⟨by funext a; simp, by funext v; simp [bumpVec]⟩
  · intro x r h; simp [RMachine.empty] at h
  · intro x r h; simp [RMachine.empty] at h
  · intro x r h; simp at h
  · intro a h _; simp [Heap.Used, Heap.empty] at h
  · intro g k a w h; simp [RMachine.empty] at h
  · intro x r h; simp [RMachine.empty] at h
  · intro a h; simp [RMachine.empty, Heap.empty] at h

theorem SReachable.si {m : RMachine α} (h : SReachable m) : SI m := by
  induction h with
  | init => exact SI.empty
  | ok _ hs e ih => have := good_step ih _ hs; rw [e] at this; exact this.si
  | panic _ hs e ih => have := good_step ih _ hs; rw [e] at this; exact this.si

theorem view_of_lookTree {m : RMachine α} (hm : SI m) {y : Var} {t : RTree (Addr × α)} (hy : m.lookTree y = some t) : m.excl.store.vars y = some (.tree t.plain) := by
  obtain ⟨G, K, T, I, B⟩ := hm
  obtain ⟨r, h1, h2⟩ := I.lookTree_iff.mp hy
  exact I.view_tree h1 h2.plain

section
variable {m : RMachine α} (hr : SReachable m)
include hr

/-! ### No undefined behaviour -/

/-- A safe call returns, panics or is not possible (no value of the right kind in the variables); in each case the new state
is again well-behaved. -/
theorem shared_safe {op : ROp α} (hs : Safe m op) :
    (∃ m' o, rstep m op = .ok m' o ∧ SReachable m') ∨ (∃ m', rstep m op = .panic m' ∧ SReachable m') ∨ rstep m op = .rejected := by
  have := good_step hr.si op hs
  cases h : rstep m op with
  | ok m' o => exact .inl ⟨m', o, rfl, .ok hr hs h⟩
  | panic m' => exact .inr (.inl ⟨m', rfl, .panic hr hs h⟩)
  | rejected => exact .inr (.inr rfl)
  | bad => rw [h] at this; exact this.elim

/-- The exclusive part of the API is not influenced by the shared part and vice versa: it still follows the
specification of Props/Refinement.lean, and no handle sees a difference. -/
theorem shared_exclusive (op : Op α) :
    (∃ m' o, rstep m (.excl op) = .ok m' o ∧ specStep m.excl.store op = .ok m'.excl.store o ∧ SReachable m' ∧ m'.refs = m.refs ∧ ∀ j, m'.look j = m.look j) ∨
    (∃ m', rstep m (.excl op) = .panic m' ∧ specStep m.excl.store op = .panic m'.excl.store ∧ SReachable m' ∧ m'.refs = m.refs ∧ ∀ j, m'.look j = m.look j) ∨
    (rstep m (.excl op) = .rejected ∧ specStep m.excl.store op = .rejected) := by
  rcases si_excl hr.si op with ⟨m', o, h, h1, -, h2, h3⟩ | ⟨m', h, h1, -, h2, h3⟩ | h
  · exact .inl ⟨m', o, h, h1, .ok (op := .excl op) hr trivial h, h2, h3⟩
  · exact .inr (.inl ⟨m', h, h1, .panic (op := .excl op) hr trivial h, h2, h3⟩)
  · exact .inr (.inr h)

/-! ### C34: lifetime -/

/-- **C34** a handle always gives access to its node and the subtree below it ... -/
theorem c34_accessible {k : Var} {r : RcRef} (h : m.refs k = some (.rc r)) : ∃ t, m.look k = some t := si_ref hr.si h

/-- **C34** ... and no safe call, except for the drop of the handle itself, makes it refer to another node or to none,
whatever happens to the other handles. -/
theorem c34_stable {op : ROp α} (hs : Safe m op) {m' : RMachine α} (h : (∃ o, rstep m op = .ok m' o) ∨ rstep m op = .panic m') {j : Var} {a : Addr}
    (hj : m.nodeOf j = some a) (hc : ¬ op.Consumes j) : m'.nodeOf j = some a := by
  have := good_step hr.si op hs
  rcases h with ⟨o, h⟩ | h
  · rw [h] at this; exact this.keep j a hj hc
  · rw [h] at this; exact this.keep j a hj hc

/-- **C34** the drop of a handle succeeds, other handles show what they showed before, exclusive values stay. Nothing is
dropped if the node has a parent; otherwise exactly the data items of those nodes below it that are not part of the
subtree of another handle. -/
theorem c34_drop {k : Var} {t : RTree (Addr × α)} (hk : m.look k = some t) (hg : m.guarded k = false) :
    ∃ m', rstep m (.drop k) = .ok m' .unit ∧ SReachable m' ∧ m'.refs = upd m.refs k none ∧ (∀ j, j ≠ k → m'.look j = m.look j) ∧ m'.look k = none ∧
      m'.excl.store = m.excl.store.drop (if m.HasParent t.data.1 then [] else (t.released (m.heldElse k)).map Prod.snd) := by
  obtain ⟨m', h, -, -, h2, -, h3, h4⟩ := si_drop hr.si hk hg
  refine ⟨m', h, .ok (op := .drop k) hr trivial h, h2, h3, ?_, h4⟩
  simp [RMachine.look, h2]

omit hr in
/-- `released`, without recursion: the nodes of the tree that are in no subtree with a held root. -/
theorem released_iff {ι : Type} (held : ι → Bool) {t : RTree (ι × α)} (hn : t.ids.Nodup) (x : ι × α) :
    x ∈ t.released held ↔ x ∈ t.pre ∧ ∀ s ∈ t.subs, held s.data.1 = true → x.1 ∉ s.ids := RTree.mem_released held hn x

/-- **C34** (exactly once) with the last owner of a root go exactly those nodes that no remaining handle shows, each of them once. -/
theorem c34_once {k : Var} {t : RTree (Addr × α)} (hk : m.look k = some t) (hp : ¬ m.HasParent t.data.1) {m' : RMachine α} (hd : rstep m (.drop k) = .ok m' .unit) :
    ((t.released (m.heldElse k)).map Prod.fst).Nodup ∧ (∀ a ∈ (t.released (m.heldElse k)).map Prod.fst, m.Shown a) ∧
    ∀ a, m.Shown a → (m'.Shown a ↔ a ∉ (t.released (m.heldElse k)).map Prod.fst) := by
  obtain ⟨m'', h, -, -, h3, h4, -⟩ := c34_drop hr hk (by
    obtain ⟨r, hr⟩ := look_ref hk
    by_contra h
    have h' : m.guarded k = true := by simpa using h
    simp [rstep, hr, h'] at hd)
  rw [h] at hd; cases hd
  obtain ⟨g1, g2, g3, -⟩ := si_drop_shown hr.si hk hp h3 h4
  exact ⟨g1, g3, g2⟩

/-- **C34** (new roots) the topmost nodes with another handle keep their subtrees and have no parent any more. -/
theorem c34_new_roots {k : Var} {t : RTree (Addr × α)} (hk : m.look k = some t) (hp : ¬ m.HasParent t.data.1) {m' : RMachine α} (hd : rstep m (.drop k) = .ok m' .unit) :
    ∀ s ∈ t.survivors (m.heldElse k), (∃ j, j ≠ k ∧ m.look j = some s ∧ m'.look j = some s) ∧ ¬ m'.HasParent s.data.1 := by
  obtain ⟨m'', h, -, -, h3, h4, -⟩ := c34_drop hr hk (by
    obtain ⟨r, hr⟩ := look_ref hk
    by_contra h
    have h' : m.guarded k = true := by simpa using h
    simp [rstep, hr, h'] at hd)
  rw [h] at hd; cases hd
  intro s hs
  obtain ⟨⟨j, h5, h6⟩, h7⟩ := (si_drop_shown hr.si hk hp h3 h4).2.2.2 s hs
  exact ⟨⟨j, h5, by rw [← h3 j h5]; exact h6, h6⟩, h7⟩

/-- **C34** (no leak) every live node is shown by some handle or part of some exclusive value, or it is a spare slot of a
contiguous block that contains such a node. -/
theorem c34_no_leak {a : Addr} (ha : m.heap.live a = true) :
    (m.Shown a ∨ ∃ x, m.excl.Holds x a) ∨
    ∃ v nv b, m.heap.vec v = some nv ∧ nv.Has a ∧ nv.Has b ∧ (m.Shown b ∨ ∃ x, m.excl.Holds x b) := by
  obtain ⟨G, K, T, I, B⟩ := hr.si
  have key : ∀ b, G.Used b → m.Shown b ∨ ∃ x, m.excl.Holds x b := by
    intro b hb
    by_cases hx : Excl m.env K b
    · obtain ⟨x, hd, h1, h2⟩ := hx
      obtain ⟨p, hp⟩ := Proof.reach_resolve h2
      have hu : m.excl.heap.Used hd.addr := I.used'.mpr (I.hnd x hd h1).used
      exact .inr ⟨x, p, by simp [Machine.nodeAt, RMachine.excl, h1, locate_ok (h := m.heap) I.inv' hu, hp]⟩
    · exact .inl (I.shown.mpr ⟨hb, hx⟩)
  have hl : G.live a = true := by have := ha; rw [I.heap] at this; exact this
  rcases I.st.tight a hl with h | ⟨v, nv, h1, h2⟩
  · exact .inl (key a h)
  · right
    have h3 := I.st.cnt v nv h1
    have h4 := I.st.pos v nv h1
    have h5 : 0 < usedCnt G nv := by omega
    obtain ⟨b, hb, hb2⟩ := List.countP_pos_iff.mp h5
    obtain ⟨nv', h6, h7⟩ : ∃ nv', m.heap.vec v = some nv' ∧ nv'.base = nv.base ∧ nv'.cap = nv.cap := by
      rw [I.heap]
      simp [bumpE, bumpZ, Heap.over, bumpVec, h1]
    refine ⟨v, nv', b, h6, ?_, ?_, key b (Heap.usedB_iff.mp hb2)⟩
    · have h2' : nv.Has a := h2
      simp only [NodeVec.Has, h7] at h2' ⊢; exact h2'
    · have h8 : nv.Has b := mem_vec_range.mp hb
      simp only [NodeVec.Has, h7] at h8 ⊢; exact h8

/-- **C34** (no leak) when all handles and all exclusive values are gone, all memory has been released. -/
theorem c34_all_released (h1 : ∀ k, m.look k = none) (h2 : ∀ x, m.excl.view x = none) :
    (∀ a, m.heap.live a = false) ∧ ∀ v, m.heap.vec v = none := by
  have hh : ∀ x a, ¬ m.excl.Holds x a := by
    rintro x a ⟨p, hp⟩
    obtain ⟨G, K, T, I, B⟩ := hr.si
    simp only [Machine.nodeAt] at hp
    cases he : m.excl.env x with
    | none => simp [he] at hp
    | some hd =>
      obtain ⟨v, -, h⟩ := I.hden he
      rw [h2 x] at h; simp at h
  have hs : ∀ a, ¬ m.Shown a := by rintro a ⟨k, t, h, -⟩; rw [h1 k] at h; simp at h
  have hl : ∀ a, m.heap.live a = false := by
    intro a
    cases hl : m.heap.live a with
    | false => rfl
    | true =>
      rcases c34_no_leak hr hl with (h | ⟨x, h⟩) | ⟨_, _, b, _, _, _, h | ⟨x, h⟩⟩
      · exact absurd h (hs a)
      · exact absurd h (hh x a)
      · exact absurd h (hs b)
      · exact absurd h (hh x b)
  refine ⟨hl, fun v => ?_⟩
  obtain ⟨G, K, T, I, B⟩ := hr.si
  cases hv : G.vec v with
  | none => rw [I.heap]; simp [bumpE, bumpZ, Heap.over, bumpVec, hv]
  | some nv =>
    have h3 := I.st.cnt v nv hv
    have h4 := I.st.pos v nv hv
    have h5 : 0 < usedCnt G nv := by omega
    obtain ⟨b, hb, hb2⟩ := List.countP_pos_iff.mp h5
    have := (Heap.usedB_iff.mp hb2).1
    have h6 := hl b
    rw [I.heap] at h6
    simp [bumpE, bumpZ, Heap.over] at h6
    rw [h6] at this; simp at this

/-! ### C37: one shared tree -/

/-- **C37** (identity) the nodes below a handle are pairwise different ... -/
theorem c37_distinct {k : Var} {t : RTree (Addr × α)} (h : m.look k = some t) : t.ids.Nodup := si_nodup hr.si h

/-- **C37** ... a handle to one of them shows the very subtree ... -/
theorem c37_same_tree {k j : Var} {t u : RTree (Addr × α)} (h : m.look k = some t) (hj : m.look j = some u) (hu : u.data.1 ∈ t.ids) : u ∈ t.subs :=
  si_coherent hr.si h hj hu

/-- **C37** ... and handles that show a common node are handles to nodes of one tree. -/
theorem c37_overlap {k j : Var} {t u : RTree (Addr × α)} (h : m.look k = some t) (hj : m.look j = some u) {x : Addr} (h1 : x ∈ t.ids) (h2 : x ∈ u.ids) :
    u ∈ t.subs ∨ t ∈ u.subs :=
  (si_overlap hr.si h hj h1 h2).imp (si_coherent hr.si h hj) (si_coherent hr.si hj h)

/-- **C37** `push_back`: the tree in `y` becomes the last child of the node of `k`, as seen by every handle `j`. -/
theorem c37_push_back {k y : Var} {s t : RTree (Addr × α)} (hk : m.look k = some s) (hy : m.lookTree y = some t) (hg : ∀ w, ¬ m.Guarded s.data.1 w) :
    ∃ m', rstep m (.pushBack k y) = .ok m' .unit ∧ SReachable m' ∧ m'.refs = m.refs ∧ m'.excl.store = m.excl.store.set y none ∧
      ∀ j, m'.look j = (m.look j).map (RTree.modAt s.data.1 fun ts => ts ++ [t]) := by
  obtain ⟨m', h, -, h1⟩ := si_pushBack hr.si (look_node hk) hy hg
  exact ⟨m', h, .ok (op := .pushBack k y) hr trivial h, h1⟩

/-- **C37** `push_front`. -/
theorem c37_push_front {k y : Var} {s t : RTree (Addr × α)} (hk : m.look k = some s) (hy : m.lookTree y = some t) (hg : ∀ w, ¬ m.Guarded s.data.1 w) :
    ∃ m', rstep m (.pushFront k y) = .ok m' .unit ∧ SReachable m' ∧ m'.refs = m.refs ∧ m'.excl.store = m.excl.store.set y none ∧
      ∀ j, m'.look j = (m.look j).map (RTree.modAt s.data.1 fun ts => t :: ts) := by
  obtain ⟨m', h, -, h1⟩ := si_pushFront hr.si (look_node hk) hy hg
  exact ⟨m', h, .ok (op := .pushFront k y) hr trivial h, h1⟩

/-- **C37** `append`. -/
theorem c37_append {k y : Var} {s : RTree (Addr × α)} {ts : List (RTree (Addr × α))} (hk : m.look k = some s) (hy : m.lookForest y = some ts) (hg : ∀ w, ¬ m.Guarded s.data.1 w) :
    ∃ m', rstep m (.append k y) = .ok m' .unit ∧ SReachable m' ∧ m'.refs = m.refs ∧ m'.excl.store = m.excl.store.set y none ∧
      ∀ j, m'.look j = (m.look j).map (RTree.modAt s.data.1 fun us => us ++ ts) := by
  obtain ⟨m', h, -, h1⟩ := si_append hr.si (look_node hk) hy hg
  exact ⟨m', h, .ok (op := .append k y) hr trivial h, h1⟩

/-- **C37** `prepend`. -/
theorem c37_prepend {k y : Var} {s : RTree (Addr × α)} {ts : List (RTree (Addr × α))} (hk : m.look k = some s) (hy : m.lookForest y = some ts) (hg : ∀ w, ¬ m.Guarded s.data.1 w) :
    ∃ m', rstep m (.prepend k y) = .ok m' .unit ∧ SReachable m' ∧ m'.refs = m.refs ∧ m'.excl.store = m.excl.store.set y none ∧
      ∀ j, m'.look j = (m.look j).map (RTree.modAt s.data.1 fun us => ts ++ us) := by
  obtain ⟨m', h, -, h1⟩ := si_prepend hr.si (look_node hk) hy hg
  exact ⟨m', h, .ok (op := .prepend k y) hr trivial h, h1⟩

/-- **C37** `insert_prev_sib` of a node with a parent. -/
theorem c37_insert_prev_sib {k y : Var} {s t : RTree (Addr × α)} (hk : m.look k = some s) (hy : m.lookTree y = some t) (hg : ∀ w, ¬ m.Guarded s.data.1 w)
    (hp : m.HasParent s.data.1) :
    ∃ m', rstep m (.insertPrevSib k y) = .ok m' .unit ∧ SReachable m' ∧ m'.refs = m.refs ∧ m'.excl.store = m.excl.store.set y none ∧
      ∀ j, m'.look j = (m.look j).map (RTree.sibAt s.data.1 fun s => [t, s]) := by
  obtain ⟨m', h, -, h1⟩ := si_prevSib hr.si (look_node hk) hy hg hp
  exact ⟨m', h, .ok (op := .insertPrevSib k y) hr trivial h, h1⟩

/-- **C37** `insert_next_sib` of a node with a parent. -/
theorem c37_insert_next_sib {k y : Var} {s t : RTree (Addr × α)} (hk : m.look k = some s) (hy : m.lookTree y = some t) (hg : ∀ w, ¬ m.Guarded s.data.1 w)
    (hp : m.HasParent s.data.1) :
    ∃ m', rstep m (.insertNextSib k y) = .ok m' .unit ∧ SReachable m' ∧ m'.refs = m.refs ∧ m'.excl.store = m.excl.store.set y none ∧
      ∀ j, m'.look j = (m.look j).map (RTree.sibAt s.data.1 fun s => [s, t]) := by
  obtain ⟨m', h, -, h1⟩ := si_nextSib hr.si (look_node hk) hy hg hp
  exact ⟨m', h, .ok (op := .insertNextSib k y) hr trivial h, h1⟩

/-- **C37** the insertion of a sibling of a root panics, as in the exclusive API; only the argument is lost. -/
theorem c37_insert_sib_root {k y : Var} {s t : RTree (Addr × α)} (hk : m.look k = some s) (hy : m.lookTree y = some t) (hg : ∀ w, ¬ m.Guarded s.data.1 w)
    (hp : ¬ m.HasParent s.data.1) :
    ∀ op ∈ [ROp.insertPrevSib k y, .insertNextSib k y], ∃ m', rstep m op = .panic m' ∧ SReachable m' ∧ m'.refs = m.refs ∧
      m'.excl.store = (m.excl.store.set y none).drop t.plain.post ∧ ∀ j, m'.look j = m.look j := by
  obtain ⟨r, h1⟩ : ∃ r, m.env y = some (.tree r) := by
    simp only [RMachine.lookTree] at hy
    split at hy
    · rename_i r h; exact ⟨r, h⟩
    · simp at hy
  have hv : m.excl.store.vars y = some (.tree t.plain) := view_of_lookTree hr.si hy
  intro op ho
  simp only [List.mem_cons, List.not_mem_nil, or_false] at ho
  rcases ho with rfl | rfl
  · obtain ⟨m', v, h, -, h2, h3, h4, h5⟩ := si_insertPrevSib_root hr.si (look_node hk) hg h1 hp
    rw [hv] at h4; cases h4
    exact ⟨m', h, .panic (op := .insertPrevSib k y) hr trivial h, h2, h5, h3⟩
  · obtain ⟨m', v, h, -, h2, h3, h4, h5⟩ := si_insertNextSib_root hr.si (look_node hk) hg h1 hp
    rw [hv] at h4; cases h4
    exact ⟨m', h, .panic (op := .insertNextSib k y) hr trivial h, h2, h5, h3⟩

/-- **C37** `pop_front` of a node with children: the result is a handle to the node that was the first child, with its subtree;
every handle sees the removal. -/
theorem c37_pop_front {k : Var} {t c : RTree (Addr × α)} (hk : m.look k = some t) (hg : ∀ w, ¬ m.Guarded t.data.1 w) (hc : t.kids.head? = some c) :
    ∃ m', rstep m (.popFront k) = .ok m' (.var m.fresh) ∧ SReachable m' ∧ (∀ j, j ≠ m.fresh → m'.refs j = m.refs j ∧ m'.look j = (m.look j).map (RTree.modAt t.data.1 List.tail)) ∧
      m'.look m.fresh = some c ∧ m'.excl.view = m.excl.view ∧ m'.heap.log = m.heap.log := by
  obtain ⟨m', h, h1, h2⟩ := si_popFront hr.si hk hg hc
  exact ⟨m', h, .ok (op := .popFront k) hr trivial h, fun j hj => ⟨h1.refs j hj, h1.looks j hj⟩, h2, h1.vars, h1.log⟩

/-- **C37** `pop_back`. -/
theorem c37_pop_back {k : Var} {t c : RTree (Addr × α)} (hk : m.look k = some t) (hg : ∀ w, ¬ m.Guarded t.data.1 w) (hc : t.kids.getLast? = some c) :
    ∃ m', rstep m (.popBack k) = .ok m' (.var m.fresh) ∧ SReachable m' ∧ (∀ j, j ≠ m.fresh → m'.refs j = m.refs j ∧ m'.look j = (m.look j).map (RTree.modAt t.data.1 List.dropLast)) ∧
      m'.look m.fresh = some c ∧ m'.excl.view = m.excl.view ∧ m'.heap.log = m.heap.log := by
  obtain ⟨m', h, h1, h2⟩ := si_popBack hr.si hk hg hc
  exact ⟨m', h, .ok (op := .popBack k) hr trivial h, fun j hj => ⟨h1.refs j hj, h1.looks j hj⟩, h2, h1.vars, h1.log⟩

/-- **C37** `pop_front`, `pop_back` of a node without children. -/
theorem c37_pop_none {k : Var} {t : RTree (Addr × α)} (hk : m.look k = some t) (hg : ∀ w, ¬ m.Guarded t.data.1 w) (hc : t.kids = []) :
    rstep m (.popFront k) = .ok m .none ∧ rstep m (.popBack k) = .ok m .none :=
  ⟨si_popFront_none hr.si hk hg hc, si_popBack_none hr.si hk hg hc⟩

/-- **C37** `detach` of a node with a parent: it leaves its parent, as seen by every handle; nothing is dropped. -/
theorem c37_detach {k : Var} {t : RTree (Addr × α)} (hk : m.look k = some t) (hg : ∀ w, ¬ m.Guarded t.data.1 w) (hp : m.HasParent t.data.1) :
    ∃ m', rstep m (.detach k) = .ok m' .unit ∧ SReachable m' ∧ m'.refs = m.refs ∧ (∀ j, m'.look j = (m.look j).map (RTree.sibAt t.data.1 fun _ => [])) ∧
      m'.excl.store = m.excl.store := by
  obtain ⟨m', h, h1⟩ := si_detach hr.si (look_node hk) hg hp
  refine ⟨m', h, .ok (op := .detach k) hr trivial h, h1.refs, h1.looks, ?_⟩
  rw [h1.store]; simp [Store.drop]

/-- **C37** `detach` of a root panics, nothing changes. -/
theorem c37_detach_root {k : Var} {t : RTree (Addr × α)} (hk : m.look k = some t) (hg : ∀ w, ¬ m.Guarded t.data.1 w) (hp : ¬ m.HasParent t.data.1) :
    rstep m (.detach k) = .panic m := si_detach_root hr.si (look_node hk) hg hp

/-- **C37** `*k.data_mut() = d`. -/
theorem c37_data_mut {k : Var} {t : RTree (Addr × α)} (d : α) (hk : m.look k = some t) (hg : ∀ w, ¬ m.Guarded t.data.1 w) :
    ∃ m', rstep m (.setData k d) = .ok m' .unit ∧ SReachable m' ∧ m'.refs = m.refs ∧ (∀ j, m'.look j = (m.look j).map (RTree.setAt t.data.1 d)) ∧
      m'.excl.store = m.excl.store.drop [t.data.2] := by
  obtain ⟨m', h, h1⟩ := si_setData hr.si d hk hg
  exact ⟨m', h, .ok (op := .setData k d) hr trivial h, h1.refs, h1.looks, h1.store⟩

/-- **C37** what the observers return; they change nothing. -/
theorem c37_observe {k : Var} {t : RTree (Addr × α)} (hk : m.look k = some t) (hg : ¬ m.Guarded t.data.1 true) :
    rstep m (.data k) = .ok m (.item (some t.data.2)) ∧ rstep m (.degree k) = .ok m (.nat t.kids.length) ∧
    rstep m (.nodeCount k) = .ok m (.nat t.count) ∧ rstep m (.hasNoChild k) = .ok m (.bool t.kids.isEmpty) ∧
    rstep m (.isRoot k) = .ok m (.bool (decide (¬ m.HasParent t.data.1))) := by
  refine ⟨si_data hr.si hk hg, si_degree hr.si hk hg, si_nodeCount hr.si hk hg, si_hasNoChild hr.si hk hg, ?_⟩
  obtain ⟨b, h, hb⟩ := si_isRoot hr.si (look_node hk) hg
  rw [h]
  congr 2
  cases b <;> simp_all

/-- A new handle and nothing else. -/
def NewHandle (m m' : RMachine α) (t : RTree (Addr × α)) : Prop :=
  SReachable m' ∧ m'.look m.fresh = some t ∧ (∀ j, j ≠ m.fresh → m'.refs j = m.refs j ∧ m'.look j = m.look j) ∧
    m'.excl.view = m.excl.view ∧ m'.heap.log = m.heap.log

omit hr in
theorem Adds.new {m' : RMachine α} {t : RTree (Addr × α)} (h : Adds m m') (hs : SReachable m') (ht : m'.look m.fresh = some t) : NewHandle m m' t :=
  ⟨hs, ht, fun j hj => ⟨h.refs j hj, h.looks j hj⟩, h.vars, h.log⟩

/-- **C37** `front` and `back` give handles to the actual first and last child. -/
theorem c37_front {k : Var} {t : RTree (Addr × α)} (hk : m.look k = some t) (hg : ¬ m.Guarded t.data.1 true) :
    (t.kids = [] → rstep m (.front k) = .ok m .none) ∧ ∀ c, t.kids.head? = some c → ∃ m', rstep m (.front k) = .ok m' (.var m.fresh) ∧ NewHandle m m' c := by
  refine ⟨si_front_none hr.si hk hg, fun c hc => ?_⟩
  obtain ⟨m', h, h1, h2⟩ := si_front hr.si hk hg hc
  exact ⟨m', h, h1.new (.ok (op := .front k) hr trivial h) h2⟩

theorem c37_back {k : Var} {t : RTree (Addr × α)} (hk : m.look k = some t) (hg : ¬ m.Guarded t.data.1 true) :
    (t.kids = [] → rstep m (.back k) = .ok m .none) ∧ ∀ c, t.kids.getLast? = some c → ∃ m', rstep m (.back k) = .ok m' (.var m.fresh) ∧ NewHandle m m' c := by
  refine ⟨si_back_none hr.si hk hg, fun c hc => ?_⟩
  obtain ⟨m', h, h1, h2⟩ := si_back hr.si hk hg hc
  exact ⟨m', h, h1.new (.ok (op := .back k) hr trivial h) h2⟩

/-- **C37** `parent` gives a handle to the actual parent: the node has exactly this subtree among its children. -/
theorem c37_parent {k : Var} {t : RTree (Addr × α)} (hk : m.look k = some t) (hg : ¬ m.Guarded t.data.1 true) :
    (¬ m.HasParent t.data.1 → rstep m (.parent k) = .ok m .none) ∧
    (m.HasParent t.data.1 → ∃ m' p, rstep m (.parent k) = .ok m' (.var m.fresh) ∧ NewHandle m m' p ∧ t ∈ p.kids) := by
  refine ⟨si_parent_none hr.si (look_node hk) hg, fun hp => ?_⟩
  obtain ⟨m', p, h, h1, h2, h3⟩ := si_parent hr.si (look_node hk) hg hp
  have hn := h1.new (.ok (op := .parent k) hr trivial h) h2
  refine ⟨m', p, h, hn, ?_⟩
  have hkf : k ≠ m.fresh := by rintro rfl; rw [look_fresh hr.si] at hk; simp at hk
  have hk' : m'.look k = some t := by rw [h1.looks k hkf]; exact hk
  obtain ⟨c, hc, e⟩ := List.mem_map.mp h3
  have hsub : ∀ {ts : List (RTree (Addr × α))} {c}, c ∈ ts → c ∈ RTree.subsL ts := by
    intro ts c hc
    induction ts with
    | nil => simp at hc
    | cons u us ih =>
      simp only [RTree.subsL, List.mem_append]
      rcases List.mem_cons.mp hc with rfl | hc
      · exact .inl (RTree.self_mem_subs _)
      · exact .inr (ih hc)
  have hcp : c ∈ p.subs := by cases p; simp only [RTree.subs, List.mem_cons]; exact .inr (hsub hc)
  have : t = c := by
    obtain ⟨G, K, T, I, B⟩ := h1.si
    obtain ⟨a, g1, g2⟩ := I.look_iff.mp h2
    obtain ⟨b, g3, g4⟩ := I.look_iff.mp hk'
    obtain ⟨x, g5, g6⟩ := g2.sub hcp
    have : b = x := by rw [← g4.root, ← g6.root, e]
    subst this
    exact g4.unique g6
  rw [this]; exact hc

/-- **C37** `iter_rc` starts before the actual children ... -/
theorem c37_iter_rc {k : Var} {t : RTree (Addr × α)} (hk : m.look k = some t) (hg : ¬ m.Guarded t.data.1 true) :
    ∃ m', rstep m (.iterRc k) = .ok m' (.var m.fresh) ∧ SReachable m' ∧ m'.IterAt m.fresh (t.kids.map fun c => c.data.1) ∧
      (∀ j, j ≠ m.fresh → m'.refs j = m.refs j ∧ m'.look j = m.look j) := by
  obtain ⟨m', h, h1, h2⟩ := si_iterRc hr.si hk hg
  exact ⟨m', h, .ok (op := .iterRc k) hr trivial h, h2, fun j hj => ⟨h1.refs j hj, h1.looks j hj⟩⟩

/-- **C37** ... and `next` gives a handle to the next one, with its current subtree, as long as the rest of the children
the iterator has still to visit has not been changed. -/
theorem c37_iter_next {i j : Var} {t s c : RTree (Addr × α)} {cs : List (RTree (Addr × α))}
    (hi : m.IterAt i ((c :: cs).map fun c => c.data.1)) (hj : m.look j = some t) (hs : s ∈ t.subs) (hc : (c :: cs) <:+ s.kids) :
    ∃ m', rstep m (.iterNext i) = .ok m' (.var m.fresh) ∧ SReachable m' ∧ m'.look m.fresh = some c ∧ m'.IterAt i (cs.map fun c => c.data.1) ∧
      (∀ j, j ≠ m.fresh → m'.look j = m.look j) := by
  obtain ⟨m', h, h1, h2, h3⟩ := si_iterNext hr.si hi hj hs hc
  refine ⟨m', h, .ok (op := .iterNext i) hr ?_ h, h2, h3, h1.looks⟩
  intro b bs hb
  have : b = c.data.1 := by
    obtain ⟨it, g1, g2, g3⟩ := hi
    obtain ⟨it', g4, g5, g6⟩ := hb
    rw [g1] at g4; cases g4
    have e1 := g3 (by simp); have e2 := g6 (by simp)
    rw [e1] at e2; simpa using e2.symm
  subst this
  refine ⟨j, t, hj, RTree.subs_ids hs _ ?_⟩
  cases s with
  | node x ss =>
    simp only [RTree.ids_node, List.mem_cons]
    right
    obtain ⟨l, hl⟩ := hc
    simp only [RTree.kids_node] at hl
    have hmem : ∀ {ts : List (RTree (Addr × α))} {c}, c ∈ ts → c.data.1 ∈ RTree.idsL ts := by
      intro ts c hc
      induction ts with
      | nil => simp at hc
      | cons u us ih =>
        simp only [RTree.idsL_cons, List.mem_append]
        rcases List.mem_cons.mp hc with rfl | hc
        · exact .inl (RTree.root_mem_ids _)
        · exact .inr (ih hc)
    rw [← hl]; exact hmem (by simp)

omit hr in
theorem c37_iter_end {i : Var} (hi : m.IterAt i []) : rstep m (.iterNext i) = .ok m .none := si_iterNext_nil hi

omit hr in
/-- **C37** `size_hint` of an `IterRc` is the number of children it has still to visit. -/
theorem c37_iter_len {i : Var} {cs : List Addr} (hi : m.IterAt i cs) : rstep m (.iterLen i) = .ok m (.nat cs.length) := by
  obtain ⟨it, h1, h2, -⟩ := hi
  simp only [rstep, h1, h2]

/-- **C37** `clone` of an `IterRc`: a second iterator before the same children; nothing else changes. -/
theorem c37_iter_clone {i : Var} {cs : List Addr} (hi : m.IterAt i cs) :
    ∃ m', rstep m (.iterClone i) = .ok m' (.var m.fresh) ∧ SReachable m' ∧ m'.IterAt m.fresh cs ∧ m'.IterAt i cs ∧
      (∀ j, j ≠ m.fresh → m'.refs j = m.refs j ∧ m'.look j = m.look j) ∧ m'.excl.view = m.excl.view ∧ m'.heap = m.heap := by
  obtain ⟨it, h1, h2, h3⟩ := hi
  obtain ⟨m', h, A, h4⟩ := si_iterClone hr.si h1
  have hf : i ≠ m.fresh := by
    rintro rfl
    obtain ⟨G, K, T, I, -⟩ := hr.si
    rw [(I.fr _ (Nat.le_refl _)).2] at h1; simp at h1
  refine ⟨m', h, .ok (op := .iterClone i) hr trivial h, ⟨it, h4, h2, h3⟩, ⟨it, by rw [A.refs i hf, h1], h2, h3⟩,
    fun j hj => ⟨A.refs j hj, A.looks j hj⟩, ?_, ?_⟩
  · exact A.vars
  · simp only [rstep, h1, RMachine.bindRef, Outcome.ok.injEq] at h
    rw [← h.1]

/-- **C37** `deep_clone`: an independent tree with the cloned data (`f i` is the `i`-th call of `T::clone`, in breadth-first order). -/
theorem c37_deep_clone {k : Var} {t : RTree (Addr × α)} (f : Nat → α → α) (hk : m.look k = some t) (hg : ¬ m.Guarded t.data.1 true) :
    ∃ m', rstep m (.deepClone k f) = .ok m' (.var m.fresh) ∧ SReachable m' ∧ m'.refs = m.refs ∧
      (∀ j, m'.look j = m.look j) ∧ m'.excl.store = m.excl.store.bind (.tree (RTree.updLevel f t.plain)) := by
  obtain ⟨m', h, -, -, h1, h2, h3⟩ := si_deepClone hr.si f hk hg
  exact ⟨m', h, .ok (op := .deepClone k f) hr trivial h, h1, h2, h3⟩

/-! ### C38: guards -/

/-- **C38** `data()` succeeds unless there is a `RefMut` for this node; `data_mut()` unless there is any guard for this node.
Guards for other nodes do not matter. -/
theorem c38_borrow {k : Var} {t : RTree (Addr × α)} (hk : m.look k = some t) (hg : ¬ m.Guarded t.data.1 true) :
    ∃ m', rstep m (.borrow k) = .ok m' (.var m.fresh) ∧ SReachable m' ∧ m'.refs m.fresh = some (.guard k t.data.1 false) ∧
      (∀ j, j ≠ m.fresh → m'.refs j = m.refs j ∧ m'.look j = m.look j) ∧ m'.excl.view = m.excl.view ∧ m'.heap.log = m.heap.log := by
  obtain ⟨m', h, h1, h2⟩ := si_borrow hr.si hk hg
  exact ⟨m', h, .ok (op := .borrow k) hr trivial h, h2, fun j hj => ⟨h1.refs j hj, h1.looks j hj⟩, h1.vars, h1.log⟩

theorem c38_borrow_mut {k : Var} {t : RTree (Addr × α)} (hk : m.look k = some t) (hg : ∀ w, ¬ m.Guarded t.data.1 w) :
    ∃ m', rstep m (.borrowMut k) = .ok m' (.var m.fresh) ∧ SReachable m' ∧ m'.refs m.fresh = some (.guard k t.data.1 true) ∧
      (∀ j, j ≠ m.fresh → m'.refs j = m.refs j ∧ m'.look j = m.look j) ∧ m'.excl.view = m.excl.view ∧ m'.heap.log = m.heap.log := by
  obtain ⟨m', h, h1, h2⟩ := si_borrowMut hr.si hk hg
  exact ⟨m', h, .ok (op := .borrowMut k) hr trivial h, h2, fun j hj => ⟨h1.refs j hj, h1.looks j hj⟩, h1.vars, h1.log⟩

/-- **C38** (invariant) a `RefMut` for a node excludes every other guard for it. -/
theorem c38_exclusive {g g' k k' : Var} {a : Addr} {w : Bool} (h : m.refs g = some (.guard k a true)) (h' : m.refs g' = some (.guard k' a w)) : g = g' := by
  obtain ⟨G, K, T, I, B⟩ := hr.si
  have hu : G.Used a := (I.tgt k a (I.guards g k a true h)).2.1
  have hf := B a (by rw [I.heap]; exact hu.1)
  have hpos : gcount m.refs m.fresh a true ≠ 0 := I.guarded_iff.mpr ⟨g, k, h⟩
  rcases hf with ⟨e, -⟩ | ⟨e1, e2, -⟩
  · exact absurd e hpos
  · cases w with
    | false => exact absurd e2 (I.guarded_iff.mpr ⟨g', k', h'⟩)
    | true =>
      by_contra hne
      have := gcount_upd (refs := m.refs) (I.refs_lt h) none a true
      simp [h, isGuard, e1] at this
      have hz : gcount (upd m.refs g none) m.fresh a true ≠ 0 :=
        gcount_pos.mpr ⟨g', I.refs_lt h', k', by rw [upd_of_ne _ _ (fun e => hne e.symm)]; exact h'⟩
      omega

/-- **C38** while a `RefMut` for the node of `k` is alive, every call on `k` panics and changes nothing. -/
theorem c38_conflict_shared {k : Var} {t : RTree (Addr × α)} (hk : m.look k = some t) (hg : m.Guarded t.data.1 true) (f : Nat → α → α) :
    ∀ op ∈ [ROp.data k, .degree k, .nodeCount k, .hasNoChild k, .isRoot k, .front k, .back k, .parent k, .iterRc k, .borrow k, .deepClone k f],
      rstep m op = .panic m := by
  have hs := hr.si
  intro op ho
  simp only [List.mem_cons, List.not_mem_nil, or_false] at ho
  rcases ho with rfl | rfl | rfl | rfl | rfl | rfl | rfl | rfl | rfl | rfl | rfl
  · exact si_conflictS hs (look_node hk) hg
  · exact si_conflictS hs (look_node hk) hg
  · exact si_conflictS hs (look_node hk) hg
  · exact si_conflictS hs (look_node hk) hg
  · exact si_conflictS hs (look_node hk) hg
  · exact si_conflictS hs (look_node hk) hg
  · exact si_conflictS hs (look_node hk) hg
  · exact si_conflictS hs (look_node hk) hg
  · exact si_conflictS hs (look_node hk) hg
  · exact si_borrow_conflict hs (look_node hk) hg
  · exact si_conflictS hs (look_node hk) hg

/-- **C38** while any guard for the node of `k` is alive, every changing call on `k` panics and changes nothing ... -/
theorem c38_conflict_mut {k : Var} {t : RTree (Addr × α)} {w : Bool} (hk : m.look k = some t) (hg : m.Guarded t.data.1 w) (d : α) :
    ∀ op ∈ [ROp.popFront k, .popBack k, .detach k, .setData k d, .borrowMut k], rstep m op = .panic m := by
  have hs := hr.si
  intro op ho
  simp only [List.mem_cons, List.not_mem_nil, or_false] at ho
  rcases ho with rfl | rfl | rfl | rfl | rfl
  · exact si_conflictM hs (look_node hk) hg
  · exact si_conflictM hs (look_node hk) hg
  · exact si_conflictM hs (look_node hk) hg
  · exact si_conflictM hs (look_node hk) hg
  · exact si_borrowMut_conflict hs (look_node hk) hg

/-- **C38** ... except that an argument, which has been moved into the call, is dropped. -/
theorem c38_conflict_arg {k y : Var} {s : RTree (Addr × α)} {v : Val α} {w : Bool} (hk : m.look k = some s) (hg : m.Guarded s.data.1 w) (hy : m.excl.view y = some v) :
    ∀ op, (op ∈ [ROp.pushFront k y, .pushBack k y, .insertPrevSib k y, .insertNextSib k y] ∧ ∃ t, v = .tree t) ∨
        (op ∈ [ROp.append k y, .prepend k y] ∧ ∃ ts, v = .forest ts) →
      ∃ m', rstep m op = .panic m' ∧ SReachable m' ∧ m'.refs = m.refs ∧ (∀ j, m'.look j = m.look j) ∧
        m'.excl.store = (m.excl.store.set y none).drop v.post := by
  have hs := hr.si
  have fin : ∀ op, Safe m op → ArgPanics m y (rstep m op) → ∃ m', rstep m op = .panic m' ∧ SReachable m' ∧ m'.refs = m.refs ∧ (∀ j, m'.look j = m.look j) ∧
        m'.excl.store = (m.excl.store.set y none).drop v.post := by
    rintro op hop ⟨m', v', h, -, h1, h2, h3, h4⟩
    have : m.excl.store.vars y = some v := hy
    rw [this] at h3; cases h3
    exact ⟨m', h, .panic hr hop h, h1, h2, h4⟩
  have hd : ∃ hd, m.env y = some hd ∧ ((∃ t, v = .tree t) → ∃ r, hd = .tree r) ∧ ((∃ ts, v = .forest ts) → ∃ r, hd = .forest r) := by
    obtain ⟨G, K, T, I, B⟩ := hs
    cases he : m.env y with
    | none =>
      exfalso
      have : m.excl.view y = none := by simp [Machine.view, RMachine.excl, he]
      rw [hy] at this; simp at this
    | some hd =>
      obtain ⟨v', h1, h2⟩ := I.hden he
      rw [hy] at h2; cases h2
      refine ⟨hd, rfl, ?_, ?_⟩
      · rintro ⟨t, rfl⟩
        cases hd <;> simp [HDen] at h1 ⊢
      · rintro ⟨t, rfl⟩
        cases hd <;> simp [HDen] at h1 ⊢
  obtain ⟨hd, he, h1, h2⟩ := hd
  rintro op (⟨ho, hv⟩ | ⟨ho, hv⟩)
  · obtain ⟨r, rfl⟩ := h1 hv
    simp only [List.mem_cons, List.not_mem_nil, or_false] at ho
    rcases ho with rfl | rfl | rfl | rfl
    · exact fin _ trivial (si_pushFront_conflict hs (look_node hk) hg he)
    · exact fin _ trivial (si_pushBack_conflict hs (look_node hk) hg he)
    · exact fin _ trivial (si_insertPrevSib_conflict hs (look_node hk) hg he)
    · exact fin _ trivial (si_insertNextSib_conflict hs (look_node hk) hg he)
  · obtain ⟨r, rfl⟩ := h2 hv
    simp only [List.mem_cons, List.not_mem_nil, or_false] at ho
    rcases ho with rfl | rfl
    · exact fin _ trivial (si_append_conflict hs (look_node hk) hg he)
    · exact fin _ trivial (si_prepend_conflict hs (look_node hk) hg he)

/-- **C38** guards give access to the data of their node ... -/
theorem c38_guard_read {g k : Var} {a : Addr} {w : Bool} (h : m.refs g = some (.guard k a w)) :
    ∃ t, m.look k = some t ∧ t.data.1 = a ∧ rstep m (.guardRead g) = .ok m (.item (some t.data.2)) := by
  obtain ⟨t, h1, h2⟩ := si_guard hr.si h
  exact ⟨t, h1, h2, si_guardRead hr.si h h1⟩

theorem c38_guard_write {g k : Var} {a : Addr} (d : α) (h : m.refs g = some (.guard k a true)) :
    ∃ t m', m.look k = some t ∧ t.data.1 = a ∧ rstep m (.guardWrite g d) = .ok m' .unit ∧ SReachable m' ∧ m'.refs = m.refs ∧
      (∀ j, m'.look j = (m.look j).map (RTree.setAt a d)) ∧ m'.excl.store = m.excl.store.drop [t.data.2] := by
  obtain ⟨t, h1, h2⟩ := si_guard hr.si h
  obtain ⟨m', h3, h4⟩ := si_guardWrite hr.si d h h1
  subst h2
  exact ⟨t, m', h1, rfl, h3, .ok (op := .guardWrite g d) hr trivial h3, h4.refs, h4.looks, h4.store⟩

/-- **C38** ... and their drop ends the borrow. -/
theorem c38_release {g k : Var} {a : Addr} {w : Bool} (h : m.refs g = some (.guard k a w)) :
    ∃ m', rstep m (.drop g) = .ok m' .unit ∧ SReachable m' ∧ m'.refs = upd m.refs g none ∧ (∀ j, m'.look j = m.look j) ∧
      m'.excl.store = m.excl.store ∧ (w = true → ∀ w', ¬ m'.Guarded a w') := by
  obtain ⟨m', h1, h2⟩ := si_dropGuard hr.si h
  refine ⟨m', h1, .ok (op := .drop g) hr trivial h1, h2.refs, h2.looks, h2.store, ?_⟩
  rintro rfl w' ⟨g', k', h3⟩
  rw [h2.refs] at h3
  by_cases e : g' = g
  · subst e; simp at h3
  · rw [upd_of_ne _ _ e] at h3
    exact e (c38_exclusive hr h h3).symm

/-! ### C39: conversions -/

/-- **C39** `RcNode::from( tree )` shows the very nodes of the tree. -/
theorem c39_from_tree {x : Var} {t : RTree (Addr × α)} (hx : m.lookTree x = some t) :
    ∃ m', rstep m (.fromTree x) = .ok m' (.var m.fresh) ∧ SReachable m' ∧ m'.look m.fresh = some t ∧
      (∀ j, j ≠ m.fresh → m'.refs j = m.refs j ∧ m'.look j = m.look j) ∧
      m'.excl.store = { m.excl.store.set x none with fresh := m.fresh + 1 } := by
  obtain ⟨m', h, -, -, -, h1, h2, h3⟩ := si_fromTree hr.si hx
  exact ⟨m', h, .ok (op := .fromTree x) hr trivial h, h2, h1, h3⟩

/-- What `lookTree` shows is the tree of the exclusive API. -/
theorem c39_look_tree {x : Var} {t : RTree α} : m.excl.view x = some (.tree t) ↔ ∃ u, m.lookTree x = some u ∧ u.plain = t := by
  obtain ⟨G, K, T, I, B⟩ := hr.si
  constructor
  · intro h
    cases he : m.env x with
    | none => simp [Machine.view, RMachine.excl, he] at h
    | some hd =>
      obtain ⟨v', h1, h2⟩ := I.hden he
      rw [h] at h2; cases h2
      cases hd with
      | tree r =>
        have ho := I.hnd x _ he
        obtain ⟨u, hu⟩ := exists_lab I.inv I.kv ho.used ho.kind
        have h3 := I.lookTree_iff.mpr ⟨r, he, hu⟩
        have h4 := view_of_lookTree hr.si h3
        have : m.excl.store.vars x = some (.tree t) := h
        rw [this] at h4
        simp only [Option.some.injEq, Val.tree.injEq] at h4
        exact ⟨u, h3, h4.symm⟩
      | forest r => simp [HDen] at h1
      | iter r => simp [HDen] at h1
  · rintro ⟨u, h1, rfl⟩
    exact view_of_lookTree hr.si h1

/-- **C39** `into_tree` on the only handle to a root gives back the tree, with the very nodes. -/
theorem c39_into_tree {k : Var} {t : RTree (Addr × α)} (hk : m.look k = some t) (hg : m.guarded k = false) (hp : ¬ m.HasParent t.data.1)
    (h1 : ∀ j b, j ≠ k → m.nodeOf j = some b → b ∉ t.ids) (h2 : ∀ w c, m.refs w = some (.weak (.scattered c)) → c ∉ t.ids) :
    ∃ m', rstep m (.intoTree k) = .ok m' (.var m.fresh) ∧ SReachable m' ∧ m'.lookTree m.fresh = some t ∧ m'.refs = upd m.refs k none ∧
      (∀ j, j ≠ k → m'.look j = m.look j) ∧ m'.excl.store = m.excl.store.bind (.tree t.plain) := by
  obtain ⟨m', h, -, -, h3, h4, h5, h6⟩ := si_intoTree hr.si hk hg hp h1 h2
  refine ⟨m', h, .ok (op := .intoTree k) hr ?_ h, h5, h3, h4, h6⟩
  intro t' ht'
  rw [hk] at ht'; cases ht'
  exact .inr ⟨h1, h2⟩

/-- **C39** `into_tree` on a node with a parent panics; only the handle is dropped. -/
theorem c39_into_tree_panics {k : Var} {t : RTree (Addr × α)} (hk : m.look k = some t) (hg : m.guarded k = false) (hp : m.HasParent t.data.1) :
    ∃ m', rstep m (.intoTree k) = .panic m' ∧ SReachable m' ∧ m'.refs = upd m.refs k none ∧ (∀ j, j ≠ k → m'.look j = m.look j) ∧
      m'.excl.store = m.excl.store := by
  obtain ⟨m', h, h1, h2, h3, -, h4⟩ := c34_drop hr hk hg
  refine ⟨m', ?_, h1, h2, h3, ?_⟩
  · by_cases hgm : m.Guarded t.data.1 true
    · exact si_intoTree_conflict hr.si (look_node hk) hgm h
    · exact si_intoTree_panic hr.si (look_node hk) hp hgm h
  · rw [h4, if_pos hp]; simp [Store.drop]

/-- **C39** there and back again. -/
theorem c39_round_trip {x : Var} {t : RTree (Addr × α)} (hx : m.lookTree x = some t) :
    ∃ m₁ m₂, rstep m (.fromTree x) = .ok m₁ (.var m.fresh) ∧ rstep m₁ (.intoTree m.fresh) = .ok m₂ (.var (m.fresh + 1)) ∧ SReachable m₂ ∧
      m₂.lookTree (m.fresh + 1) = some t ∧ m₂.excl.view (m.fresh + 1) = some (.tree t.plain) ∧ m₂.heap.log = m.heap.log ∧
      ∀ j, j ≠ m.fresh → m₂.look j = m.look j := by
  -- no handle refers to a node of an exclusive tree
  have hno : (∀ j b, m.nodeOf j = some b → b ∉ t.ids) ∧ ∀ w c, m.refs w = some (.weak (.scattered c)) → c ∉ t.ids := by
    obtain ⟨G, K, T, I, B⟩ := hr.si
    obtain ⟨r, h1, h2⟩ := I.lookTree_iff.mp hx
    have hE : ∀ b, b ∈ t.ids → G.Used b ∧ Excl m.env K b := by
      intro b hb
      obtain ⟨y, hy, rfl⟩ := List.mem_map.mp hb
      have hre := den_pre_reach h2 y hy
      exact ⟨I.inv.reach_used (I.hnd x _ h1).used hre, x, _, h1, hre⟩
    refine ⟨fun j b hj hb => ?_, fun w c hw hc => ?_⟩
    · rw [I.nodeOf] at hj
      exact (I.tgt j b hj).2.2 (hE b hb).2
    · obtain ⟨a, e, -, h⟩ := I.wk w _ hw
      cases e
      exact (h (hE c hc).1.1).2 (hE c hc).2
  obtain ⟨m1, e1, s1, h2, h3, h4⟩ := c39_from_tree hr hx
  have hf1 : m1.fresh = m.fresh + 1 := by
    have : m1.excl.store.fresh = m.fresh + 1 := by rw [h4]
    exact this
  have hfm : ∀ w, m.refs w ≠ none → w ≠ m.fresh := by
    intro w hw e
    obtain ⟨G, K, T, I, B⟩ := hr.si
    exact hw (e ▸ (I.fr m.fresh (Nat.le_refl _)).2)
  have hrc : ∃ r, m1.refs m.fresh = some (.rc r) := look_ref h2
  have hold : ∀ {w r}, m1.refs w = some r → (∀ q, r ≠ .rc q) → m.refs w = some r ∧ w ≠ m.fresh := by
    intro w r hw hq
    have : w ≠ m.fresh := by
      intro e; subst e
      obtain ⟨q, hq'⟩ := hrc
      rw [hw] at hq'; cases hq'; exact hq q rfl
    exact ⟨by rw [← (h3 w this).1]; exact hw, this⟩
  have hg : m1.guarded m.fresh = false := by
    by_contra hne
    have : m1.guarded m.fresh = true := by simpa using hne
    simp only [RMachine.guarded, List.any_eq_true] at this
    obtain ⟨g, -, hg⟩ := this
    split at hg
    · rename_i k' a w hgr
      simp only [beq_iff_eq] at hg
      subst hg
      obtain ⟨h5, -⟩ := hold hgr (by simp)
      obtain ⟨u, hu, -⟩ := si_guard hr.si h5
      rw [look_fresh hr.si] at hu; simp at hu
    · simp at hg
  have hp : ¬ m1.HasParent t.data.1 := by
    rintro ⟨j, u, h5, h6⟩
    have h7 : t.data.1 ∈ u.ids := by cases u; simp only [RTree.ids_node, List.mem_cons]; exact .inr h6
    by_cases e : j = m.fresh
    · subst e
      rw [h2] at h5; cases h5
      have := si_nodup s1.si h2
      cases t with
      | node y ts => simp only [RTree.ids_node, List.nodup_cons] at this; exact this.1 h6
    · rw [(h3 j e).2] at h5
      -- the node is shown in the old state, but it belongs to an exclusive value
      obtain ⟨G, K, T, I, B⟩ := hr.si
      obtain ⟨r, g1, g2⟩ := I.lookTree_iff.mp hx
      have := I.shown.mp ⟨j, u, h5, h7⟩
      exact this.2 ⟨x, _, g1, by rw [g2.root]; exact .refl _⟩
  obtain ⟨m2, e2, s2, g1, -, g2, g3⟩ := c39_into_tree s1 h2 hg hp
    (fun j b hj hb => hno.1 j b (by simp only [RMachine.nodeOf] at hb ⊢; rw [← (h3 j hj).2]; exact hb))
    (fun w c hw => hno.2 w c (hold hw (by simp)).1)
  rw [hf1] at e2 g1
  refine ⟨m1, m2, e1, e2, s2, g1, view_of_lookTree s2.si g1, ?_, fun j hj => by rw [g2 j hj, (h3 j hj).2]⟩
  have : m2.excl.store.dropped = m.excl.store.dropped := by rw [g3, Store.bind]; rw [h4]; rfl
  exact this

end
end Trees
