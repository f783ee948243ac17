import Verif.Model.Swap
import Verif.Props.Observe
/-
C60: nodes cannot be moved out of their place.

The full property — whatever safe code does with the references and nodes it gets, the trees stay intact — is false of the
code, although the API returns `Pin<&mut Node<T>>`: `Node<T>` is `Unpin`, so that `mem::swap` exchanges whole nodes, and
`Node<T>: Default`, so that safe code can own and move a node that has children.
-/
namespace Trees
set_option linter.unusedSimpArgs false
set_option linter.unusedVariables false
variable {α : Type}

/-- A history of calls that return. -/
def nexec (m : NMachine α) : List (NOp α) → Option (NMachine α)
  | [] => some m
  | op :: ops => match nstep m op with
    | .ok m' _ => nexec m' ops
    | _ => none

/-- The outcome of `op` after the calls `ops` (which must return). -/
def nafter (m : NMachine α) (ops : List (NOp α)) (op : NOp α) : Outcome (NMachine α) α := match nexec m ops with
  | some m' => nstep m' op
  | none => .rejected

/-- What a call returned. -/
def Outcome.val? {σ : Type} : Outcome σ α → Option (Out α)
  | .ok _ o => some o
  | _ => none

section
variable {m : Machine α} (hr : Reachable m)
include hr

omit hr in
/-- **C60** (refutation) in any state: make two trees, exchange their roots, drop the first; any use of the second is an access to
freed memory. (The nodes were exchanged with the `owner` pointers to their boxes, so that dropping the one releases the
box of the other.) -/
theorem c60_refuted_swap (d d' : α) :
    ∀ op ∈ [Op.drop (m.fresh + 1), .data (m.fresh + 1) .root, .degree (m.fresh + 1) [], .popFront (m.fresh + 1) []],
      nafter m.withNodes [.call (.treeNew d), .call (.treeNew d'), .swapRoots m.fresh (m.fresh + 1), .call (.drop m.fresh)] (.call op) = .bad := by
  have n1 : m.heap.nextAddr ≠ m.heap.nextAddr + 1 := Nat.ne_of_lt (Nat.lt_succ_self _)
  have v1 : m.fresh ≠ m.fresh + 1 := Nat.ne_of_lt (Nat.lt_succ_self _)
  simp [nafter, nexec, nstep, Machine.withNodes, step, Machine.run, treeNew, makeNode, Machine.retVar, Machine.ret, NMachine.run, swapNodes, Heap.swapped, exch, upd_apply, n1, n1.symm, v1,
    v1.symm, Data.setOwner, Handle.addr, dropRoot, dropLoop, popFront, getSize, rd, Size.default, dropNode, getData, setData, wr, rcDrop, logDrop,
    Machine.setEnv, Machine.onNode, Machine.onKids, Handle.isIter, locate, dataRef, degree]

/-- **C60** (refutation) in any state, for any two trees: before the exchange of the roots the parent of the first child is the
root, after the exchange it is not. -/
theorem c60_refuted_parent {x y : Var} (hxy : x ≠ y) {tx : RTree α} {d : α} {t : RTree α} {ts : List (RTree α)} (hx : m.view x = some (.tree tx))
    (hy : m.view y = some (.tree (.node d (t :: ts)))) :
    ∃ m0 m1 m2, nstep m.withNodes (.frontParentIsRoot y) = .ok m0 (.bool true) ∧ nstep m.withNodes (.swapRoots x y) = .ok m1 .unit ∧
      nstep m1 (.frontParentIsRoot x) = .ok m2 (.bool false) := by
  obtain ⟨K, M⟩ := Proof.reachable_minv hr
  have hA := M.abs_store.vars x
  have hB := M.abs_store.vars y
  have hx' : m.store.vars x = some (.tree tx) := hx
  have hy' : m.store.vars y = some (.tree (.node d (t :: ts))) := hy
  rw [hx'] at hA
  rw [hy'] at hB
  cases ex : m.env x with
  | none => rw [ex] at hA; simp at hA
  | some hdx =>
  cases ey : m.env y with
  | none => rw [ey] at hB; simp at hB
  | some hdy =>
  rw [ex] at hA
  rw [ey] at hB
  obtain ⟨v, ev, hA⟩ := hA
  obtain rfl := Option.some.inj ev
  obtain ⟨v, ev, hB⟩ := hB
  obtain rfl := Option.some.inj ev
  cases hdx <;> simp only [HDen] at hA
  cases hdy <;> simp only [HDen] at hB
  rename_i a b
  have oa := M.hnd x _ ex
  have ob := M.hnd y _ ey
  have ra : m.heap.up a = none := oa.root
  have rb : m.heap.up b = none := ob.root
  have hab : a ≠ b := fun e => hxy (M.dist x y _ _ ex ey e)
  obtain ⟨c, ks, hK⟩ : ∃ c ks, K b = c :: ks := by
    simp only [Den] at hB
    cases hk : K b with
    | nil => rw [hk] at hB; simp [DenL] at hB
    | cons c ks => exact ⟨c, ks, rfl⟩
  have hc : c ∈ K b := by simp [hK]
  have hca : c ≠ a := fun e => by have := M.inv.up_of_mem hc; rw [e, ra] at this; simp at this
  have hcb : c ≠ b := fun e => by have := M.inv.up_of_mem hc; rw [e, rb] at this; simp at this
  have la : m.heap.live a = true := oa.used.1
  have lb : m.heap.live b = true := ob.used.1
  have lc : m.heap.live c = true := (M.inv.used_of_mem hc).1
  have hh : m.heap.head b = some c := by rw [M.inv.l.head b ob.used, hK]; rfl
  have hu : m.heap.up c = some b := M.inv.up_of_mem hc
  have fb : (m.heap.data b).isForest = false := by
    obtain ⟨d, e⟩ := Heap.isVal_iff.mp (show m.heap.IsVal b from ob.kind)
    revert e; simp only [Heap.val]; cases m.heap.data b <;> simp [Data.val?, Data.isForest]
  have fa : (m.heap.data a).isForest = false := by
    obtain ⟨d, e⟩ := Heap.isVal_iff.mp (show m.heap.IsVal a from oa.kind)
    revert e; simp only [Heap.val]; cases m.heap.data a <;> simp [Data.val?, Data.isForest]
  refine ⟨m.withNodes, ⟨⟨m.heap.swapped a b, m.env, m.fresh⟩, fun _ => none⟩, ⟨⟨m.heap.swapped a b, m.env, m.fresh⟩, fun _ => none⟩, ?_, ?_, ?_⟩
  · simp [nstep, Machine.withNodes, ey, NMachine.run, frontParent, front_ok lb, hh, unwrap, parent, parentLoop, getUp, rd, lc, hu, isForest, getData, lb, fb]
  · simp [nstep, Machine.withNodes, hxy, ex, ey, NMachine.run, swapNodes, la, lb]
  · simp [nstep, ex, NMachine.run, frontParent, front, getHead, rd, la, Heap.swapped, exch, upd_apply, hab, hab.symm, hh, unwrap, parent, parentLoop, getUp, lc, hca, hcb, hu,
      isForest, getData, lb, fa]

omit hr in
/-- `parent` of a node whose parent is the node variable. -/
theorem parent_of_none {h : Heap α} {c n : Addr} (lc : h.live c = true) (hu : h.up c = some n) (ln : h.live n = true) (hd : h.data n = .none) :
    parent c h = .ok (some n) h := by
  simp [parent, parentLoop, getUp, rd, lc, hu, isForest, getData, ln, hd, Data.isForest]

omit hr in
theorem parent_dead {h : Heap α} {c n : Addr} (lc : h.live c = true) (hu : h.up c = some n) (ln : h.live n = false) : parent c h = .err .ub h := by
  simp [parent, parentLoop, getUp, rd, lc, hu, isForest, getData, ln]

/-- A tree in a variable is a live node. -/
theorem tree_addr {x : Var} {t : RTree α} (hx : m.view x = some (.tree t)) :
    ∃ a, m.env x = some (.tree a) ∧ m.heap.live a = true ∧ a < m.heap.nextAddr ∧ m.heap.up a = none := by
  obtain ⟨K, M⟩ := Proof.reachable_minv hr
  have hA := M.abs_store.vars x
  have hx' : m.store.vars x = some (.tree t) := hx
  rw [hx'] at hA
  cases ex : m.env x with
  | none => rw [ex] at hA; simp at hA
  | some hd =>
    rw [ex] at hA
    obtain ⟨v, ev, hA⟩ := hA
    obtain rfl := Option.some.inj ev
    cases hd <;> simp only [HDen] at hA
    rename_i a
    have o := M.hnd x _ ex
    exact ⟨a, rfl, o.used.1, M.inv.b a o.used, o.root⟩

omit hr in
/-- `push_back` on a node without children and parent. -/
theorem pushBack_empty {h : Heap α} {n a : Addr} (hna : a ≠ n) (ln : h.live n = true) (la : h.live a = true) (hh : h.head n = none)
    (hu : h.up n = none) : ∃ h', pushBack n a h = .ok () h' ∧ h'.live = h.live ∧ h'.head n = some a ∧ h'.up a = some n ∧ h'.data = h.data ∧ h'.nextAddr = h.nextAddr := by
  simp [pushBack, setUp, wr, la, ln, hasNoChild, getHead, rd, hh, setHead, setTail, nodeCount, isForest, getData, getSize, incSizes, setSize, getUp, upd_apply, hna, hna.symm, hu]
  cases (h.data a).isForest <;> simp [la, ln, getSize, rd, getUp, upd_apply, hna, hna.symm, hu, setSize, wr, incLoop] <;>
    (cases h.nextAddr <;> simp [incLoop, upd_apply])

/-- The three programs below. -/
theorem node_cases {x : Var} {t : RTree α} (hx : m.view x = some (.tree t)) :
    (nafter m.withNodes [.nodeDefault, .nodePush m.fresh x] (.frontParentIs m.fresh)).val? = some (.bool true) ∧
    (nafter m.withNodes [.nodeDefault, .nodeMove m.fresh, .nodePush (m.fresh + 1) x] (.frontParentIs (m.fresh + 1))).val? = some (.bool true) ∧
    nafter m.withNodes [.nodeDefault, .nodePush m.fresh x, .nodeMove m.fresh] (.frontParentIs (m.fresh + 1)) = .bad := by
  obtain ⟨a, ex, la, lt, ra⟩ := tree_addr hr hx
  have ha : a ≠ m.heap.nextAddr := Nat.ne_of_lt lt
  have ha1 : a ≠ m.heap.nextAddr + 1 := Nat.ne_of_lt (Nat.lt_succ_of_lt lt)
  have n1 : m.heap.nextAddr ≠ m.heap.nextAddr + 1 := Nat.ne_of_lt (Nat.lt_succ_self _)
  have v1 : m.fresh ≠ m.fresh + 1 := Nat.ne_of_lt (Nat.lt_succ_self _)
  obtain ⟨h1, c1⟩ : ∃ h1, h1 = (⟨upd m.heap.live m.heap.nextAddr true, upd m.heap.prev m.heap.nextAddr none,
    upd m.heap.next m.heap.nextAddr none, upd m.heap.head m.heap.nextAddr none, upd m.heap.tail m.heap.nextAddr none, upd m.heap.up m.heap.nextAddr none,
    upd m.heap.size m.heap.nextAddr .default, upd m.heap.data m.heap.nextAddr .none, upd m.heap.count m.heap.nextAddr 1, upd m.heap.borrow m.heap.nextAddr 0,
    m.heap.vec, m.heap.nextAddr + 1, m.heap.nextVec, m.heap.log⟩ : Heap α) := ⟨_, rfl⟩
  have d1 : nodeDefault m.heap = .ok m.heap.nextAddr h1 := by rw [c1]; rfl
  have l1 : h1.live m.heap.nextAddr = true := by rw [c1]; simp
  have l1a : h1.live a = true := by rw [c1]; simp [upd_apply, ha, la]
  have k1 : h1.head m.heap.nextAddr = none := by rw [c1]; simp
  have u1 : h1.up m.heap.nextAddr = none := by rw [c1]; simp
  have a1 : h1.nextAddr = m.heap.nextAddr + 1 := by rw [c1]
  have t1 : h1.data m.heap.nextAddr = .none := by rw [c1]; simp
  clear c1
  obtain ⟨h2, e1, e2, e3, e4, e5, e6⟩ := pushBack_empty (n := m.heap.nextAddr) (a := a) ha l1 l1a k1 u1
  obtain ⟨h3, e7, e8, e9, e10, e11, e12, e13⟩ : ∃ h3, nodeMove m.heap.nextAddr h1 = .ok (m.heap.nextAddr + 1) h3 ∧ h3.live (m.heap.nextAddr + 1) = true ∧
      h3.live a = true ∧ h3.head (m.heap.nextAddr + 1) = none ∧ h3.up (m.heap.nextAddr + 1) = none ∧ h3.data (m.heap.nextAddr + 1) = .none ∧ True := by
    refine ⟨_, by simp only [nodeMove, l1, a1]; rfl, ?_⟩
    simp [upd_apply, n1.symm, ha, ha1, l1a, k1, u1, t1]
  obtain ⟨h4, f1, f2, f3, f4, f5, f6⟩ := pushBack_empty (n := m.heap.nextAddr + 1) (a := a) ha1 e8 e9 e10 e11
  refine ⟨?_, ?_, ?_⟩
  · simp [nafter, nexec, nstep, Machine.withNodes, NMachine.run, d1, ex, e1, frontParent, front, getHead, rd, e2, l1, e3, unwrap,
      parent_of_none (c := a) (n := m.heap.nextAddr) (h := h2) (by rw [e2]; exact l1a) e4 (by rw [e2]; exact l1) (by rw [e5]; exact t1), Outcome.val?]
  · simp [nafter, nexec, nstep, Machine.withNodes, NMachine.run, d1, ex, e7, f1, frontParent, front, getHead, rd, f2, e8, f3, unwrap,
      parent_of_none (c := a) (n := m.heap.nextAddr + 1) (h := h4) (by rw [f2]; exact e9) f4 (by rw [f2]; exact e8) (by rw [f5]; exact e12), Outcome.val?]
  · have hm : ∃ h5, nodeMove m.heap.nextAddr h2 = .ok (m.heap.nextAddr + 1) h5 ∧ h5.live (m.heap.nextAddr + 1) = true ∧ h5.live a = true ∧
        h5.head (m.heap.nextAddr + 1) = some a ∧ h5.up a = some m.heap.nextAddr ∧ h5.live m.heap.nextAddr = false := by
      refine ⟨_, by simp only [nodeMove, e2, l1, a1, e6]; rfl, ?_⟩
      simp [upd_apply, n1, n1.symm, ha, ha1, l1a, e3, e4]
    obtain ⟨h5, g1, g2, g3, g4, g5, g6⟩ := hm
    simp [nafter, nexec, nstep, Machine.withNodes, NMachine.run, d1, ex, e1, g1, frontParent, front, getHead, rd, g2, g4, unwrap, parent_dead g3 g5 g6]

/-- **C60** in any state, for any tree: a node of one's own gets the tree as its child. As long as the node stays where it is it is
the parent of the child; it may also be moved before it gets children. (Missing: moves afterwards, see `c60_refuted_move`.) -/
theorem c60_node_partial {x : Var} {t : RTree α} (hx : m.view x = some (.tree t)) :
    (nafter m.withNodes [.nodeDefault, .nodePush m.fresh x] (.frontParentIs m.fresh)).val? = some (.bool true) ∧
    (nafter m.withNodes [.nodeDefault, .nodeMove m.fresh, .nodePush (m.fresh + 1) x] (.frontParentIs (m.fresh + 1))).val? = some (.bool true) :=
  ⟨(node_cases hr hx).1, (node_cases hr hx).2.1⟩

/-- **C60** (refutation) in any state, for any tree: if the node is moved when it has the child, `parent()` of the child accesses
the old place — in safe code. -/
theorem c60_refuted_move {x : Var} {t : RTree α} (hx : m.view x = some (.tree t)) :
    nafter m.withNodes [.nodeDefault, .nodePush m.fresh x, .nodeMove m.fresh] (.frontParentIs (m.fresh + 1)) = .bad := (node_cases hr hx).2.2

end

/-- **C60** in any state: a moved node has left its old variable, and nodes made before and after stay in variables of their own. -/
theorem c60_moves (m : Machine α) : ∃ m' a b, nexec m.withNodes [.nodeDefault, .nodeMove m.fresh, .nodeDefault] = some m' ∧
    m'.nodes m.fresh = none ∧ m'.nodes (m.fresh + 1) = some a ∧ m'.nodes (m.fresh + 2) = some b ∧ a ≠ b ∧ m'.base.fresh = m.fresh + 3 ∧
    m'.base.env = m.env := by
  have v1 : m.fresh ≠ m.fresh + 1 := Nat.ne_of_lt (Nat.lt_succ_self _)
  have v2 : m.fresh + 1 ≠ m.fresh + 2 := Nat.ne_of_lt (Nat.lt_succ_self _)
  have v3 : m.fresh ≠ m.fresh + 2 := Nat.ne_of_lt (Nat.lt_of_lt_of_le (Nat.lt_succ_self _) (Nat.le_succ _))
  have n2 : m.heap.nextAddr + 1 ≠ m.heap.nextAddr + 1 + 1 := Nat.ne_of_lt (Nat.lt_succ_self _)
  simp [nexec, nstep, Machine.withNodes, NMachine.run, nodeDefault, nodeMove, upd_apply, v1, v1.symm, v2, v2.symm, v3, v3.symm, n2]

/-! ### Cases -/

/-- The trees of the demo state, `0` with two children and `3`: exchange their roots; the child `1` of `3` now has another parent. -/
example : ∃ m0 m1 m2, nstep demo.withNodes (.frontParentIsRoot 0) = .ok m0 (.bool true) ∧ nstep demo.withNodes (.swapRoots 3 0) = .ok m1 .unit ∧
    nstep m1 (.frontParentIsRoot 3) = .ok m2 (.bool false) := c60_refuted_parent demo_reachable (by decide) demo_view3 demo_view0
example : nafter demo.withNodes [.nodeDefault, .nodePush demo.fresh 0, .nodeMove demo.fresh] (.frontParentIs (demo.fresh + 1)) = .bad :=
  c60_refuted_move demo_reachable demo_view0
example : (nafter demo.withNodes [.nodeDefault, .nodePush demo.fresh 0] (.frontParentIs demo.fresh)).val? = some (.bool true) :=
  (c60_node_partial demo_reachable demo_view0).1

end Trees
