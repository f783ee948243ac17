import Verif.Props.Bfs
import Verif.Proof.TupleBad
/-
C16, C17: `Tree::from_tuple` and `Forest::from_tuple`.

The full claims ("for every nested tuple") are FALSE of the code: `NodeVec::construct_tree` and
`construct_forest` advance the write position of a level only when a frame directly follows a leaf
(node_vec.rs 133-147, 176-183).  Proved here:
* for every tuple of the shape `Tup.good` — at every node, every child but the last one is a leaf or ends
  in a leaf — the tree built is the one denoted;
* for every other tuple, the call destroys at least one of the items it was given (or does not return);
* hence the shape `good` is exactly the domain on which the claim holds.
-/
namespace Trees
set_option linter.unusedSimpArgs false
variable {α : Type}
open RTree Tup

theorem toTreeL_eq_map (ts : List (Tup α)) : toTreeL ts = ts.map toTree := by
  induction ts with
  | nil => rfl
  | cons k ks ih => simp [toTreeL, ih]

section
variable {m : Machine α} (hr : Reachable m)
include hr

/-- **C16** on the shapes where it holds: the new tree is the tree that the tuple denotes; it is stored
contiguously; no item is dropped; nothing else changes. -/
theorem c16_from_tuple_partial {t : Tup α} (hg : t.good = true) :
    ∃ m', step m (.treeFromTuple t) = .ok m' (.var m.fresh) ∧ Reachable m' ∧ m'.view m.fresh = some (.tree t.toTree) ∧
      m'.Contiguous m.fresh ∧ (∀ z, z ≠ m.fresh → m'.view z = m.view z) ∧ m'.store.dropped = m.store.dropped := by
  obtain ⟨m', h1, h2, h3⟩ := step_ok hr (op := .treeFromTuple t) (by simp only [specStep, hg, if_true]; rfl)
  obtain ⟨g1, g2, g3⟩ := view_bind h2
  obtain ⟨K, M⟩ := Proof.reachable_minv hr
  exact ⟨m', h1, h3, g1, (treeFromTuple_block M).contiguous h3 h1, g2, g3⟩

/-- **C17** on the shapes where it holds. -/
theorem c17_from_tuple_partial {ts : List (Tup α)} (hg : goodL ts = true) :
    ∃ m', step m (.forestFromTuple ts) = .ok m' (.var m.fresh) ∧ Reachable m' ∧
      m'.view m.fresh = some (.forest (ts.map toTree)) ∧
      m'.Contiguous m.fresh ∧ (∀ z, z ≠ m.fresh → m'.view z = m.view z) ∧ m'.store.dropped = m.store.dropped := by
  obtain ⟨m', h1, h2, h3⟩ := step_ok hr (op := .forestFromTuple ts) (by simp only [specStep, hg, if_true]; rfl)
  obtain ⟨g1, g2, g3⟩ := view_bind h2
  obtain ⟨K, M⟩ := Proof.reachable_minv hr
  have e := toTreeL_eq_map ts
  exact ⟨m', h1, h3, by rw [g1, e], (forestFromTuple_block M).contiguous h3 h1, g2, g3⟩

/-- **C16**, the exact domain: the call returns with none of the given items destroyed if and only if the
shape is good. -/
theorem c16_from_tuple_iff (t : Tup α) :
    (∃ a h', treeFromTuple t m.heap = .ok a h' ∧ h'.log.length = m.heap.log.length) ↔ t.good = true := by
  constructor
  · rintro ⟨a, h', e, e2⟩
    by_contra hg
    have := treeFromTuple_bad (by simpa using hg) e
    omega
  · intro hg
    obtain ⟨m', h1, -, -, -, -, h2⟩ := c16_from_tuple_partial hr hg
    simp only [step, hg, if_true, Machine.run] at h1
    cases e : treeFromTuple t m.heap with
    | ok a h' =>
      refine ⟨a, h', rfl, ?_⟩
      rw [e] at h1
      simp only [Machine.retVar, Outcome.ok.injEq] at h1
      have h3 : m'.heap.log = m.heap.log := h2
      rw [← h1.1] at h3
      exact congrArg List.length h3
    | err r h' => rw [e] at h1; cases r <;> simp at h1

/-- **C17**, the exact domain. -/
theorem c17_from_tuple_iff (ts : List (Tup α)) :
    (∃ a h', forestFromTuple ts m.heap = .ok a h' ∧ h'.log.length = m.heap.log.length) ↔ goodL ts = true := by
  constructor
  · rintro ⟨a, h', e, e2⟩
    by_contra hg
    have := forestFromTuple_bad (by simpa using hg) e
    omega
  · intro hg
    obtain ⟨m', h1, -, -, -, -, h2⟩ := c17_from_tuple_partial hr hg
    simp only [step, hg, if_true, Machine.run] at h1
    cases e : forestFromTuple ts m.heap with
    | ok a h' =>
      refine ⟨a, h', rfl, ?_⟩
      rw [e] at h1
      simp only [Machine.retVar, Outcome.ok.injEq] at h1
      have h3 : m'.heap.log = m.heap.log := h2
      rw [← h1.1] at h3
      exact congrArg List.length h3
    | err r h' => rw [e] at h1; cases r <;> simp at h1

end

/-- `(0, (1, (2, 3)), 4)`. -/
def badTup : Tup Nat := .tup 0 [.tup 1 [.tup 2 [.bare 3]], .bare 4]

/-- **C16** is false of the code: `Tree::from_tuple((0, (1, (2, 3)), 4))` denotes the tree `0(1(2(3)) 4)`, but
the call destroys the item `1` and the tree it returns reads as `0(4)`. -/
theorem c16_refuted :
    badTup.toTree = .node 0 [.node 1 [.node 2 [.node 3 []]], .node 4 []] ∧
    ∃ a h', treeFromTuple badTup (Machine.empty : Machine Nat).heap = .ok a h' ∧ h'.log = [1] ∧
      readTree 5 a h' = .ok (.node 0 [.node 4 []]) h' :=
  ⟨rfl, _, _, rfl, rfl, rfl⟩

/-- **C17** is false of the code: `Forest::from_tuple(((1, (2, 3)), 4))` destroys the item `1`; the forest it
returns reads as the single tree `4`. -/
theorem c17_refuted :
    (∀ t ∈ badTup.elems.map toTree, t ∈ [RTree.node 1 [.node 2 [.node 3 []]], .node 4 []]) ∧
    ∃ a h', forestFromTuple badTup.elems (Machine.empty : Machine Nat).heap = .ok a h' ∧ h'.log = [1] ∧
      (children a >>= readMany (readTree 5)) h' = .ok [.node 4 []] h' :=
  ⟨fun _ h => h, _, _, rfl, rfl, rfl⟩

/-- The full statement of C16, refuted: not for every tuple does the tree returned read as the tree denoted. -/
theorem c16_full_refuted : ¬ ∀ t : Tup Nat, ∃ a h', treeFromTuple t (Machine.empty : Machine Nat).heap = .ok a h' ∧
    readHandle (.tree a) h' = .ok (.tree t.toTree) h' := by
  intro hf
  obtain ⟨a, h', e, e2⟩ := hf badTup
  have key : (treeFromTuple badTup >>= fun a => readHandle (.tree a)) (Machine.empty : Machine Nat).heap =
      .ok (.tree (.node 0 [.node 4 []])) h' := by
    rw [show treeFromTuple badTup (Machine.empty : Machine Nat).heap = .ok 0 _ from rfl] at e
    simp only [Res.ok.injEq] at e
    rw [← e.2]; rfl
  rw [M.bind_apply, e, Res.bind_ok, e2] at key
  simp [badTup, toTree, toTreeL] at key

/-- The full statement of C17, refuted. -/
theorem c17_full_refuted : ¬ ∀ ts : List (Tup Nat), ∃ a h', forestFromTuple ts (Machine.empty : Machine Nat).heap = .ok a h' ∧
    readHandle (.forest a) h' = .ok (.forest (ts.map toTree)) h' := by
  intro hf
  obtain ⟨a, h', e, e2⟩ := hf badTup.elems
  have key : (forestFromTuple badTup.elems >>= fun a => readHandle (.forest a)) (Machine.empty : Machine Nat).heap =
      .ok (.forest [.node 4 []]) h' := by
    rw [show forestFromTuple badTup.elems (Machine.empty : Machine Nat).heap = .ok 0 _ from rfl] at e
    simp only [Res.ok.injEq] at e
    rw [← e.2]; rfl
  rw [M.bind_apply, e, Res.bind_ok, e2] at key
  simp [badTup, elems, toTree, toTreeL] at key

/-- Hypotheses met: `(0, (1, 2, 3), (4, (5, 6)))` is a good shape with three levels below the root. -/
example : (Tup.tup 0 [.tup 1 [.bare 2, .bare 3], .tup 4 [.tup 5 [.bare 6]]]).good = true := by rfl
example : ∃ m', step demo2 (.treeFromTuple (.tup 10 [.tup 11 [.bare 12, .bare 13], .tup 14 [.tup 15 [.bare 16]]])) = .ok m' (.var 9) ∧
    m'.view 9 = some (.tree (.node 10 [.node 11 [.node 12 [], .node 13 []], .node 14 [.node 15 [.node 16 []]]])) := by
  obtain ⟨m', h1, -, h2, -⟩ := c16_from_tuple_partial demo2_reachable
    (t := .tup 10 [.tup 11 [.bare 12, .bare 13], .tup 14 [.tup 15 [.bare 16]]]) rfl
  exact ⟨m', h1, h2⟩
example : ∃ m', step demo2 (.forestFromTuple [.tup 11 [.bare 12, .bare 13], .tup 14 [.tup 15 [.bare 16]]]) = .ok m' (.var 9) ∧
    m'.view 9 = some (.forest [.node 11 [.node 12 [], .node 13 []], .node 14 [.node 15 [.node 16 []]]]) := by
  obtain ⟨m', h1, -, h2, -⟩ := c17_from_tuple_partial demo2_reachable
    (ts := [.tup 11 [.bare 12, .bare 13], .tup 14 [.tup 15 [.bare 16]]]) rfl
  exact ⟨m', h1, h2⟩

end Trees
