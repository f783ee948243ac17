import Verif.Props.Crash
/-
C47: `Tree::from(BfsTree{ iter, size })` and `Forest::from(BfsForest{ iter, size })` with an iterator of the client's own.
-/
namespace Trees
set_option linter.unusedSimpArgs false
variable {α : Type}
open RTree

section
variable {m : Machine α} (hr : CReachable m)
include hr

/-- **C47** (part) An iterator that yields the exact breadth-first visits of `t` gives `t`, in a new variable; nothing else
changes. -/
theorem c47_tree_partial (t : RTree α) :
    ∃ m', cstep m (.ofVisits t none) = .ok m' (.var m.fresh) ∧ CReachable m' ∧ m'.view m.fresh = some (.tree t) ∧
      (∀ z, z ≠ m.fresh → m'.view z = m.view z) ∧ m'.store.dropped = m.store.dropped := by
  obtain ⟨m', h1, h2, h3⟩ := cstep_ok hr (op := .ofVisits t none) (S := m.store.bind (.tree t)) (o := .var m.store.fresh) rfl
  have hvw : m'.view = m'.store.vars := rfl
  have hf : m.store.fresh = m.fresh := rfl
  refine ⟨m', h1, h3, ?_, ?_, by rw [h2]; rfl⟩
  · rw [hvw, h2]; simp [Store.bind, hf]
  · intro z hz; rw [hvw, h2]; simp [Store.bind, hf, hz]; rfl

/-- **C47** (part) The same for forests, with the announced size exact. -/
theorem c47_forest_partial (ts : List (RTree α)) :
    ∃ m', cstep m (.ofVisitsForest ts none) = .ok m' (.var m.fresh) ∧ CReachable m' ∧ m'.view m.fresh = some (.forest ts) ∧
      (∀ z, z ≠ m.fresh → m'.view z = m.view z) ∧ m'.store.dropped = m.store.dropped := by
  obtain ⟨m', h1, h2, h3⟩ := cstep_ok hr (op := .ofVisitsForest ts none) (S := m.store.bind (.forest ts)) (o := .var m.store.fresh) rfl
  have hvw : m'.view = m'.store.vars := rfl
  have hf : m.store.fresh = m.fresh := rfl
  refine ⟨m', h1, h3, ?_, ?_, by rw [h2]; rfl⟩
  · rw [hvw, h2]; simp [Store.bind, hf]
  · intro z hz; rw [hvw, h2]; simp [Store.bind, hf, hz]; rfl

/-- **C47** (part) An iterator that panics when asked for visit `n`: the variables are as before; the items that it has not
yielded are destroyed, those it has yielded are leaked. -/
theorem c47_panics_partial (t : RTree α) {n : Nat} (hn : n < t.count) :
    ∃ m', cstep m (.ofVisits t (some n)) = .panic m' ∧ CReachable m' ∧ (∀ z, m'.view z = m.view z) ∧
      m'.store.dropped = m.store.dropped ++ ((levelOrder [t]).drop n).map data := by
  obtain ⟨m', h1, h2, h3⟩ := cstep_panic hr (op := .ofVisits t (some n)) (S := m.store.drop (((levelOrder [t]).drop n).map data)) (by
    simp [specCrash, unvisited, hn])
  have hvw : m'.view = m'.store.vars := rfl
  refine ⟨m', h1, h3, ?_, by rw [h2]; rfl⟩
  intro z; rw [hvw, h2]; rfl

end

/-- The visits determine the tree: the statements above are about *the* tree with these visits. -/
theorem visitList_injective {t u : RTree α} (h : visitList [t] = visitList [u]) : t = u := by
  obtain ⟨m1, e1, _, v1, _⟩ := c47_tree_partial (m := Machine.empty) .init t
  obtain ⟨m2, e2, _, v2, _⟩ := c47_tree_partial (m := Machine.empty) .init u
  simp only [cstep, h] at e1
  simp only [cstep] at e2
  rw [e1] at e2
  obtain ⟨rfl, -⟩ := Outcome.ok.inj e2
  rw [v1] at v2
  exact Val.tree.inj (Option.some.inj v2)

/-- Without any visit the call panics before anything happens. -/
theorem c47_empty_partial (j : Option Nat) (h : Heap α) : treeOfVisits [] j h = .err .panic h := by
  simp [treeOfVisits, treeFromBfs, listNext, unwrap, M.throw]

/-- How a run ended. -/
def Res.how {β : Type} : Res (Heap α) β → String
  | .ok _ _ => "ok"
  | .err .panic _ => "panic"
  | .err .ub _ => "ub"
  | .err .fuel _ => "fuel"
  | .err .alloc _ => "alloc"

/-- **C47** in full would say that every sequence of visits, consistent or not, is either turned into the tree it describes
or refused with a panic.  It is false: two visits, the first of which announces no descendants, make the crate write
outside of the block it has allocated. -/
theorem c47_refuted_ub : ¬ ∀ vs : List (Nat × Size), (∃ a h, treeOfVisits vs none Heap.empty = .ok a h) ∨
    ∃ h, treeOfVisits vs none Heap.empty = .err .panic h := by
  intro h
  have hs : (treeOfVisits [(0, ⟨1, 0⟩), (1, ⟨0, 0⟩)] none (Heap.empty : Heap Nat)).how = "ub" := by decide +kernel
  rcases h [(0, ⟨1, 0⟩), (1, ⟨0, 0⟩)] with ⟨a, g, e⟩ | ⟨g, e⟩ <;> rw [e] at hs <;> simp [Res.how] at hs

/-- What `node_count()` of the `i`-th slot of a new block reports. -/
def countIn (r : Res (Heap Nat) Addr) (a : Addr) : Option Nat :=
  match r with
  | .ok _ h => match nodeCount a h with
    | .ok n _ => some n
    | .err _ _ => none
  | .err _ _ => none

/-- It is false too for sequences that the crate accepts: here the only child, a leaf, reports six nodes. -/
theorem c47_refuted_count : ¬ ∀ (vs : List (Nat × Size)) (n : Nat), countIn (treeOfVisits vs none Heap.empty) 1 = some n → n ≤ vs.length := by
  intro h
  have := h [(0, ⟨1, 1⟩), (1, ⟨0, 5⟩)] 6 (by decide +kernel)
  simp at this

/-- Not vacuous. -/
example : visitList [.node 0 [.node 1 [.node 5 []], .node 2 []]] =
    [(0, ⟨2, 3⟩), (1, ⟨1, 1⟩), (2, ⟨0, 0⟩), (5, ⟨0, 0⟩)] := by rfl

example : ((execC cstep demo [.ofVisits (.node 7 [.node 8 []]) none, .ofVisits (.node 7 [.node 8 []]) (some 1), .call (.drop 4)]).2,
    (execC cstep demo [.ofVisits (.node 7 [.node 8 []]) none, .ofVisits (.node 7 [.node 8 []]) (some 1), .call (.drop 4)]).1.heap.log) =
    ([.ok () (.var 4), .panic (), .ok () .unit], [8, 8, 7]) := by decide +kernel

end Trees
