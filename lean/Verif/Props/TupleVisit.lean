import Verif.Model.Tuple
import Verif.Proof.BfsSpec
/-
C33: the visitors and constants of tuple notation.
-/
namespace Trees
set_option linter.unusedSimpArgs false
variable {α : Type}

/-- What a size hint should be: number of children and number of nodes below. -/
def RTree.sizeHint (t : RTree α) : Size := ⟨t.kids.length, t.count - 1⟩

namespace Proof
open Tup RTree

theorem toTreeL_length (ks : List (Tup α)) : (toTreeL ks).length = ks.length := by
  induction ks with
  | nil => rfl
  | cons k ks ih => simp [toTreeL, ih]

mutual
theorem size_eq : ∀ t : Tup α, t.size = t.toTree.sizeHint
  | .bare d => by simp [Tup.size, toTree, RTree.sizeHint]
  | .tup d ks => by simp [Tup.size, toTree, RTree.sizeHint, sizeSum_eq ks, toTreeL_length]
theorem sizeSum_eq : ∀ ks : List (Tup α), sizeSum ks = countL (toTreeL ks)
  | [] => rfl
  | k :: ks => by
    have h1 := congrArg Size.descendants (size_eq k)
    have h2 : 0 < k.toTree.count := by cases k.toTree; simp
    simp only [RTree.sizeHint] at h1
    simp only [sizeSum, toTreeL, countL, h1, sizeSum_eq ks]
    omega
end

theorem level_length_append (n : Nat) (xs ys : List (RTree α)) : (level n (xs ++ ys)).length = (level n xs).length + (level n ys).length := by
  induction n generalizing xs ys with
  | zero => simp [level]
  | succ n ih => simp [level, ih]

mutual
theorem descendants_eq : ∀ (t : Tup α) (n : Nat), t.descendants n = (level (n + 1) [t.toTree]).length
  | .bare d, n => by
    have : ∀ n, level n ([] : List (RTree α)) = [] := by intro n; induction n <;> simp [level, *]
    simp [descendants, toTree, level, this]
  | .tup d ks, 0 => by simp [descendants, toTree, level, toTreeL_length]
  | .tup d ks, n+1 => by
    simp only [descendants, toTree, level, List.flatMap_cons, List.flatMap_nil, List.append_nil, kids_node]
    exact descSum_eq ks n
theorem descSum_eq : ∀ (ks : List (Tup α)) (n : Nat), descSum ks n = (level (n + 1) (toTreeL ks)).length
  | [], n => by
    have : ∀ n, level n ([] : List (RTree α)) = [] := by intro n; induction n <;> simp [level, *]
    simp [descSum, toTreeL, this]
  | k :: ks, n => by
    rw [descSum, toTreeL, descendants_eq k n, descSum_eq ks n]
    exact (level_length_append (n + 1) [k.toTree] (toTreeL ks)).symm
end

theorem level_nil (n : Nat) : level n ([] : List (RTree α)) = [] := by induction n <;> simp [level, *]
theorem level_cons_nil (n : Nat) (t : RTree α) (ts) : level n (t :: ts) = [] ↔ level n [t] = [] ∧ level n ts = [] := by
  have := level_length_append n [t] ts
  simp only [List.singleton_append] at this
  rw [← List.length_eq_zero_iff, ← List.length_eq_zero_iff, ← List.length_eq_zero_iff]; omega

mutual
theorem height_iff : ∀ (t : Tup α) (n : Nat), level n [t.toTree] = [] ↔ t.height ≤ n
  | .bare d, 0 => by simp [height, level]
  | .bare d, n+1 => by simp [height, toTree, level, level_nil]
  | .tup d ks, 0 => by simp [height, level]
  | .tup d ks, n+1 => by simp [height, toTree, level, heightMax_iff ks n]; omega
theorem heightMax_iff : ∀ (ks : List (Tup α)) (n : Nat), level n (toTreeL ks) = [] ↔ heightMax ks ≤ n
  | [], n => by simp [toTreeL, level_nil, heightMax]
  | k :: ks, n => by
    rw [toTreeL, level_cons_nil, height_iff k n, heightMax_iff ks n, heightMax]
    omega
end

mutual
theorem preorder_eq : ∀ t : Tup α, t.preorder = t.toTree.preVisits.map Prod.fst
  | .bare d => by simp [Tup.preorder, toTree, preVisits]
  | .tup d [] => by simp [Tup.preorder, toTree, toTreeL, preVisits, Tup.size]
  | .tup d (k :: ks) => by
    have := preorderL_eq (k :: ks)
    simp only [toTreeL] at this
    simp [Tup.preorder, toTree, toTreeL, preVisits, Tup.size, this]
theorem preorderL_eq : ∀ ks : List (Tup α), preorderL ks = (preVisitsL (toTreeL ks)).map Prod.fst
  | [] => by simp [preorderL, toTreeL, preVisitsL]
  | k :: ks => by simp [preorderL, toTreeL, preVisitsL, preorder_eq k, preorderL_eq ks]
end

mutual
theorem postorder_eq : ∀ t : Tup α, t.postorder = t.toTree.postVisits.map Prod.fst
  | .bare d => by simp [Tup.postorder, toTree, postVisits]
  | .tup d [] => by simp [Tup.postorder, toTree, toTreeL, postVisits, Tup.size]
  | .tup d (k :: ks) => by
    have := postorderL_eq (k :: ks)
    simp only [toTreeL] at this
    simp [Tup.postorder, toTree, toTreeL, postVisits, Tup.size, this]
theorem postorderL_eq : ∀ ks : List (Tup α), postorderL ks = (postVisitsL (toTreeL ks)).map Prod.fst
  | [] => by simp [postorderL, toTreeL, postVisitsL]
  | k :: ks => by simp [postorderL, toTreeL, postVisitsL, postorder_eq k, postorderL_eq ks]
end

mutual
theorem preHint_eq : ∀ t : Tup α, t.preorderWithSizeHint = t.toTree.preVisits.map (fun q => (q.1, q.2.sizeHint))
  | .bare d => by simp [Tup.preorderWithSizeHint, toTree, preVisits, RTree.sizeHint]
  | .tup d [] => by simp [Tup.preorderWithSizeHint, toTree, toTreeL, preVisits, Tup.size, RTree.sizeHint, sizeSum]
  | .tup d (k :: ks) => by
    have := preHintL_eq (k :: ks)
    have hs := size_eq (.tup d (k :: ks))
    have hd : ((Tup.tup d (k :: ks)).size).degree ≠ 0 := by simp [Tup.size]
    simp only [toTreeL, toTree] at this hs
    rw [Tup.preorderWithSizeHint, if_neg hd, hs, this]
    simp only [toTree, toTreeL, preVisits, List.map_append, List.map_cons, List.map_nil]
theorem preHintL_eq : ∀ ks : List (Tup α), preorderWithSizeHintL ks = (preVisitsL (toTreeL ks)).map (fun q => (q.1, q.2.sizeHint))
  | [] => by simp [preorderWithSizeHintL, toTreeL, preVisitsL]
  | k :: ks => by simp [preorderWithSizeHintL, toTreeL, preVisitsL, preHint_eq k, preHintL_eq ks]
end

mutual
theorem postHint_pre : ∀ t : Tup α, t.postorderWithSizeHint = t.preorderWithSizeHint
  | .bare d => rfl
  | .tup d ks => by simp only [Tup.postorderWithSizeHint, Tup.preorderWithSizeHint, postHintL_pre ks]
theorem postHintL_pre : ∀ ks : List (Tup α), postorderWithSizeHintL ks = preorderWithSizeHintL ks
  | [] => rfl
  | k :: ks => by simp only [postorderWithSizeHintL, preorderWithSizeHintL, postHint_pre k, postHintL_pre ks]
end

theorem preVisits_data : ∀ t : RTree α, (t.preVisits.map Prod.fst).filterMap Visit.data? = t.pre := by
  suffices h : (∀ t : RTree α, (t.preVisits.map Prod.fst).filterMap Visit.data? = t.pre) ∧ True from h.1
  refine ⟨fun t => ?_, trivial⟩
  induction t using RTree.rec (motive_2 := fun ts => ((preVisitsL ts).map Prod.fst).filterMap Visit.data? = preL ts) with
  | node d ks ih => cases ks <;> simp_all [preVisits, Visit.data?]
  | nil => simp [preVisitsL]
  | cons t ts h1 h2 => simp_all [preVisitsL]

theorem postVisits_data : ∀ t : RTree α, (t.postVisits.map Prod.fst).filterMap Visit.data? = t.post := by
  suffices h : (∀ t : RTree α, (t.postVisits.map Prod.fst).filterMap Visit.data? = t.post) ∧ True from h.1
  refine ⟨fun t => ?_, trivial⟩
  induction t using RTree.rec (motive_2 := fun ts => ((postVisitsL ts).map Prod.fst).filterMap Visit.data? = postL ts) with
  | node d ks ih => cases ks <;> simp_all [postVisits, Visit.data?, List.filterMap_cons]
  | nil => simp [postVisitsL]
  | cons t ts h1 h2 => simp_all [postVisitsL]

end Proof
open Proof

/-- **C33**: `preorder` reports the visits of the denoted tree, in depth-first order. -/
theorem c33_preorder (t : Tup α) : t.preorder = t.toTree.preVisits.map Prod.fst := preorder_eq t
/-- The same for forests. -/
theorem c33_preorder_forest (ts : List (Tup α)) : Tup.preorderL ts = (RTree.preVisitsL (Tup.toTreeL ts)).map Prod.fst := preorderL_eq ts
/-- **C33**: `preorder_with_size_hint` reports the same visits, each with the number of children and of
nodes below. -/
theorem c33_preorder_with_size_hint (t : Tup α) :
    t.preorderWithSizeHint = t.toTree.preVisits.map (fun q => (q.1, ⟨q.2.kids.length, q.2.count - 1⟩)) := preHint_eq t
theorem c33_preorder_with_size_hint_forest (ts : List (Tup α)) :
    Tup.preorderWithSizeHintL ts = (RTree.preVisitsL (Tup.toTreeL ts)).map (fun q => (q.1, ⟨q.2.kids.length, q.2.count - 1⟩)) := preHintL_eq ts
/-- **C33**: `postorder` reports frame, children, node. -/
theorem c33_postorder (t : Tup α) : t.postorder = t.toTree.postVisits.map Prod.fst := postorder_eq t
theorem c33_postorder_forest (ts : List (Tup α)) : Tup.postorderL ts = (RTree.postVisitsL (Tup.toTreeL ts)).map Prod.fst := postorderL_eq ts

/-- The data items come in depth-first order: before the children, or after them. -/
theorem c33_preorder_data (t : Tup α) : t.preorder.filterMap Visit.data? = t.toTree.pre := by
  rw [preorder_eq]; exact preVisits_data _
theorem c33_postorder_data (t : Tup α) : t.postorder.filterMap Visit.data? = t.toTree.post := by
  rw [postorder_eq]; exact postVisits_data _

/-- **C33**: `SIZE` is the size of the denoted tree. -/
theorem c33_size (t : Tup α) : t.size = ⟨t.toTree.kids.length, t.toTree.count - 1⟩ := size_eq t
theorem c33_size_forest (ts : List (Tup α)) : forestSize ts = ⟨(Tup.toTreeL ts).length, RTree.countL (Tup.toTreeL ts)⟩ := by
  simp [forestSize, sizeSum_eq, toTreeL_length]

/-- **C33**: `height` is the number of non-empty levels of the denoted tree. -/
theorem c33_height (t : Tup α) (n : Nat) : RTree.level n [t.toTree] = [] ↔ t.height ≤ n := height_iff t n
theorem c33_height_forest (ts : List (Tup α)) (n : Nat) : RTree.level n (Tup.toTreeL ts) = [] ↔ forestHeight ts ≤ n := by
  rw [heightMax_iff]; simp [forestHeight]

/-- **C33**: `descendants(level)` is the number of nodes `level + 1` steps below the root (in a
forest: at that level). -/
theorem c33_descendants (t : Tup α) (n : Nat) : t.descendants n = (RTree.level (n + 1) [t.toTree]).length := descendants_eq t n
theorem c33_descendants_forest (ts : List (Tup α)) (n : Nat) : forestDescendants ts n = (RTree.level n (Tup.toTreeL ts)).length := by
  cases n with
  | zero => simp [forestDescendants, RTree.level, toTreeL_length]
  | succ n => exact descSum_eq ts n

/-- **C33**, false part: `postorder_with_size_hint` reports the visits of `preorder_with_size_hint`. -/
theorem c33_postorder_with_size_hint_is_preorder (t : Tup α) : t.postorderWithSizeHint = t.preorderWithSizeHint := postHint_pre t

/-- **C33**, false part: the visits of `postorder_with_size_hint` are not those of `postorder`:
for `(0, 1)` they are `Branch(0), Leaf(1), Frame` instead of `Frame, Leaf(1), Branch(0)`. -/
theorem c33_postorder_with_size_hint_refuted :
    ¬ ∀ t : Tup Nat, t.postorderWithSizeHint = t.toTree.postVisits.map (fun q => (q.1, ⟨q.2.kids.length, q.2.count - 1⟩)) := by
  intro h
  have := h (.tup 0 [.bare 1])
  simp [postHint_pre, Tup.preorderWithSizeHint, Tup.preorderWithSizeHintL, Tup.size, Tup.toTree, Tup.toTreeL, RTree.postVisits] at this

/-- What remains true of `postorder_with_size_hint`: it agrees with the specification on trees with at
most one node. -/
theorem c33_postorder_with_size_hint_partial (t : Tup α) :
    t.postorderWithSizeHint = t.toTree.postVisits.map (fun q => (q.1, ⟨q.2.kids.length, q.2.count - 1⟩)) ↔ t.toTree.kids = [] := by
  rw [postHint_pre, preHint_eq]
  cases h : t.toTree with
  | node d ks =>
    cases ks with
    | nil => simp [RTree.preVisits, RTree.postVisits, RTree.sizeHint]
    | cons k ks => simp [RTree.preVisits, RTree.postVisits]

/-- All of C33 that holds. -/
theorem c33_visitors_partial (t : Tup α) :
    t.preorder = t.toTree.preVisits.map Prod.fst ∧ t.postorder = t.toTree.postVisits.map Prod.fst ∧
    t.preorderWithSizeHint = t.toTree.preVisits.map (fun q => (q.1, ⟨q.2.kids.length, q.2.count - 1⟩)) ∧
    t.size = ⟨t.toTree.kids.length, t.toTree.count - 1⟩ ∧
    (∀ n, RTree.level n [t.toTree] = [] ↔ t.height ≤ n) ∧
    (∀ n, t.descendants n = (RTree.level (n + 1) [t.toTree]).length) :=
  ⟨preorder_eq t, postorder_eq t, preHint_eq t, size_eq t, height_iff t, descendants_eq t⟩

/-- Example: `(0, (1, 2, 3), 4)`. -/
example : (Tup.tup 0 [.tup 1 [.bare 2, .bare 3], .bare 4]).postorder =
    [.frame, .frame, .leaf 2, .leaf 3, .branch 1, .leaf 4, .branch 0] := by rfl

end Trees
