import Verif.Spec.Bfs
/-
Specification of the tuple notation: which tree a nested tuple denotes, and what a visitor should report.
-/
namespace Trees
variable {α : Type}

/-- Values accepted as tuple notation — tuple.rs 26-46 (`bare`: a lone data item of type `T`) and
48-113 (`tup`: the tuple `(d, k1, ..., kn)`).  The crate implements the traits for `n ≤ 32`; here `n`
is unbounded. -/
inductive Tup (α : Type) where
  | bare (d : α)
  | tup (d : α) (ks : List (Tup α))

namespace Tup

mutual
/-- The tree that a tuple denotes. -/
def toTree : Tup α → RTree α
  | bare d => .node d []
  | tup d ks => .node d (toTreeL ks)
/-- The trees that the elements of a tuple denote. -/
def toTreeL : List (Tup α) → List (RTree α)
  | [] => []
  | k :: ks => toTree k :: toTreeL ks
end

/-- The data item of the root, and the elements that denote its children. -/
def item : Tup α → α
  | bare d => d
  | tup d _ => d
def elems : Tup α → List (Tup α)
  | bare _ => []
  | tup _ ks => ks

/-- The tuple denotes a single node. -/
def isLeaf (t : Tup α) : Bool := t.elems.isEmpty

/-- The last element exists and denotes a single node. -/
def leafLast (t : Tup α) : Bool :=
  match t.elems.getLast? with
  | some k => k.isLeaf
  | none => false

mutual
/-- The shapes that `from_tuple` handles: at every node, every child but the last is a leaf or has a
leaf as its last child. -/
def good : Tup α → Bool
  | bare _ => true
  | tup _ ks => goodL ks
def goodL : List (Tup α) → Bool
  | [] => true
  | k :: ks => good k && (ks.isEmpty || k.isLeaf || k.leafLast) && goodL ks
end

end Tup

/-- What a tuple visitor reports — tuple.rs 7-13. -/
inductive Visit (α : Type) where
  | branch (d : α)
  | leaf (d : α)
  | frame

/-- The data of a visit. -/
def Visit.data? : Visit α → Option α
  | branch d => some d
  | leaf d => some d
  | frame => none

namespace RTree

mutual
/-- What a pre-order visitor should report of a tree: each subtree with the visit. A node with children
is reported before its children, a frame after them. -/
def preVisits : RTree α → List (Visit α × RTree α)
  | node d [] => [(.leaf d, node d [])]
  | node d (k :: ks) => (.branch d, node d (k :: ks)) :: preVisitsL (k :: ks) ++ [(.frame, node d (k :: ks))]
def preVisitsL : List (RTree α) → List (Visit α × RTree α)
  | [] => []
  | t :: ts => preVisits t ++ preVisitsL ts
end

mutual
/-- What a post-order visitor should report: a frame, the children, then the node. -/
def postVisits : RTree α → List (Visit α × RTree α)
  | node d [] => [(.leaf d, node d [])]
  | node d (k :: ks) => (.frame, node d (k :: ks)) :: postVisitsL (k :: ks) ++ [(.branch d, node d (k :: ks))]
def postVisitsL : List (RTree α) → List (Visit α × RTree α)
  | [] => []
  | t :: ts => postVisits t ++ postVisitsL ts
end

end RTree
end Trees
