import Verif.Spec.Tree
/-
Specification of breadth-first (level) order.
-/
namespace Trees
namespace RTree
variable {α β : Type}

/-- The subtrees at depth `n` below a list of trees, left to right (depth 0: the trees themselves). -/
def level : Nat → List (RTree α) → List (RTree α)
  | 0, ts => ts
  | n+1, ts => level n (ts.flatMap kids)

/-- All subtrees by depth, and left to right at each depth (the depth is less than the number of
nodes, so the range covers all levels). -/
def levelOrder (ts : List (RTree α)) : List (RTree α) := (List.range (countL ts)).flatMap (fun n => level n ts)

/-- What a breadth-first visit reports of a subtree: data, number of children, number of nodes below. -/
def visit (t : RTree α) : α × Nat × Nat := (t.data, t.kids.length, t.count - 1)

mutual
/-- Apply a function that may depend on the position of the node. -/
def mapPath (g : Path → α → β) : Path → RTree α → RTree β
  | p, node d ks => node (g p d) (mapPathL g p 0 ks)
/-- The same for the trees with numbers `i, i+1, …` below position `p`. -/
def mapPathL (g : Path → α → β) : Path → Nat → List (RTree α) → List (RTree β)
  | _, _, [] => []
  | p, i, t :: ts => mapPath g (p ++ [i]) t :: mapPathL g p (i + 1) ts
end

/-- A tree in which every data item is paired with its position. -/
def withPath (t : RTree α) : RTree (Path × α) := mapPath (fun p d => (p, d)) [] t
def withPathL (ts : List (RTree α)) : List (RTree (Path × α)) := mapPathL (fun p d => (p, d)) [] 0 ts

/-- Positions in breadth-first order. -/
def levelPaths (t : RTree α) : List Path := (levelOrder [withPath t]).map (fun s => s.data.1)
def levelPathsL (ts : List (RTree α)) : List Path := (levelOrder (withPathL ts)).map (fun s => s.data.1)

/-- Apply `f k` to the data of the `k`-th node in breadth-first order. -/
def updLevel (f : Nat → α → β) (t : RTree α) : RTree β :=
  mapPath (fun p d => f ((levelPaths t).idxOf p) d) [] t
def updLevelL (f : Nat → α → β) (ts : List (RTree α)) : List (RTree β) :=
  mapPathL (fun p d => f ((levelPathsL ts).idxOf p) d) [] 0 ts

end RTree
end Trees
