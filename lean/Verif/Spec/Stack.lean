import Verif.Spec.Store
import Verif.Spec.Shared
/-
Specification: how deep a tree is.
-/
namespace Trees
namespace RTree
variable {α : Type}

mutual
/-- The number of nodes on the longest path from the root to a leaf. -/
def height : RTree α → Nat
  | node _ ks => heightL ks + 1
/-- The height of the highest tree. -/
def heightL : List (RTree α) → Nat
  | [] => 0
  | t :: ts => max (height t) (heightL ts)
end

/-- A tree without branches: `n + 1` nodes, each the only child of the previous one. -/
def chain (d : α) : Nat → RTree α
  | 0 => node d []
  | n+1 => node d [chain d n]

end RTree

/-- The number of nested calls of destructors that the drop of a value takes: one for each level (the root of a forest is a
level, too); an `IntoIter` drops its trees one after the other, then its empty forest. -/
def Val.frames {α : Type} : Val α → Nat
  | .tree t => t.height
  | .forest ts => RTree.heightL ts + 1
  | .iter ts => max (RTree.heightL ts) 1

mutual
/-- The number of nested calls of destructors that the drop of the last handle to the root of a shared tree takes: the drop of a handle
to a node that is `held` otherwise is one call, the drop of another one includes those of the handles to the children. -/
def RTree.framesRc {ι α : Type} (held : ι → Bool) : RTree (ι × α) → Nat
  | .node x ts => if held x.1 then 1 else RTree.framesRcL held ts + 1
/-- The largest number for the trees. -/
def RTree.framesRcL {ι α : Type} (held : ι → Bool) : List (RTree (ι × α)) → Nat
  | [] => 0
  | t :: ts => max (RTree.framesRc held t) (RTree.framesRcL held ts)
end

end Trees
