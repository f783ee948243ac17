import Verif.Spec.Store
/-
Specification: how much work a call may do. The budget is a function of the call and of the plain rose trees that the
variables hold; the unit is one access to a field of a node or to the header of a block, one call of the allocator (in
either direction) or one call of a destructor.
-/
namespace Trees
namespace Spec
open RTree
variable {α : Type}

/-- To find the node at a path, by `iter().nth(i)` for each index `i` of the path: `i + 3` for each. -/
def walk (p : Path) : Nat := (p.map (· + 3)).sum

/-- The same for a proper node. -/
def walkTo : Loc → Nat
  | .root => 0
  | .child q i => walk (q ++ [i])

/-- How deep the parent of a node is. -/
def depth : Loc → Nat
  | .root => 0
  | .child q _ => q.length

/-- The children of the node at path `p` of variable `x`. -/
def kids (S : Store α) (x : Var) (p : Path) : List (RTree α) :=
  match S.vars x with
  | some v => (kidsAt v.kids p).getD []
  | none => []

/-- The number of nodes of a variable. -/
def nodes (S : Store α) (x : Var) : Nat :=
  match S.vars x with
  | some v => v.count
  | none => 0

/-- The number of nodes of the subtree of a node. -/
def nodesAt (S : Store α) (x : Var) : Loc → Nat
  | .root => nodes S x
  | .child q i => match (kids S x q)[i]? with
    | some t => t.count
    | none => 0

/-- The budget of a call. -/
def budget (S : Store α) : Op α → Nat
  -- constant
  | .treeNew _ => 1
  | .forestNew => 1
  | .abandon _ => 3
  | .intoIter _ => 12
  | .iterNext _ => 11
  | .iterLen _ => 1
  -- constant, once the node is found
  | .setData _ l _ => walkTo l + 3
  | .data _ l => walkTo l + 1
  | .degree _ p => walk p + 1
  | .nodeCount _ p => walk p + 2
  | .hasNoChild _ p => walk p + 1
  | .frontData _ p => walk p + 2
  | .backData _ p => walk p + 2
  -- proportional to the depth: the sizes of all ancestors are kept up to date
  | .pushFront _ p _ => walk p + 3 * p.length + 11
  | .pushBack _ p _ => walk p + 3 * p.length + 11
  | .popFront _ p => walk p + 3 * p.length + 11
  | .popBack _ p => walk p + 3 * p.length + 11
  | .detach _ l => walkTo l + 3 * depth l + 17
  -- … or, on a root, the drop of the argument
  | .insertPrevSib _ .root y => 18 * nodes S y + 9
  | .insertNextSib _ .root y => 18 * nodes S y + 9
  | .insertPrevSib _ (.child q i) _ => walkTo (.child q i) + 3 * q.length + 12
  | .insertNextSib _ (.child q i) _ => walkTo (.child q i) + 3 * q.length + 12
  -- proportional to the number of children that are moved, not of their descendants
  | .prepend _ p y => walk p + 3 * p.length + 2 * (kids S y []).length + 25
  | .append _ p y => walk p + 3 * p.length + 2 * (kids S y []).length + 25
  | .childData x p => walk p + 2 * (kids S x p).length + 3
  -- proportional to the number of nodes
  | .drop x => 19 * nodes S x + 10
  | .mapBfs x l _ => walkTo l + 18 * nodesAt S x l + 5
  | .mapBfsForest x p _ => walk p + 18 * countL (kids S x p) + 18
  | .rebuild x _ => 45 * nodes S x + 55
  | .treeFromTuple t => 11 * t.toTree.count + 9
  | .forestFromTuple ts => 11 * countL (Tup.toTreeL ts) + 8
  -- proportional to the number of calls of `next()`
  | .bfs _ l k => walkTo l + 5 * k + 1
  | .bfsChildren _ p k => walk p + 5 * k + 3
  | .bfsMut _ l k _ => walkTo l + 8 * k + 1
  | .bfsChildrenMut _ p k _ => walk p + 8 * k + 3
  -- … and what is left is dropped
  | .intoBfs x k => 32 * k + 19 * nodes S x + 24

/-- The budget of a program: each call is charged in the state in which it is made. -/
def budgetAll : Store α → List (Op α) → Nat
  | _, [] => 0
  | S, op :: ops => budget S op + match specStep S op with
    | .ok S' _ => budgetAll S' ops
    | .panic S' => budgetAll S' ops
    | .rejected => budgetAll S ops
    | .bad => budgetAll S ops

end Spec
end Trees
