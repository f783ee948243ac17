import Verif.Model.Node
import Verif.Spec.Tuple
/-
Tuple notation: the traits `TupleTree` (tuple.rs 15-24), `TupleForest` (tuple.rs 115-124) and construction of contiguous trees and
forests from tuples (node_vec.rs, tree.rs, forest.rs).  A visitor calls its callback once per visit; the
model gives the list of these calls.
-/
namespace Trees
variable {α : Type}
namespace Tup

mutual
/-- `TupleTree::SIZE` — tuple.rs 27, 53-56. -/
def size : Tup α → Size
  | bare _ => ⟨0, 0⟩
  | tup _ ks => ⟨ks.length, sizeSum ks⟩
/-- `0 $( + SIZE.descendants+1 )*` — tuple.rs 55, 133. -/
def sizeSum : List (Tup α) → Nat
  | [] => 0
  | k :: ks => (size k).descendants + 1 + sizeSum ks
end

mutual
/-- `TupleTree::descendants` — tuple.rs 28, 58-64. -/
def descendants : Tup α → Nat → Nat
  | bare _, _ => 0
  | tup _ ks, 0 => ks.length
  | tup _ ks, n+1 => descSum ks n
/-- `0 $( + descendants( indirect_level-1 ) )*` — tuple.rs 62, 140. -/
def descSum : List (Tup α) → Nat → Nat
  | [], _ => 0
  | k :: ks, n => descendants k n + descSum ks n
end

mutual
/-- `TupleTree::height` — tuple.rs 29, 66-68. -/
def height : Tup α → Nat
  | bare _ => 1
  | tup _ ks => 1 + heightMax ks
/-- `*[ 0, heights ... ].iter().max_by(..).unwrap()` — tuple.rs 67, 145. -/
def heightMax : List (Tup α) → Nat
  | [] => 0
  | k :: ks => max (height k) (heightMax ks)
end

mutual
/-- `TupleTree::preorder` — tuple.rs 31-33, 70-78. -/
def preorder : Tup α → List (Visit α)
  | bare d => [.leaf d]
  | tup d ks =>
    if (size (tup d ks)).degree = 0 then [.leaf d]
    else .branch d :: preorderL ks ++ [.frame]
/-- `TupleForest::preorder` — tuple.rs 148-150. -/
def preorderL : List (Tup α) → List (Visit α)
  | [] => []
  | k :: ks => preorder k ++ preorderL ks
end

mutual
/-- `TupleTree::preorder_with_size_hint` — tuple.rs 35-37, 80-89. -/
def preorderWithSizeHint : Tup α → List (Visit α × Size)
  | bare d => [(.leaf d, ⟨0, 0⟩)]
  | tup d ks =>
    if (size (tup d ks)).degree = 0 then [(.leaf d, size (tup d ks))]
    else (.branch d, size (tup d ks)) :: preorderWithSizeHintL ks ++ [(.frame, size (tup d ks))]
/-- `TupleForest::preorder_with_size_hint` — tuple.rs 152-154. -/
def preorderWithSizeHintL : List (Tup α) → List (Visit α × Size)
  | [] => []
  | k :: ks => preorderWithSizeHint k ++ preorderWithSizeHintL ks
end

mutual
/-- `TupleTree::postorder` — tuple.rs 39-41, 91-99. -/
def postorder : Tup α → List (Visit α)
  | bare d => [.leaf d]
  | tup d ks =>
    if (size (tup d ks)).degree = 0 then [.leaf d]
    else .frame :: postorderL ks ++ [.branch d]
/-- `TupleForest::postorder` — tuple.rs 156-158. -/
def postorderL : List (Tup α) → List (Visit α)
  | [] => []
  | k :: ks => postorder k ++ postorderL ks
end

mutual
/-- `TupleTree::postorder_with_size_hint` — tuple.rs 43-45, 101-110 (sic: branch first, frame last). -/
def postorderWithSizeHint : Tup α → List (Visit α × Size)
  | bare d => [(.leaf d, ⟨0, 0⟩)]
  | tup d ks =>
    if (size (tup d ks)).degree = 0 then [(.leaf d, size (tup d ks))]
    else (.branch d, size (tup d ks)) :: postorderWithSizeHintL ks ++ [(.frame, size (tup d ks))]
/-- `TupleForest::postorder_with_size_hint` — tuple.rs 160-162. -/
def postorderWithSizeHintL : List (Tup α) → List (Visit α × Size)
  | [] => []
  | k :: ks => postorderWithSizeHint k ++ postorderWithSizeHintL ks
end

end Tup

/-- `TupleForest` for the tuple `(k1, ..., kn)` — tuple.rs 127-165; `descendants` — 136-142. -/
def forestDescendants (ks : List (Tup α)) : Nat → Nat
  | 0 => ks.length
  | n+1 => Tup.descSum ks n
/-- `TupleForest::SIZE` — tuple.rs 131-134. -/
def forestSize (ks : List (Tup α)) : Size := ⟨ks.length, Tup.sizeSum ks⟩
/-- `TupleForest::height` — tuple.rs 144-146. -/
def forestHeight (ks : List (Tup α)) : Nat := 0 + Tup.heightMax ks

/-- Loop `for depth in 2..height` — node_vec.rs 74-77, 131-134: `prev` is `offsets[depth-1]`, `k` rounds
remain, starting with `descendants( j )`. -/
def offsetsLoop (desc : Nat → Nat) : Nat → Nat → Nat → List Nat
  | 0, _, _ => []
  | k+1, prev, j => (prev + desc j) :: offsetsLoop desc k (prev + desc j) (j + 1)

/-- The vector `offsets` — node_vec.rs 70-78, 127-135. -/
def initOffsets (height : Nat) (desc : Nat → Nat) : List Nat :=
  if height > 1 then 0 :: 1 :: offsetsLoop desc (height - 2) 1 0 else [0]

/-- The variables captured by the closure — node_vec.rs 82-85, 141-143. -/
structure Cursor where
  leaf : Bool
  parent : Nat
  depth : Nat
  offsets : List Nat

/-- `offsets[ i ]` panics when out of range. -/
def idx (xs : List Nat) (i : Nat) : M α Nat :=
  match xs[i]? with
  | some x => pure x
  | none => M.throw .panic

/-- `offsets[ i ] += 1`. -/
def bump (xs : List Nat) (i : Nat) : M α (List Nat) :=
  match xs[i]? with
  | some x => pure (xs.set i (x + 1))
  | none => M.throw .panic

/-- The closure after the root — node_vec.rs 96-118 (tree: `guard` is true), 145-166 (forest: false).
Underflow of `depth - 1` panics. -/
def placeVisit (guard : Bool) (v : Nat) (c : Cursor) (visit : Visit α) (size : Size) : M α Cursor := do
  match visit with
  | .branch d => do
    let i ← idx c.offsets c.depth
    appendChild v c.parent i d size
    let i ← idx c.offsets c.depth
    return { c with parent := i, depth := c.depth + 1 }
  | .leaf d => do
    let i ← idx c.offsets c.depth
    appendChild v c.parent i d size
    let offsets ← bump c.offsets c.depth
    return { c with offsets := offsets, leaf := true }
  | .frame =>
    if c.depth = 0 then M.throw .panic
    else if c.leaf then do
      let offsets ← bump c.offsets (c.depth - 1)
      if guard && c.depth - 1 = 0 then
        return { c with depth := c.depth - 1, leaf := false, offsets := offsets }
      else if c.depth - 1 = 0 then M.throw .panic
      else do
        let p ← idx offsets (c.depth - 1 - 1)
        return { c with depth := c.depth - 1, leaf := false, offsets := offsets, parent := p }
    else return { c with depth := c.depth - 1 }

/-- The calls of the closure, in order. -/
def placeAll (guard : Bool) (v : Nat) : Cursor → List (Visit α × Size) → M α Cursor
  | c, [] => pure c
  | c, (visit, size) :: rest => do
    let c' ← placeVisit guard v c visit size
    placeAll guard v c' rest

/-- `NodeVec::construct_tree` — node_vec.rs 67-122: the first call of the closure (87-94) makes the root;
a first visit `Frame` is `unreachable!()`. -/
def constructTree (v : Nat) (t : Tup α) : M α Unit := do
  let c : Cursor := ⟨false, 0, 1, initOffsets t.height t.descendants⟩
  match t.preorderWithSizeHint with
  | [] => return ()
  | (visit, size) :: rest => do
    match visit.data? with
    | none => M.throw .panic
    | some d => do
      let _ ← makePiledNode v none 0 d size
      let _ ← placeAll true v c rest
      return ()

/-- `NodeVec::construct_forest` — node_vec.rs 124-169. -/
def constructForest (v : Nat) (ts : List (Tup α)) : M α Unit := do
  let c : Cursor := ⟨false, 0, 1, initOffsets (forestHeight ts + 1) (forestDescendants ts)⟩
  let _ ← vecMakeNode v none 0 (.piledNone v) (forestSize ts)
  let _ ← placeAll false v c (Tup.preorderWithSizeHintL ts)
  return ()

/-- `Tree::from_tuple` — tree.rs 47-55. -/
def treeFromTuple (t : Tup α) : M α Addr := do
  let v ← newVec (t.size.descendants + 1)
  constructTree v t
  let a ← vecNode v 0
  treeFromNode a

/-- `Forest::from_tuple` — forest.rs 46-54, 56-58. -/
def forestFromTuple (ts : List (Tup α)) : M α Addr := do
  let v ← newVec ((forestSize ts).descendants + 1)
  constructForest v ts
  vecNode v 0

end Trees
