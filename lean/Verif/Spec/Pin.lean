import Verif.Spec.Param
import Verif.Spec.Live
/-
Specification of mutable node references (`Pin<&mut Node>`) that are kept while the program goes on calling: a reference stays
with its node.  A node that is referred to carries a mark in the values.
-/
namespace Trees
variable {α : Type}

/-- A method of a node; `y` is a variable whose tree or forest is handed over. -/
inductive NodeCall (α : Type) where
  | pushFront (y : Var)
  | pushBack (y : Var)
  | popFront
  | popBack
  | prepend (y : Var)
  | append (y : Var)
  | insertPrevSib (y : Var)
  | insertNextSib (y : Var)
  | detach
  | setData (d : α)
  | data
  | degree
  | nodeCount
  | hasNoChild
  | childData
  | frontData
  | backData
  | mapBfs (f : Nat → α → α)
  | mapBfsForest (f : Nat → α → α)
  | bfs (k : Nat)
  | bfsChildren (k : Nat)
  | bfsMut (k : Nat) (f : Nat → α → α)
  | bfsChildrenMut (k : Nat) (f : Nat → α → α)

/-- The ordinary call of that method on the node at `l` in variable `x`. -/
def NodeCall.at (x : Var) (l : Loc) : NodeCall α → Op α
  | .pushFront y => .pushFront x l.full y
  | .pushBack y => .pushBack x l.full y
  | .popFront => .popFront x l.full
  | .popBack => .popBack x l.full
  | .prepend y => .prepend x l.full y
  | .append y => .append x l.full y
  | .insertPrevSib y => .insertPrevSib x l y
  | .insertNextSib y => .insertNextSib x l y
  | .detach => .detach x l
  | .setData d => .setData x l d
  | .data => .data x l
  | .degree => .degree x l.full
  | .nodeCount => .nodeCount x l.full
  | .hasNoChild => .hasNoChild x l.full
  | .childData => .childData x l.full
  | .frontData => .frontData x l.full
  | .backData => .backData x l.full
  | .mapBfs f => .mapBfs x l f
  | .mapBfsForest f => .mapBfsForest x l.full f
  | .bfs k => .bfs x l k
  | .bfsChildren k => .bfsChildren x l.full k
  | .bfsMut k f => .bfsMut x l k f
  | .bfsChildrenMut k f => .bfsChildrenMut x l.full k f

/-- The variable handed over. -/
def NodeCall.gives : NodeCall α → Option Var
  | .pushFront y => some y
  | .pushBack y => some y
  | .prepend y => some y
  | .append y => some y
  | .insertPrevSib y => some y
  | .insertNextSib y => some y
  | _ => none

/-- Calls of a program that keeps node references, numbered in the order in which they are made. -/
inductive POp (α : Type) where
  /-- An ordinary call. -/
  | call (op : Op α)
  /-- A reference to the node at `l` in `x`. -/
  | take (x : Var) (l : Loc)
  /-- A reference to child `j` of the node of reference `i`: `iter_mut().nth(j)`. -/
  | kid (i j : Nat)
  /-- A method called through reference `i`. -/
  | use (i : Nat) (c : NodeCall α)

/-- What a call shows. -/
inductive POut (α : Type) where
  | ok (o : Out α)
  | panic
  | rejected
  | bad
  /-- The number of a new reference. -/
  | ref (i : Nat)
  /-- There is no such node. -/
  | nothing
  /-- The node is not in a tree or forest of the program any more, or it would become a child or sibling of a node of its own tree. -/
  | dangling

/-- Variables, with marks on the items; the marks of the references made. -/
structure PStore (α : Type) where
  store : Store (Tagged α)
  marks : Nat → Option Nat
  made : Nat

def PStore.empty : PStore α := ⟨.empty, fun _ => none, 0⟩

/-- Mark an item. -/
def RTree.mark (k : Nat) (t : RTree (Tagged α)) : RTree (Tagged α) := .node (some k, t.data.2) t.kids

/-- Mark the node at `l`. -/
def Val.setMark (k : Nat) : Val (Tagged α) → Loc → Val (Tagged α)
  | .tree t, .root => .tree (t.mark k)
  | v, .root => v
  | v, .child q j => v.setKids (modKids v.kids q fun us => us.modify j (RTree.mark k))

/-- The positions of the nodes of a tree or forest. -/
def Val.locs : Val α → List Loc
  | .tree t => (RTree.withPath t).pre.map fun q => .ofPath q.1
  | .forest ts => (RTree.preL (RTree.withPathL ts)).map fun q => .ofPath q.1
  | .iter _ => []

/-- Where the node with mark `k` is: the variable and the position in it. -/
def Store.place (s : Store (Tagged α)) (k : Nat) : Option (Var × Loc) :=
  (List.range s.fresh).findSome? fun x => (s.vars x).bind fun v =>
    (v.locs.find? fun l => (v.at? l).any fun t => t.data.1 == some k).map fun l => (x, l)

/-- A new reference to the node at `l` in `x`, whose subtree is `t`. -/
def PStore.refTo (S : PStore α) (x : Var) (v : Val (Tagged α)) (l : Loc) (t : RTree (Tagged α)) : PStore α × POut α :=
  match t.data.1 with
  | some k => ({ S with marks := (fun j => if j = S.made then some k else S.marks j), made := S.made + 1 }, .ref S.made)
  | none => (⟨S.store.set x (some (v.setMark S.made l)), (fun j => if j = S.made then some S.made else S.marks j), S.made + 1⟩, .ref S.made)

/-- A new reference to the node at `l` in `x`. -/
def PStore.take (S : PStore α) (x : Var) (l : Loc) : PStore α × POut α :=
  match S.store.vars x with
  | none => (S, .nothing)
  | some v => if v.isIter then (S, .nothing) else
    match v.at? l with
    | none => (S, .nothing)
    | some t => S.refTo x v l t

/-- An ordinary call. -/
def PStore.doCall (S : PStore α) (op : Op α) : PStore α × POut α :=
  match tagStep S.store op with
  | .ok s o => ({ S with store := s }, .ok (o.map Prod.snd))
  | .panic s => ({ S with store := s }, .panic)
  | .rejected => (S, .rejected)
  | .bad => (S, .bad)

/-- One call. A call through a reference is the ordinary call at the place where its node is now. -/
def pspec (S : PStore α) : POp α → PStore α × POut α
  | .call op => S.doCall op
  | .take x l => S.take x l
  | .kid i j => match S.marks i with
    | none => (S, .rejected)
    | some k => match S.store.place k with
      | none => (S, .dangling)
      | some (x, l) => S.take x (.child l.full j)
  | .use i c => match S.marks i with
    | none => (S, .rejected)
    | some k => match S.store.place k with
      | none => (S, .dangling)
      | some (x, l) => if c.gives = some x then (S, .dangling) else S.doCall (c.at x l)

/-- The calls that assign items of existing nodes. -/
def Op.updates : Op α → Bool
  | .setData _ _ _ => true
  | .bfsMut _ _ _ _ => true
  | .bfsChildrenMut _ _ _ _ => true
  | _ => false

def NodeCall.updates : NodeCall α → Bool
  | .setData _ => true
  | .bfsMut _ _ => true
  | .bfsChildrenMut _ _ => true
  | _ => false

/-- Calls of a program with references that assign items of existing nodes. -/
def POp.updates : POp α → Bool
  | .call op => op.updates
  | .use _ c => c.updates
  | _ => false

end Trees
