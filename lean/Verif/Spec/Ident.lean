import Verif.Spec.Store
/-
Specification of node identity.  Every item carries a tag: `some a` if it is in the node `a` that existed before the
call, `none` if it is in a node that the call has made.
-/
namespace Trees
variable {α β : Type}

mutual
/-- Change the items of a tuple. -/
def Tup.map (f : α → β) : Tup α → Tup β
  | .bare d => .bare (f d)
  | .tup d ks => .tup (f d) (Tup.mapL f ks)
def Tup.mapL (f : α → β) : List (Tup α) → List (Tup β)
  | [] => []
  | k :: ks => Tup.map f k :: Tup.mapL f ks
end

/-- Change the items of a value. -/
def Val.map (f : α → β) : Val α → Val β
  | .tree t => .tree (t.map f)
  | .forest ts => .forest (RTree.mapL f ts)
  | .iter ts => .iter (RTree.mapL f ts)

/-- Items with the identity of their nodes. -/
abbrev Tagged (α : Type) := Option Nat × α

/-- The tag of the node at `l` in variable `x`. -/
def Store.tagAt (S : Store (Tagged α)) (x : Var) (l : Loc) : Option Nat :=
  ((S.vars x).bind fun v => v.at? l).bind fun t => t.data.1

/-- What a call does to tagged values.  Items that the client hands over or makes get new nodes; an item that the client
updates in place stays in its node; `abandon` moves the item of the root to a new node; everything else moves whole nodes. -/
def tagStep (S : Store (Tagged α)) : Op α → Outcome (Store (Tagged α)) (Tagged α)
  | .treeNew d => specStep S (.treeNew (none, d))
  | .setData x l d => specStep S (.setData x l (S.tagAt x l, d))
  | .abandon x => match S.vars x with
      | some (.tree t) =>
          .ok ((S.set x (some (.tree (.node (none, t.data.2) [])))).bind (.forest t.kids)) (.var S.fresh)
      | _ => .rejected
  | .mapBfs x l f => specStep S (.mapBfs x l fun i b => (none, f i b.2))
  | .mapBfsForest x p f => specStep S (.mapBfsForest x p fun i b => (none, f i b.2))
  | .rebuild x f => specStep S (.rebuild x fun i b => (none, f i b.2))
  | .bfsMut x l k f => specStep S (.bfsMut x l k fun i b => (b.1, f i b.2))
  | .bfsChildrenMut x p k f => specStep S (.bfsChildrenMut x p k fun i b => (b.1, f i b.2))
  | .treeFromTuple t => specStep S (.treeFromTuple (t.map fun d => (none, d)))
  | .forestFromTuple ts => specStep S (.forestFromTuple (Tup.mapL (fun d => (none, d)) ts))
  | .forestNew => specStep S .forestNew
  | .pushFront x p y => specStep S (.pushFront x p y)
  | .pushBack x p y => specStep S (.pushBack x p y)
  | .popFront x p => specStep S (.popFront x p)
  | .popBack x p => specStep S (.popBack x p)
  | .prepend x p y => specStep S (.prepend x p y)
  | .append x p y => specStep S (.append x p y)
  | .insertPrevSib x l y => specStep S (.insertPrevSib x l y)
  | .insertNextSib x l y => specStep S (.insertNextSib x l y)
  | .detach x l => specStep S (.detach x l)
  | .drop x => specStep S (.drop x)
  | .intoIter x => specStep S (.intoIter x)
  | .iterNext x => specStep S (.iterNext x)
  | .iterLen x => specStep S (.iterLen x)
  | .data x l => specStep S (.data x l)
  | .degree x p => specStep S (.degree x p)
  | .nodeCount x p => specStep S (.nodeCount x p)
  | .hasNoChild x p => specStep S (.hasNoChild x p)
  | .childData x p => specStep S (.childData x p)
  | .frontData x p => specStep S (.frontData x p)
  | .backData x p => specStep S (.backData x p)
  | .bfs x l k => specStep S (.bfs x l k)
  | .bfsChildren x p k => specStep S (.bfsChildren x p k)
  | .intoBfs x k => specStep S (.intoBfs x k)

/-- The items of a value in preorder. -/
def Val.nodes : Val α → List α
  | .tree t => t.pre
  | .forest ts => RTree.preL ts
  | .iter ts => RTree.preL ts

/-- The node at `l` in variable `x`. -/
def Store.nodeOf (S : Store (Nat × α)) (x : Var) (l : Loc) : Option Nat :=
  ((S.vars x).bind fun v => v.at? l).map fun t => t.data.1

/-- The calls that make no nodes, as calls on values in which every item is paired with its node: an item that the
client updates in place stays in its node. -/
def Op.onNodes (S : Store (Nat × α)) : Op α → Option (Op (Nat × α))
  | .treeNew _ => none
  | .abandon _ => none
  | .mapBfs _ _ _ => none
  | .mapBfsForest _ _ _ => none
  | .rebuild _ _ => none
  | .treeFromTuple _ => none
  | .forestFromTuple _ => none
  | .setData x l d => (S.nodeOf x l).map fun a => .setData x l (a, d)
  | .bfsMut x l k f => some (.bfsMut x l k fun i b => (b.1, f i b.2))
  | .bfsChildrenMut x p k f => some (.bfsChildrenMut x p k fun i b => (b.1, f i b.2))
  | .forestNew => some .forestNew
  | .pushFront x p y => some (.pushFront x p y)
  | .pushBack x p y => some (.pushBack x p y)
  | .popFront x p => some (.popFront x p)
  | .popBack x p => some (.popBack x p)
  | .prepend x p y => some (.prepend x p y)
  | .append x p y => some (.append x p y)
  | .insertPrevSib x l y => some (.insertPrevSib x l y)
  | .insertNextSib x l y => some (.insertNextSib x l y)
  | .detach x l => some (.detach x l)
  | .drop x => some (.drop x)
  | .intoIter x => some (.intoIter x)
  | .iterNext x => some (.iterNext x)
  | .iterLen x => some (.iterLen x)
  | .data x l => some (.data x l)
  | .degree x p => some (.degree x p)
  | .nodeCount x p => some (.nodeCount x p)
  | .hasNoChild x p => some (.hasNoChild x p)
  | .childData x p => some (.childData x p)
  | .frontData x p => some (.frontData x p)
  | .backData x p => some (.backData x p)
  | .bfs x l k => some (.bfs x l k)
  | .bfsChildren x p k => some (.bfsChildren x p k)
  | .intoBfs x k => some (.intoBfs x k)

end Trees
