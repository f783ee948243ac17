import Verif.Spec.Store
/-
Specification of borrows that stay alive across calls: node references, iterators over children, breadth-first iterators,
mutable breadth-first iterators and the `&mut T` they yield, held while the program goes on calling.
-/
namespace Trees
variable {α β : Type}

/-- The variables whose value a call moves or borrows exclusively (`Pin<&mut Node>`); what it borrows otherwise, it only
reads. -/
def Op.writes : Op α → List Var
  | .treeNew _ => []
  | .forestNew => []
  | .pushFront x _ y => [x, y]
  | .pushBack x _ y => [x, y]
  | .popFront x _ => [x]
  | .popBack x _ => [x]
  | .prepend x _ y => [x, y]
  | .append x _ y => [x, y]
  | .insertPrevSib x _ y => [x, y]
  | .insertNextSib x _ y => [x, y]
  | .detach x _ => [x]
  | .abandon x => [x]
  | .setData x _ _ => [x]
  | .drop x => [x]
  | .intoIter x => [x]
  | .iterNext x => [x]
  | .iterLen _ => []
  | .data _ _ => []
  | .degree _ _ => []
  | .nodeCount _ _ => []
  | .hasNoChild _ _ => []
  | .childData _ _ => []
  | .frontData _ _ => []
  | .backData _ _ => []
  | .mapBfs _ _ _ => []
  | .mapBfsForest _ _ _ => []
  | .rebuild x _ => [x]
  | .bfs _ _ _ => []
  | .bfsChildren _ _ _ => []
  | .intoBfs x _ => [x]
  | .bfsMut x _ _ _ => [x]
  | .bfsChildrenMut x _ _ _ => [x]
  | .treeFromTuple _ => []
  | .forestFromTuple _ => []

/-- Calls of a program that holds borrows, numbered in the order in which they are made. -/
inductive LOp (α : Type) where
  /-- An ordinary call. -/
  | call (op : Op α)
  /-- Take a reference `&Node` to the node at `l` in `x`. -/
  | hold (x : Var) (l : Loc)
  /-- `iter()` on the tree or forest `x`, or on the node at `p` in it. -/
  | iter (x : Var) (p : Path)
  /-- `bfs().iter` of the node at `l` in `x`. -/
  | bfs (x : Var) (l : Loc)
  /-- `bfs().iter` of the forest `x`, `bfs_children().iter` of the node at `p` in `x`. -/
  | bfsChildren (x : Var) (p : Path)
  /-- `bfs_mut().iter` of the node at `l` in `x`. -/
  | bfsMut (x : Var) (l : Loc)
  /-- `bfs_mut().iter` of the forest `x`, `bfs_children_mut().iter` of the node at `p` in `x`. -/
  | bfsChildrenMut (x : Var) (p : Path)
  /-- Read, and assign, through the `&mut T` held as number `i`. -/
  | get (i : Nat)
  | set (i : Nat) (d : α)
  /-- `data()`, `degree()` and `node_count()` of the node held as number `i`. -/
  | look (i : Nat)
  /-- `parent()`, `front()`, `back()` of the node held as number `i`. -/
  | parentOf (i : Nat)
  | frontOf (i : Nat)
  | backOf (i : Nat)
  /-- `iter()`, `bfs().iter`, `bfs_children().iter` of the node held as number `i`. -/
  | iterOf (i : Nat)
  | bfsOf (i : Nat)
  | bfsChildrenOf (i : Nat)
  /-- `next()` of the iterator held as number `i`. -/
  | next (i : Nat)
  /-- `len()` of the iterator over children held as number `i`. -/
  | len (i : Nat)
  /-- The end of a borrow. -/
  | release (i : Nat)

/-- What a call shows. -/
inductive LOut (α : Type) where
  | ok (o : Out α)
  | panic
  | rejected
  | bad
  /-- The number of a new borrow. -/
  | ref (i : Nat)
  /-- `None` instead of a node. -/
  | nothing
  /-- Data, degree and number of nodes. -/
  | node (d : α) (degree count : Nat)
  | visit (v : Option (α × Nat × Nat))
  /-- A mutable visit: the number of the new `&mut T`, degree and descendants. -/
  | visitMut (i degree descendants : Nat)
  | unit

/-- What a borrow stands for: the node at `l` in the value `v`; the children of the node at `p` in the value `v` from the
`k`-th on; visits; the place of an item; mutable visits (place, degree, descendants). -/
inductive View (α : Type) where
  | node (v : Val α) (l : Loc)
  | kids (v : Val α) (p : Path) (k : Nat)
  | bfs (vs : List (α × Nat × Nat))
  | item (l : Loc)
  | bfsMut (ps : List (Loc × Nat × Nat))

/-- Is it an exclusive borrow? -/
def View.excl : View α → Bool
  | .item _ => true
  | .bfsMut _ => true
  | _ => false

/-- The position of a node as a path of child numbers. -/
def Loc.full : Loc → Path
  | .root => []
  | .child q i => q ++ [i]

/-- The position of the node above: none above the root of a tree and above the trees of a forest. -/
def Val.above (v : Val α) : Loc → Option Loc
  | .root => none
  | .child q _ => match q.getLast? with
    | some j => some (.child q.dropLast j)
    | none => match v with
      | .tree _ => some .root
      | _ => none

/-- Variables, and the borrows in use, with the variable borrowed. -/
structure LStore (α : Type) where
  store : Store α
  refs : Nat → Option (Var × View α)
  made : Nat

def LStore.empty : LStore α := ⟨.empty, fun _ => none, 0⟩

/-- Is variable `x` borrowed? -/
def borrowed (refs : Nat → Option (Var × β)) (made : Nat) (x : Var) : Bool :=
  (List.range made).any fun i => (refs i).any fun b => b.1 == x

/-- Is variable `x` borrowed exclusively? -/
def locked (ex : β → Bool) (refs : Nat → Option (Var × β)) (made : Nat) (x : Var) : Bool :=
  (List.range made).any fun i => (refs i).any fun b => b.1 == x && ex b.2

/-- The variables that a call uses otherwise than by moving them or borrowing them exclusively. -/
def Op.reads : Op α → List Var
  | .iterLen x => [x]
  | .data x _ => [x]
  | .degree x _ => [x]
  | .nodeCount x _ => [x]
  | .hasNoChild x _ => [x]
  | .childData x _ => [x]
  | .frontData x _ => [x]
  | .backData x _ => [x]
  | .mapBfs x _ _ => [x]
  | .mapBfsForest x _ _ => [x]
  | .bfs x _ _ => [x]
  | .bfsChildren x _ _ => [x]
  | _ => []

/-- The borrow checker: a borrowed variable cannot be moved or borrowed exclusively, an exclusively borrowed one cannot be
used at all. -/
def clash (ex : β → Bool) (refs : Nat → Option (Var × β)) (made : Nat) : LOp α → Bool
  | .call op => op.writes.any (borrowed refs made) || op.reads.any (locked ex refs made)
  | .hold x _ => locked ex refs made x
  | .iter x _ => locked ex refs made x
  | .bfs x _ => locked ex refs made x
  | .bfsChildren x _ => locked ex refs made x
  | .bfsMut x _ => borrowed refs made x
  | .bfsChildrenMut x _ => borrowed refs made x
  | _ => false

/-- The position of the node at path `p` from the top of a tree. -/
def Loc.ofPath (p : Path) : Loc :=
  match p.getLast? with
  | some i => .child p.dropLast i
  | none => .root

/-- The places that a mutable breadth-first iteration over trees will visit, given with the paths of their nodes, below
the path `base`. -/
def mutVisits (base : Path) (ts : List (RTree (Path × α))) : List (Loc × Nat × Nat) :=
  (RTree.levelOrder ts).map fun s => (.ofPath (base ++ s.data.1), s.kids.length, s.count - 1)

/-- Change borrow number `i`. -/
def LStore.put (S : LStore α) (i : Nat) (b : Option (Var × View α)) : LStore α :=
  { S with refs := fun j => if j = i then b else S.refs j }

/-- Make a borrow. -/
def LStore.new (S : LStore α) (x : Var) (v : View α) : LStore α × LOut α :=
  ({ S with refs := (fun j => if j = S.made then some (x, v) else S.refs j), made := S.made + 1 }, .ref S.made)

/-- The node at `l` in a tree or forest `x`. -/
def LStore.atNode (S : LStore α) (x : Var) (l : Loc) (k : Val α → RTree α → LStore α × LOut α) : LStore α × LOut α :=
  match S.store.vars x with
  | none => (S, .rejected)
  | some v => if v.isIter then (S, .rejected) else
    match l, v with
    | .root, .tree t => k v t
    | .root, _ => (S, .rejected)
    | .child q i, v => match v.at? (.child q i) with
      | none => (S, .ok .absent)
      | some t => k v t

/-- The children of the node at `p` in a tree or forest `x`. -/
def LStore.atKids (S : LStore α) (x : Var) (p : Path) (k : Val α → List (RTree α) → LStore α × LOut α) : LStore α × LOut α :=
  match S.store.vars x with
  | none => (S, .rejected)
  | some v => if v.isIter then (S, .rejected) else
    match kidsAt v.kids p with
    | none => (S, .ok .absent)
    | some us => k v us

/-- The node held as number `i`. -/
def LStore.atRef (S : LStore α) (i : Nat) (k : Var → Val α → Loc → RTree α → LStore α × LOut α) : LStore α × LOut α :=
  match S.refs i with
  | some (x, .node v l) => match v.at? l with
    | some t => k x v l t
    | none => (S, .bad)
  | _ => (S, .rejected)

/-- A reference to the node at `l` in `v`, if there is one. -/
def LStore.newAt (S : LStore α) (x : Var) (v : Val α) (l : Loc) : LStore α × LOut α :=
  match v.at? l with
  | some _ => S.new x (.node v l)
  | none => (S, .nothing)

/-- What a breadth-first iteration over `ts` will visit. -/
def bfsVisits (ts : List (RTree α)) : List (α × Nat × Nat) := (RTree.levelOrder ts).map RTree.visit

/-- The item at `l` in `x`. -/
def LStore.itemAt (S : LStore α) (x : Var) (l : Loc) : Option α := ((S.store.vars x).bind (·.at? l)).map RTree.data

/-- An ordinary call. -/
def LStore.doCall (S : LStore α) (op : Op α) : LStore α × LOut α :=
  match specStep S.store op with
  | .ok s o => ({ S with store := s }, .ok o)
  | .panic s => ({ S with store := s }, .panic)
  | .rejected => (S, .rejected)
  | .bad => (S, .bad)

/-- What calls do, if the borrow checker lets them.  The value that a borrow refers to is fixed when the borrow is made: no call changes what will be seen
through it, except `next()` of that very iterator; a mutable iterator and the references it yields refer to places in the value in
the variable, which nobody else can use meanwhile. -/
def ldo (S : LStore α) : LOp α → LStore α × LOut α
  | .call op => S.doCall op
  | .hold x l => S.atNode x l fun v _ => S.new x (.node v l)
  | .iter x p => S.atKids x p fun v _ => S.new x (.kids v p 0)
  | .bfs x l => S.atNode x l fun _ t => S.new x (.bfs (bfsVisits [t]))
  | .bfsChildren x p => S.atKids x p fun _ ts => S.new x (.bfs (bfsVisits ts))
  | .bfsMut x l => S.atNode x l fun _ t => S.new x (.bfsMut (mutVisits l.full [RTree.withPath t]))
  | .bfsChildrenMut x p => S.atKids x p fun _ ts => S.new x (.bfsMut (mutVisits p (RTree.withPathL ts)))
  | .get i => match S.refs i with
    | some (x, .item l) => match S.itemAt x l with
      | some d => (S, .ok (.item (some d)))
      | none => (S, .bad)
    | _ => (S, .rejected)
  | .set i d => match S.refs i with
    | some (x, .item l) => S.doCall (.setData x l d)
    | _ => (S, .rejected)
  | .look i => S.atRef i fun _ _ _ t => (S, .node t.data t.kids.length t.count)
  | .parentOf i => S.atRef i fun x v l _ => match v.above l with
    | some l' => S.new x (.node v l')
    | none => (S, .nothing)
  | .frontOf i => S.atRef i fun x v l _ => S.newAt x v (.child l.full 0)
  | .backOf i => S.atRef i fun x v l t => S.newAt x v (.child l.full (t.kids.length - 1))
  | .iterOf i => S.atRef i fun x v l _ => S.new x (.kids v l.full 0)
  | .bfsOf i => S.atRef i fun x _ _ t => S.new x (.bfs (bfsVisits [t]))
  | .bfsChildrenOf i => S.atRef i fun x _ _ t => S.new x (.bfs (bfsVisits t.kids))
  | .next i => match S.refs i with
    | some (x, .kids v p k) => match v.at? (.child p k) with
      | some _ => (S.put i (some (x, .kids v p (k + 1)))).new x (.node v (.child p k))
      | none => (S, .nothing)
    | some (x, .bfs vs) => (S.put i (some (x, .bfs vs.tail)), .visit vs.head?)
    | some (_, .bfsMut []) => (S, .nothing)
    | some (x, .bfsMut (p :: ps)) => (((S.put i (some (x, .bfsMut ps))).new x (.item p.1)).1, .visitMut S.made p.2.1 p.2.2)
    | _ => (S, .rejected)
  | .len i => match S.refs i with
    | some (_, .kids v p k) => (S, .ok (.nat (((kidsAt v.kids p).getD []).length - k)))
    | _ => (S, .rejected)
  | .release i => match S.refs i with
    | some _ => (S.put i none, .unit)
    | none => (S, .rejected)

/-- One call. -/
def lspec (S : LStore α) (op : LOp α) : LStore α × LOut α :=
  if clash View.excl S.refs S.made op then (S, .rejected) else ldo S op

end Trees
