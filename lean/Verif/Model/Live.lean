import Verif.Spec.Live
import Verif.Model.Machine
/-
Borrows that stay alive across calls.
-/
namespace Trees
variable {α β : Type}

/-- What a borrow is made of: `&Node` — a pointer; `Iter` — iter.rs 89-117; the `Splitted` over `&Node` of a breadth-first
iteration — bfs.rs 160-194, bfs_impls.rs 127-134, a queue of `Iter`s; `&mut T`, named by its node; the `Splitted` over
`Pin<&mut Node>` — bfs_impls.rs 136-149, a queue of `IterMut`s. -/
inductive Live where
  | node (a : Addr)
  | kids (it : RawIter)
  | bfs (q : List RawIter)
  | item (a : Addr)
  | bfsMut (q : List RawIter)

def Live.excl : Live → Bool
  | .item _ => true
  | .bfsMut _ => true
  | _ => false

/-- The machine together with the borrows in use. -/
structure LMachine (α : Type) where
  m : Machine α
  refs : Nat → Option (Var × Live)
  made : Nat

def LMachine.empty : LMachine α := ⟨.empty, fun _ => none, 0⟩

def LMachine.put (L : LMachine α) (i : Nat) (b : Option (Var × Live)) : LMachine α :=
  { L with refs := fun j => if j = i then b else L.refs j }

def LMachine.new (L : LMachine α) (x : Var) (v : Live) : LMachine α × LOut α :=
  ({ L with refs := (fun j => if j = L.made then some (x, v) else L.refs j), made := L.made + 1 }, .ref L.made)

/-- Run code of the crate; the heap it leaves is the heap of the machine from then on. -/
def LMachine.run (L : LMachine α) (c : M α β) (k : β → LMachine α → LMachine α × LOut α) : LMachine α × LOut α :=
  match c L.m.heap with
  | .ok b h => k b { L with m := { L.m with heap := h } }
  | .err .panic h => ({ L with m := { L.m with heap := h } }, .panic)
  | .err _ _ => (L, .bad)

/-- The node at `l` in a tree (`Tree::root` — tree.rs 27) or forest, found by iterators over children (as `Machine.onNode`). -/
def LMachine.atNode (L : LMachine α) (x : Var) (l : Loc) (k : Addr → LMachine α → LMachine α × LOut α) : LMachine α × LOut α :=
  match L.m.env x with
  | none => (L, .rejected)
  | some hd => if hd.isIter then (L, .rejected) else
    match l, hd with
    | .root, .tree r => k r L
    | .root, _ => (L, .rejected)
    | .child q i, hd => L.run (locate hd.addr (q ++ [i])) fun o L' =>
      match o with
      | none => (L', .ok .absent)
      | some n => k n L'

/-- The node at `p` or the root of a forest (as `Machine.onKids`). -/
def LMachine.atKids (L : LMachine α) (x : Var) (p : Path) (k : Addr → LMachine α → LMachine α × LOut α) : LMachine α × LOut α :=
  match L.m.env x with
  | none => (L, .rejected)
  | some hd => if hd.isIter then (L, .rejected) else
    L.run (locate hd.addr p) fun o L' =>
      match o with
      | none => (L', .ok .absent)
      | some n => k n L'

def LMachine.atRef (L : LMachine α) (i : Nat) (k : Var → Addr → LMachine α × LOut α) : LMachine α × LOut α :=
  match L.refs i with
  | some (x, .node a) => k x a
  | _ => (L, .rejected)

/-- `data()`, `degree()`, `node_count()` of a node — node.rs 112, 145, 157-163. -/
def lookAt (a : Addr) : M α (α × Nat × Nat) := do
  let d ← dataRef a
  let n ← degree a
  let c ← nodeCount a
  return (d, n, c)

/-- `Option<&Node>` as a new borrow. -/
def LMachine.newOpt (L : LMachine α) (x : Var) : Option Addr → LMachine α × LOut α
  | some a => L.new x (.node a)
  | none => (L, .nothing)

/-- What a call does. -/
def lexec (L : LMachine α) : LOp α → LMachine α × LOut α
  | .call op => match step L.m op with
      | .ok m o => ({ L with m := m }, .ok o)
      | .panic m => ({ L with m := m }, .panic)
      | .rejected => (L, .rejected)
      | .bad => (L, .bad)
  | .hold x l => L.atNode x l fun a L => L.new x (.node a)
  | .iter x p => L.atKids x p fun a L => L.run (iter a) fun it L => L.new x (.kids it)
  | .bfs x l => L.atNode x l fun a L => L.new x (.bfs (bfsStart a))
  | .bfsChildren x p => L.atKids x p fun a L => L.run (bfsChildrenStart a) fun q L => L.new x (.bfs q)
  | .bfsMut x l => L.atNode x l fun a L => L.new x (.bfsMut (bfsStart a))
  | .bfsChildrenMut x p => L.atKids x p fun a L => L.run (bfsChildrenStart a) fun q L => L.new x (.bfsMut q)
  | .get i => match L.refs i with
    | some (_, .item a) => L.run (dataRef a) fun d L => (L, .ok (.item (some d)))
    | _ => (L, .rejected)
  | .set i d => match L.refs i with
    | some (_, .item a) => L.run (dataMutSet a d) fun _ L => (L, .ok .unit)
    | _ => (L, .rejected)
  | .look i => L.atRef i fun _ a => L.run (lookAt a) fun v L => (L, .node v.1 v.2.1 v.2.2)
  | .parentOf i => L.atRef i fun x a => L.run (parent a) fun o L => L.newOpt x o
  | .frontOf i => L.atRef i fun x a => L.run (front a) fun o L => L.newOpt x o
  | .backOf i => L.atRef i fun x a => L.run (back a) fun o L => L.newOpt x o
  | .iterOf i => L.atRef i fun x a => L.run (iter a) fun it L => L.new x (.kids it)
  | .bfsOf i => L.atRef i fun x a => L.new x (.bfs (bfsStart a))
  | .bfsChildrenOf i => L.atRef i fun x a => L.run (bfsChildrenStart a) fun q L => L.new x (.bfs q)
  | .next i => match L.refs i with
    | some (x, .kids it) => L.run it.next fun o L =>
      match o with
      | (none, it') => (L.put i (some (x, .kids it')), .nothing)
      | (some c, it') => (L.put i (some (x, .kids it'))).new x (.node c)
    | some (x, .bfs q) => L.run (splittedNext refSrc q) fun o L =>
      (L.put i (some (x, .bfs o.2)), .visit (o.1.map fun v => (v.1, v.2.degree, v.2.descendants)))
    | some (x, .bfsMut q) => L.run (splittedNext mutSrc q) fun o L =>
      match o.1 with
      | none => (L.put i (some (x, .bfsMut o.2)), .nothing)
      | some v => (((L.put i (some (x, .bfsMut o.2))).new x (.item v.1)).1, .visitMut L.made v.2.degree v.2.descendants)
    | _ => (L, .rejected)
  | .len i => match L.refs i with
    | some (_, .kids it) => (L, .ok (.nat it.len))
    | _ => (L, .rejected)
  | .release i => match L.refs i with
    | some _ => (L.put i none, .unit)
    | none => (L, .rejected)

/-- One call, if the borrow checker lets it. -/
def lstep (L : LMachine α) (op : LOp α) : LMachine α × LOut α :=
  if clash Live.excl L.refs L.made op then (L, .rejected) else lexec L op

/-- A whole program. -/
def runCalls {σ ω ο : Type} (st : σ → ω → σ × ο) : σ → List ω → σ × List ο
  | s, [] => (s, [])
  | s, op :: ops => ((runCalls st (st s op).1 ops).1, (st s op).2 :: (runCalls st (st s op).1 ops).2)

end Trees
