import Verif.Spec.Tree
import Verif.Spec.Bfs
import Verif.Spec.Tuple
/-
Specification of the exclusive-ownership API: a program holds plain rose-tree values in variables.
No addresses, no links, no cached sizes, no reference counts.
-/
namespace Trees
variable {α : Type}

/-- Variables of the client program. -/
abbrev Var := Nat

/-- What a variable holds: a `Tree`, a `Forest` or an `IntoIter`. -/
inductive Val (α : Type) where
  | tree (t : RTree α)
  | forest (ts : List (RTree α))
  | iter (ts : List (RTree α))

/-- The child list at the top of a value. -/
def Val.kids : Val α → List (RTree α)
  | .tree t => t.kids
  | .forest ts => ts
  | .iter ts => ts

/-- Replace the child list at the top of a value. -/
def Val.setKids : Val α → List (RTree α) → Val α
  | .tree t, ks => .tree (.node t.data ks)
  | .forest _, ks => .forest ks
  | .iter _, ks => .iter ks

/-- Trees and forests give access to nodes; an `IntoIter` does not. -/
def Val.isIter : Val α → Bool
  | .iter _ => true
  | _ => false

/-- All data items, children before parents: the order of destruction. -/
def Val.post : Val α → List α
  | .tree t => t.post
  | .forest ts => RTree.postL ts
  | .iter ts => RTree.postL ts

/-- Number of nodes. -/
def Val.count : Val α → Nat
  | .tree t => t.count
  | .forest ts => RTree.countL ts
  | .iter ts => RTree.countL ts

/-- A node of a tree or forest: the root, or the `i`-th child of the node at path `q`. -/
inductive Loc where
  | root
  | child (q : Path) (i : Nat)

/-- Calls of the exclusive-ownership API.  `x`, `y` are variables, `p` the path of the node the call
is made on (`[]` is the root of the tree or the forest itself), `l` the same for calls that exist on
proper nodes only. -/
inductive Op (α : Type) where
  | treeNew (d : α)
  | forestNew
  | pushFront (x : Var) (p : Path) (y : Var)
  | pushBack (x : Var) (p : Path) (y : Var)
  | popFront (x : Var) (p : Path)
  | popBack (x : Var) (p : Path)
  | prepend (x : Var) (p : Path) (y : Var)
  | append (x : Var) (p : Path) (y : Var)
  | insertPrevSib (x : Var) (l : Loc) (y : Var)
  | insertNextSib (x : Var) (l : Loc) (y : Var)
  | detach (x : Var) (l : Loc)
  | abandon (x : Var)
  | setData (x : Var) (l : Loc) (d : α)
  | drop (x : Var)
  | intoIter (x : Var)
  | iterNext (x : Var)
  | iterLen (x : Var)
  | data (x : Var) (l : Loc)
  | degree (x : Var) (p : Path)
  | nodeCount (x : Var) (p : Path)
  | hasNoChild (x : Var) (p : Path)
  | childData (x : Var) (p : Path)
  | frontData (x : Var) (p : Path)
  | backData (x : Var) (p : Path)
  /-- `Tree::from(node.bfs().map(f))`; the `i`-th call of the closure is `f i`. -/
  | mapBfs (x : Var) (l : Loc) (f : Nat → α → α)
  /-- `Forest::from(node.bfs_children().map(f))`. -/
  | mapBfsForest (x : Var) (p : Path) (f : Nat → α → α)
  /-- `Tree::from(tree.into_bfs().map(f))`, `Forest::from(forest.into_bfs().map(f))`. -/
  | rebuild (x : Var) (f : Nat → α → α)
  /-- `node.bfs()`: its size and the results of `k` calls of `next()`. -/
  | bfs (x : Var) (l : Loc) (k : Nat)
  /-- `node.bfs_children()` / `forest.bfs()`: the same. -/
  | bfsChildren (x : Var) (p : Path) (k : Nat)
  /-- `tree.into_bfs()` / `forest.into_bfs()`: the same, then the iterator is dropped. -/
  | intoBfs (x : Var) (k : Nat)
  /-- `node.bfs_mut()`: the same, and the data of the `j`-th visit is updated in place with `f j`. -/
  | bfsMut (x : Var) (l : Loc) (k : Nat) (f : Nat → α → α)
  /-- `node.bfs_children_mut()` / `forest.bfs_mut()`. -/
  | bfsChildrenMut (x : Var) (p : Path) (k : Nat) (f : Nat → α → α)
  /-- `Tree::from_tuple(t)`.  Calls with a shape that is not `Tup.good` are excluded (`rejected`): there the
  crate builds a corrupt structure, see C16. -/
  | treeFromTuple (t : Tup α)
  /-- `Forest::from_tuple(ts)`, with the same exclusion, see C17. -/
  | forestFromTuple (ts : List (Tup α))

/-- What a call returns. `absent`: the path led to no node, so nothing was called.
`var`: the result was stored in the fresh variable. -/
inductive Out (α : Type) where
  | unit
  | absent
  | none
  | var (v : Var)
  | item (d : Option α)
  | items (ds : List α)
  | nat (n : Nat)
  | bool (b : Bool)
  /-- A breadth-first iteration: its announced size, then the result of each `next()`. -/
  | visits (degree descendants : Nat) (vs : List (Option (α × Nat × Nat)))

/-- Result of running one call: normal return, panic (unwinding), or a call that the Rust type and
borrow checkers reject (moved variable, wrong type, borrowed and moved at once). -/
inductive Outcome (σ α : Type) where
  | ok (s : σ) (o : Out α)
  | panic (s : σ)
  | rejected
  | bad

/-- Variables and the list of all data items dropped so far. -/
structure Store (α : Type) where
  vars : Var → Option (Val α)
  fresh : Nat
  dropped : List α

def Store.empty : Store α := ⟨fun _ => none, 0, []⟩

def Store.set (s : Store α) (x : Var) (v : Option (Val α)) : Store α :=
  { s with vars := fun z => if z = x then v else s.vars z }

/-- Bind the fresh variable. -/
def Store.bind (s : Store α) (v : Val α) : Store α :=
  { s with vars := (fun z => if z = s.fresh then some v else s.vars z), fresh := s.fresh + 1 }

def Store.drop (s : Store α) (ds : List α) : Store α := { s with dropped := s.dropped ++ ds }

/-- Insert before position `i`. -/
def insertAt {β : Type} (l : List β) (i : Nat) (b : β) : List β := l.take i ++ b :: l.drop i

/-- Subtree at a location. -/
def Val.at? (v : Val α) : Loc → Option (RTree α)
  | .root => match v with
    | .tree t => some t
    | _ => none
  | .child q i => (kidsAt v.kids q).bind (·[i]?)

/-- A call on the child list of the node at `p` in variable `x`. -/
def Store.onKids (s : Store α) (x : Var) (p : Path)
    (k : Val α → List (RTree α) → Outcome (Store α) α) : Outcome (Store α) α :=
  match s.vars x with
  | none => .rejected
  | some v => if v.isIter then .rejected else
    match kidsAt v.kids p with
    | none => .ok s .absent
    | some us => k v us

/-- A call on a proper node: `k v q i us`: node `i` of the list `us` at path `q` in value `v`;
`r v` when the node is the root of a tree. -/
def Store.onNode (s : Store α) (x : Var) (l : Loc) (r : Val α → RTree α → Outcome (Store α) α)
    (k : Val α → Path → Nat → List (RTree α) → RTree α → Outcome (Store α) α) : Outcome (Store α) α :=
  match s.vars x with
  | none => .rejected
  | some v => if v.isIter then .rejected else
    match l with
    | .root => match v with
      | .tree t => r v t
      | _ => .rejected
    | .child q i => match kidsAt v.kids q with
      | none => .ok s .absent
      | some us => match us[i]? with
        | none => .ok s .absent
        | some t => k v q i us t

/-- A call that consumes the tree in `y`. -/
def Store.takeTree (s : Store α) (x y : Var) (k : RTree α → Outcome (Store α) α) : Outcome (Store α) α :=
  if x = y then .rejected else
  match s.vars y with
  | some (.tree t) => k t
  | _ => .rejected

/-- A call that consumes the forest in `y`. -/
def Store.takeForest (s : Store α) (x y : Var) (k : List (RTree α) → Outcome (Store α) α) : Outcome (Store α) α :=
  if x = y then .rejected else
  match s.vars y with
  | some (.forest ts) => k ts
  | _ => .rejected

/-- Replace the child list at path `p` of variable `x`. -/
def Store.setKids (s : Store α) (x : Var) (v : Val α) (p : Path)
    (f : List (RTree α) → List (RTree α)) : Store α :=
  s.set x (some (v.setKids (modKids v.kids p f)))

/-- The results of `k` calls of `next()` of an iteration over `xs`. -/
def calls {β : Type} (k : Nat) (xs : List β) : List (Option β) := (List.range k).map (fun i => xs[i]?)

/-- What `k` calls of `next()` of a breadth-first iteration over `ts` report. -/
def bfsCalls (k : Nat) (ts : List (RTree α)) : List (Option (α × Nat × Nat)) :=
  calls k ((RTree.levelOrder ts).map RTree.visit)

/-- The subtrees left in the queue of a breadth-first iteration over `ts` after `k` visits: those not
visited, whose parent was visited or that have none. -/
def bfsRest (k : Nat) (ts : List (RTree α)) : List (RTree α) :=
  (ts ++ ((RTree.levelOrder ts).take k).flatMap RTree.kids).drop k

/-- Update only the first `k` visits. -/
def first (k : Nat) (f : Nat → α → α) : Nat → α → α := fun j d => if j < k then f j d else d

/-- The meaning of every call. -/
def specStep (s : Store α) : Op α → Outcome (Store α) α
  | .treeNew d => .ok (s.bind (.tree (.node d []))) (.var s.fresh)
  | .forestNew => .ok (s.bind (.forest [])) (.var s.fresh)
  | .pushFront x p y => s.takeTree x y fun t => s.onKids x p fun v _ =>
      .ok ((s.set y none).setKids x v p (fun us => t :: us)) .unit
  | .pushBack x p y => s.takeTree x y fun t => s.onKids x p fun v _ =>
      .ok ((s.set y none).setKids x v p (fun us => us ++ [t])) .unit
  | .popFront x p => s.onKids x p fun v us =>
      match us with
      | [] => .ok s .none
      | t :: ts => .ok ((s.setKids x v p (fun _ => ts)).bind (.tree t)) (.var s.fresh)
  | .popBack x p => s.onKids x p fun v us =>
      match us.getLast? with
      | none => .ok s .none
      | some t => .ok ((s.setKids x v p (fun _ => us.dropLast)).bind (.tree t)) (.var s.fresh)
  | .prepend x p y => s.takeForest x y fun ts => s.onKids x p fun v _ =>
      .ok ((s.set y none).setKids x v p (fun us => ts ++ us)) .unit
  | .append x p y => s.takeForest x y fun ts => s.onKids x p fun v _ =>
      .ok ((s.set y none).setKids x v p (fun us => us ++ ts)) .unit
  | .insertPrevSib x l y => s.takeTree x y fun t => s.onNode x l
      (fun _ _ => .panic ((s.set y none).drop t.post))
      (fun v q i _ _ => .ok ((s.set y none).setKids x v q (fun us => insertAt us i t)) .unit)
  | .insertNextSib x l y => s.takeTree x y fun t => s.onNode x l
      (fun _ _ => .panic ((s.set y none).drop t.post))
      (fun v q i _ _ => .ok ((s.set y none).setKids x v q (fun us => insertAt us (i + 1) t)) .unit)
  | .detach x l => s.onNode x l
      (fun _ _ => .panic s)
      (fun v q i _ t => .ok ((s.setKids x v q (fun us => us.eraseIdx i)).bind (.tree t)) (.var s.fresh))
  | .abandon x => match s.vars x with
      | some (.tree t) => .ok ((s.set x (some (.tree (.node t.data [])))).bind (.forest t.kids)) (.var s.fresh)
      | _ => .rejected
  | .setData x l d => s.onNode x l
      (fun _ t => .ok ((s.set x (some (.tree (.node d t.kids)))).drop [t.data]) .unit)
      (fun v q i _ t => .ok ((s.setKids x v q (fun us => us.set i (.node d t.kids))).drop [t.data]) .unit)
  | .drop x => match s.vars x with
      | some v => .ok ((s.set x none).drop v.post) .unit
      | none => .rejected
  | .intoIter x => match s.vars x with
      | some (.tree t) => .ok ((s.set x none).bind (.iter [t])) (.var s.fresh)
      | some (.forest ts) => .ok ((s.set x none).bind (.iter ts)) (.var s.fresh)
      | _ => .rejected
  | .iterNext x => match s.vars x with
      | some (.iter []) => .ok s .none
      | some (.iter (t :: ts)) => .ok ((s.set x (some (.iter ts))).bind (.tree t)) (.var s.fresh)
      | _ => .rejected
  | .iterLen x => match s.vars x with
      | some (.iter ts) => .ok s (.nat ts.length)
      | _ => .rejected
  | .data x l => s.onNode x l
      (fun _ t => .ok s (.item (some t.data)))
      (fun _ _ _ _ t => .ok s (.item (some t.data)))
  | .degree x p => s.onKids x p fun _ us => .ok s (.nat us.length)
  | .nodeCount x p => s.onKids x p fun v us =>
      .ok s (.nat (match p, v with
        | [], .forest _ => RTree.countL us
        | _, _ => RTree.countL us + 1))
  | .hasNoChild x p => s.onKids x p fun _ us => .ok s (.bool us.isEmpty)
  | .childData x p => s.onKids x p fun _ us => .ok s (.items (us.map RTree.data))
  | .frontData x p => s.onKids x p fun _ us => .ok s (.item (us.head?.map RTree.data))
  | .backData x p => s.onKids x p fun _ us => .ok s (.item (us.getLast?.map RTree.data))
  | .mapBfs x l f => s.onNode x l
      (fun _ t => .ok (s.bind (.tree (t.updLevel f))) (.var s.fresh))
      (fun _ _ _ _ t => .ok (s.bind (.tree (t.updLevel f))) (.var s.fresh))
  | .mapBfsForest x p f => s.onKids x p fun _ us =>
      .ok (s.bind (.forest (RTree.updLevelL f us))) (.var s.fresh)
  | .rebuild x f => match s.vars x with
      | some (.tree t) => .ok ((s.set x none).bind (.tree (t.updLevel f))) (.var s.fresh)
      | some (.forest ts) => .ok ((s.set x none).bind (.forest (RTree.updLevelL f ts))) (.var s.fresh)
      | _ => .rejected
  | .bfs x l k => s.onNode x l
      (fun _ t => .ok s (.visits 1 (t.count - 1) (bfsCalls k [t])))
      (fun _ _ _ _ t => .ok s (.visits 1 (t.count - 1) (bfsCalls k [t])))
  | .bfsChildren x p k => s.onKids x p fun _ us =>
      .ok s (.visits us.length (RTree.countL us) (bfsCalls k us))
  | .intoBfs x k => match s.vars x with
      | some (.tree t) =>
          .ok ((s.set x none).drop (RTree.postL (bfsRest k [t]))) (.visits 1 (t.count - 1) (bfsCalls k [t]))
      | some (.forest ts) =>
          .ok ((s.set x none).drop (RTree.postL (bfsRest k ts))) (.visits ts.length (RTree.countL ts) (bfsCalls k ts))
      | _ => .rejected
  | .bfsMut x l k f => s.onNode x l
      (fun _ t => .ok (s.set x (some (.tree (t.updLevel (first k f))))) (.visits 1 (t.count - 1) (bfsCalls k [t])))
      (fun v q i _ t => .ok (s.setKids x v q (fun us => us.set i (t.updLevel (first k f))))
        (.visits 1 (t.count - 1) (bfsCalls k [t])))
  | .bfsChildrenMut x p k f => s.onKids x p fun v us =>
      .ok (s.setKids x v p (RTree.updLevelL (first k f))) (.visits us.length (RTree.countL us) (bfsCalls k us))
  | .treeFromTuple t => if t.good then .ok (s.bind (.tree t.toTree)) (.var s.fresh) else .rejected
  | .forestFromTuple ts => if Tup.goodL ts then .ok (s.bind (.forest (Tup.toTreeL ts))) (.var s.fresh) else .rejected

end Trees
