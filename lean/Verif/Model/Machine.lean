import Verif.Model.Bfs
import Verif.Model.Tuple
import Verif.Spec.Store
/-
Client programs over the modelled crate: variables hold handles (addresses of root nodes), every
call runs the modelled code.
-/
namespace Trees
variable {α β : Type}

/-- An owned value: `Tree` (tree.rs 20-25), `Forest` (forest.rs 19-24) or `IntoIter`
(into_iter.rs 7-11); the address of its root node. -/
inductive Handle where
  | tree (r : Addr)
  | forest (r : Addr)
  | iter (r : Addr)

def Handle.addr : Handle → Addr
  | .tree r => r
  | .forest r => r
  | .iter r => r

def Handle.isIter : Handle → Bool
  | .iter _ => true
  | _ => false

structure Machine (α : Type) where
  heap : Heap α
  env : Var → Option Handle
  fresh : Nat

def Machine.empty : Machine α := ⟨Heap.empty, fun _ => none, 0⟩

/-- Reaching the node at a path: `node.iter().nth(i)` / `node.iter_mut().nth(i)` repeatedly
(node.rs 313-338, iter.rs 105-149). -/
def locate : Addr → Path → M α (Option Addr)
  | a, [] => pure (some a)
  | a, i :: p => do
    let it ← iter a
    match (← it.nth i) with
    | (some c, _) => locate c p
    | (none, _) => return none

/-! #### Reading a value back through the public read API -/

/-- Read every element of a list of nodes. -/
def readMany (f : Addr → M α β) : List Addr → M α (List β)
  | [] => pure []
  | c :: cs => do
    let t ← f c
    let ts ← readMany f cs
    return t :: ts

/-- Read a whole subtree with `data()` (node.rs 112) and `iter()` (node.rs 313-318). -/
def readTree : Nat → Addr → M α (RTree α)
  | 0, _ => M.throw .fuel
  | k+1, a => do
    let d ← dataRef a
    let cs ← children a
    let ts ← readMany (readTree k) cs
    return .node d ts

/-- Read the children of a forest with `iter()` (forest.rs 126). -/
def readKids (a : Addr) : M α (List (RTree α)) := M.fuelled fun h => do
  let cs ← children a
  readMany (readTree ((h.size a).descendants + 1)) cs

/-- Read a value. -/
def readHandle : Handle → M α (Val α)
  | .tree r => do return .tree (← M.fuelled fun h => readTree ((h.size r).descendants + 1) r)
  | .forest r => do return .forest (← readKids r)
  | .iter r => do return .iter (← readKids r)

/-- The contents of a variable as the public read API shows it. -/
def Machine.view (m : Machine α) (x : Var) : Option (Val α) :=
  match m.env x with
  | none => none
  | some hd => match readHandle hd m.heap with
    | .ok v _ => some v
    | .err _ _ => none

/-- All that a client can observe. -/
def Machine.store (m : Machine α) : Store α := ⟨m.view, m.fresh, m.heap.log⟩

/-! #### Running one call -/

/-- Run code of the crate; `env` is the environment if it panics. -/
def Machine.run (m : Machine α) (env : Var → Option Handle) (c : M α β)
    (k : β → Heap α → Outcome (Machine α) α) : Outcome (Machine α) α :=
  match c m.heap with
  | .ok b h => k b h
  | .err .panic h => .panic ⟨h, env, m.fresh⟩
  | .err _ _ => .bad

/-- Find the node at `p` in variable `x` (a tree or forest). -/
def Machine.onKids (m : Machine α) (x : Var) (p : Path)
    (k : Handle → Addr → Outcome (Machine α) α) : Outcome (Machine α) α :=
  match m.env x with
  | none => .rejected
  | some hd => if hd.isIter then .rejected else
    m.run m.env (locate hd.addr p) fun o _ =>
      match o with
      | none => .ok m .absent
      | some n => k hd n

/-- Find a proper node. -/
def Machine.onNode (m : Machine α) (x : Var) (l : Loc)
    (k : Addr → Outcome (Machine α) α) : Outcome (Machine α) α :=
  match m.env x with
  | none => .rejected
  | some hd => if hd.isIter then .rejected else
    match l with
    | .root => match hd with
      | .tree r => k r
      | _ => .rejected
    | .child q i => m.run m.env (locate hd.addr (q ++ [i])) fun o _ =>
      match o with
      | none => .ok m .absent
      | some n => k n

def Machine.takeTree (m : Machine α) (x y : Var) (k : Addr → Outcome (Machine α) α) : Outcome (Machine α) α :=
  if x = y then .rejected else
  match m.env y with
  | some (.tree t) => k t
  | _ => .rejected

def Machine.takeForest (m : Machine α) (x y : Var) (k : Addr → Outcome (Machine α) α) : Outcome (Machine α) α :=
  if x = y then .rejected else
  match m.env y with
  | some (.forest t) => k t
  | _ => .rejected

/-- Environment updates. -/
def Machine.setEnv (m : Machine α) (x : Var) (v : Option Handle) : Var → Option Handle := upd m.env x v

/-- Normal return with a new heap and environment. -/
def Machine.ret (m : Machine α) (h : Heap α) (env : Var → Option Handle) (o : Out α) :
    Outcome (Machine α) α := .ok ⟨h, env, m.fresh⟩ o

/-- Normal return binding the fresh variable. -/
def Machine.retVar (m : Machine α) (h : Heap α) (env : Var → Option Handle) (hd : Handle) :
    Outcome (Machine α) α := .ok ⟨h, upd env m.fresh (some hd), m.fresh + 1⟩ (.var m.fresh)

/-- Return the result of a pop. -/
def Machine.retPop (m : Machine α) (h : Heap α) : Option Addr → Outcome (Machine α) α
  | none => m.ret h m.env .none
  | some c => m.retVar h m.env (.tree c)

/-- A `Visit` — bfs.rs 7-11 — as a client reads it. -/
def flatVisit (v : α × Size) : α × Nat × Nat := (v.1, v.2.degree, v.2.descendants)

/-- A breadth-first iteration as a client reads it: the public fields `size` and `iter` of
`BfsTree` / `BfsForest` — bfs.rs 13-17, 58-62. -/
def outVisits (q : Size × List (Option (α × Size))) : Out α :=
  .visits q.1.degree q.1.descendants (q.2.map (Option.map flatVisit))

/-- `node.bfs()` and `k` calls of `next()` — bfs_impls.rs 103-105. -/
def bfsRun (k : Nat) (a : Addr) : M α (Size × List (Option (α × Size))) := do
  let d := (← getSize a).descendants
  let (os, _) ← driveVisits (splittedNext refSrc) k (bfsStart a)
  return (⟨1, d⟩, os)

/-- `node.bfs_children()` and `k` calls of `next()` — bfs_impls.rs 69, 165. -/
def bfsChildrenRun (k : Nat) (a : Addr) : M α (Size × List (Option (α × Size))) := do
  let s ← bfsChildrenStart a
  let sz ← getSize a
  let (os, _) ← driveVisits (splittedNext refSrc) k s
  return (sz, os)

/-- `node.bfs_mut()` and `k` calls of `next()`, updating each visit — bfs_impls.rs 121-124. -/
def bfsMutRun (f : Nat → α → α) (k : Nat) (a : Addr) : M α (Size × List (Option (α × Size))) := do
  let d := (← getSize a).descendants
  let os ← driveMut f k 0 (bfsStart a)
  return (⟨1, d⟩, os)

/-- `node.bfs_children_mut()` — bfs_impls.rs 85-88, 180-183. -/
def bfsChildrenMutRun (f : Nat → α → α) (k : Nat) (a : Addr) : M α (Size × List (Option (α × Size))) := do
  let sz ← getSize a
  let s ← bfsChildrenStart a
  let os ← driveMut f k 0 s
  return (sz, os)

/-- `tree.into_bfs()`, `k` calls of `next()`, then dropped — bfs_impls.rs 265-268. -/
def intoBfsTreeRun (k : Nat) (t : Addr) : M α (Size × List (Option (α × Size))) := do
  let d := (← getSize t).descendants
  let it ← treeIntoIter t
  let os ← intoBfsDrive k it
  return (⟨1, d⟩, os)

/-- `forest.into_bfs()` — bfs_impls.rs 208-211. -/
def intoBfsForestRun (k : Nat) (a : Addr) : M α (Size × List (Option (α × Size))) := do
  let sz ← getSize a
  let os ← intoBfsDrive k a
  return (sz, os)

/-- One call of the API.  The methods of `Tree` and `Forest` that only call the method of the root node are modelled by that method on the root:
`root_`, `root_mut_` — forest.rs 27, 28, tree.rs 69-74, 241; `has_no_child`, `degree`, `node_count` — forest.rs 86, 97, 108; `iter_mut` — forest.rs 142,
tree.rs 87; `front`, `front_mut`, `back`, `back_mut` — forest.rs 146-164, tree.rs 225, 229; `push_front`, `push_back`, `pop_front`, `pop_back`,
`prepend`, `append` — forest.rs 178-272, tree.rs 101-159, 202, 221; `bfs_mut`, `bfs_children_mut` — bfs_impls.rs 228, 243; `Forest::default` — forest.rs 275
(`forestNew`). -/
def step (m : Machine α) : Op α → Outcome (Machine α) α
  | .treeNew d => m.run m.env (treeNew d) fun a h => m.retVar h m.env (.tree a)
  | .forestNew => m.run m.env forestNew fun a h => m.retVar h m.env (.forest a)
  | .pushFront x p y => m.takeTree x y fun t => m.onKids x p fun _ n =>
      m.run (m.setEnv y none) (pushFront n t) fun _ h => m.ret h (m.setEnv y none) .unit
  | .pushBack x p y => m.takeTree x y fun t => m.onKids x p fun _ n =>
      m.run (m.setEnv y none) (pushBack n t) fun _ h => m.ret h (m.setEnv y none) .unit
  | .popFront x p => m.onKids x p fun _ n => m.run m.env (popFront n) fun o h => m.retPop h o
  | .popBack x p => m.onKids x p fun _ n => m.run m.env (popBack n) fun o h => m.retPop h o
  | .prepend x p y => m.takeForest x y fun f => m.onKids x p fun _ n =>
      m.run (m.setEnv y none) (prepend n f) fun _ h => m.ret h (m.setEnv y none) .unit
  | .append x p y => m.takeForest x y fun f => m.onKids x p fun _ n =>
      m.run (m.setEnv y none) (append n f) fun _ h => m.ret h (m.setEnv y none) .unit
  | .insertPrevSib x l y => m.takeTree x y fun t => m.onNode x l fun n =>
      m.run (m.setEnv y none) (insertPrevSib n t) fun _ h => m.ret h (m.setEnv y none) .unit
  | .insertNextSib x l y => m.takeTree x y fun t => m.onNode x l fun n =>
      m.run (m.setEnv y none) (insertNextSib n t) fun _ h => m.ret h (m.setEnv y none) .unit
  | .detach x l => m.onNode x l fun n => m.run m.env (detach n) fun c h => m.retVar h m.env (.tree c)
  | .abandon x => match m.env x with
      | some (.tree r) => m.run m.env (abandon r) fun q h =>
          m.retVar h (m.setEnv x (some (.tree q.1))) (.forest q.2)
      | _ => .rejected
  | .setData x l d => m.onNode x l fun n => m.run m.env (dataMutSet n d) fun _ h => m.ret h m.env .unit
  | .drop x => match m.env x with
      | some (.iter f) => m.run (m.setEnv x none) (intoIterDrop f) fun _ h => m.ret h (m.setEnv x none) .unit
      | some hd => m.run (m.setEnv x none) (dropRoot hd.addr) fun _ h => m.ret h (m.setEnv x none) .unit
      | none => .rejected
  | .intoIter x => match m.env x with
      | some (.tree r) => m.run (m.setEnv x none) (treeIntoIter r) fun f h =>
          m.retVar h (m.setEnv x none) (.iter f)
      | some (.forest f) => m.retVar m.heap (m.setEnv x none) (.iter f)
      | _ => .rejected
  | .iterNext x => match m.env x with
      | some (.iter f) => m.run m.env (popFront f) fun o h => m.retPop h o
      | _ => .rejected
  | .iterLen x => match m.env x with
      | some (.iter f) => m.run m.env (degree f) fun n h => m.ret h m.env (.nat n)
      | _ => .rejected
  | .data x l => m.onNode x l fun n => m.run m.env (dataRef n) fun d h => m.ret h m.env (.item (some d))
  | .degree x p => m.onKids x p fun _ n => m.run m.env (degree n) fun k h => m.ret h m.env (.nat k)
  | .nodeCount x p => m.onKids x p fun _ n => m.run m.env (nodeCount n) fun k h => m.ret h m.env (.nat k)
  | .hasNoChild x p => m.onKids x p fun _ n => m.run m.env (hasNoChild n) fun b h => m.ret h m.env (.bool b)
  | .childData x p => m.onKids x p fun _ n =>
      m.run m.env (do readMany dataRef (← children n)) fun ds h => m.ret h m.env (.items ds)
  | .frontData x p => m.onKids x p fun _ n =>
      m.run m.env (do match (← front n) with
        | some c => do return some (← dataRef c)
        | none => return none) fun o h => m.ret h m.env (.item o)
  | .backData x p => m.onKids x p fun _ n =>
      m.run m.env (do match (← back n) with
        | some c => do return some (← dataRef c)
        | none => return none) fun o h => m.ret h m.env (.item o)
  | .mapBfs x l f => m.onNode x l fun n => m.run m.env (mapBfs f n) fun a h => m.retVar h m.env (.tree a)
  | .mapBfsForest x p f => m.onKids x p fun _ n =>
      m.run m.env (mapBfsForest f n) fun a h => m.retVar h m.env (.forest a)
  | .rebuild x f => match m.env x with
      | some (.tree r) => m.run (m.setEnv x none) (rebuildTree f r) fun a h =>
          m.retVar h (m.setEnv x none) (.tree a)
      | some (.forest r) => m.run (m.setEnv x none) (rebuildForest f r) fun a h =>
          m.retVar h (m.setEnv x none) (.forest a)
      | _ => .rejected
  | .bfs x l k => m.onNode x l fun n => m.run m.env (bfsRun k n) fun q h => m.ret h m.env (outVisits q)
  | .bfsChildren x p k => m.onKids x p fun _ n =>
      m.run m.env (bfsChildrenRun k n) fun q h => m.ret h m.env (outVisits q)
  | .intoBfs x k => match m.env x with
      | some (.tree r) => m.run (m.setEnv x none) (intoBfsTreeRun k r) fun q h =>
          m.ret h (m.setEnv x none) (outVisits q)
      | some (.forest r) => m.run (m.setEnv x none) (intoBfsForestRun k r) fun q h =>
          m.ret h (m.setEnv x none) (outVisits q)
      | _ => .rejected
  | .bfsMut x l k f => m.onNode x l fun n =>
      m.run m.env (bfsMutRun f k n) fun q h => m.ret h m.env (outVisits q)
  | .bfsChildrenMut x p k f => m.onKids x p fun _ n =>
      m.run m.env (bfsChildrenMutRun f k n) fun q h => m.ret h m.env (outVisits q)
  | .treeFromTuple t => if t.good then m.run m.env (treeFromTuple t) fun a h => m.retVar h m.env (.tree a) else .rejected
  | .forestFromTuple ts => if Tup.goodL ts then
      m.run m.env (forestFromTuple ts) fun a h => m.retVar h m.env (.forest a) else .rejected

/-- States that client programs can reach. -/
inductive Reachable : Machine α → Prop
  | init : Reachable Machine.empty
  | ok {m m' op o} : Reachable m → step m op = .ok m' o → Reachable m'
  | panic {m m' op} : Reachable m → step m op = .panic m' → Reachable m'

end Trees
