import Verif.Model.Machine
/-
Client programs over the modelled crate when memory is reused: an allocator decides where each new node and each new
block goes.  Every function that allocates (directly or through its callees) is repeated here with the allocator as a
parameter; all other code is the code of Model/Node, Model/Bfs and Model/Tuple.
-/
namespace Trees
variable {α β ι κ δ σ : Type}

/-- What an allocator does in a run: the address of the `n`-th node it is asked for (the nodes of a block count one by
one) and the address of the `n`-th `NodeVec` (`Box::new`, heap.rs 8, 17; `Box::into_raw`, node_vec.rs 16-23). The
addresses may repeat. -/
structure Alloc where
  addr : Nat → Addr
  vec : Nat → Nat

/-- The allocator of Model/Node: no address is ever used twice. -/
def Alloc.fresh : Alloc := ⟨id, id⟩

/-- An allocator that never hands out the same place twice: it moves upwards through memory. -/
structure Alloc.Bump (A : Alloc) : Prop where
  addr : ∀ n, A.addr n = A.addr 0 + n
  vec : ∀ v w, A.vec v = A.vec w → v = w

/-- Memory in use at `x`: a live node, or a slot of a block that has not been released. -/
def inUse (A : Alloc) (h : Heap α) (x : Addr) : Bool :=
  h.live x || (List.range h.nextVec).any fun v =>
    match h.vec (A.vec v) with
    | none => false
    | some nv => decide (nv.base ≤ x) && decide (x < nv.base + nv.cap)

/-- The place chosen for the next node is free. -/
def Alloc.okNode (A : Alloc) (h : Heap α) : Bool := !inUse A h (A.addr h.nextAddr)

/-- The places chosen for the next block of `cap` nodes are contiguous and free, as is the place of its `NodeVec`. -/
def Alloc.okBlock (A : Alloc) (h : Heap α) (cap : Nat) : Bool :=
  (h.vec (A.vec h.nextVec)).isNone && (List.range cap).all fun i =>
    decide (A.addr (h.nextAddr + i) = A.addr h.nextAddr + i) && !inUse A h (A.addr h.nextAddr + i)

/-- `heap::make_node` — heap.rs 7-30 — at the address that the allocator chooses. If that is not free, the allocator has
broken its contract. -/
def makeNodeA (A : Alloc) (d : Data α) : M α Addr := fun h =>
  let a := A.addr h.nextAddr
  if A.okNode h then
    .ok a { h with
      live := upd h.live a true
      prev := upd h.prev a none
      next := upd h.next a none
      head := upd h.head a none
      tail := upd h.tail a none
      up := upd h.up a none
      size := upd h.size a .default
      data := upd h.data a (d.setOwner a)
      count := upd h.count a 1
      borrow := upd h.borrow a 0
      nextAddr := h.nextAddr + 1 }
  else .err .alloc h

/-- `NodeVec::new_raw_non_null` — node_vec.rs 16-23 — at the address that the allocator chooses. -/
def newVecA (A : Alloc) (cap : Nat) : M α Nat := fun h =>
  let v := A.vec h.nextVec
  let b := A.addr h.nextAddr
  let inR := fun (a : Addr) => b ≤ a ∧ a < b + cap
  if A.okBlock h cap then
    .ok v { h with
      live := fun a => if inR a then true else h.live a
      prev := fun a => if inR a then none else h.prev a
      next := fun a => if inR a then none else h.next a
      head := fun a => if inR a then none else h.head a
      tail := fun a => if inR a then none else h.tail a
      up := fun a => if inR a then none else h.up a
      size := fun a => if inR a then .default else h.size a
      data := fun a => if inR a then .none else h.data a
      count := fun a => if inR a then 1 else h.count a
      borrow := fun a => if inR a then 0 else h.borrow a
      vec := upd h.vec v (some ⟨b, cap, cap⟩)
      nextAddr := h.nextAddr + cap
      nextVec := h.nextVec + 1 }
  else .err .alloc h

/-- `Tree::new` — tree.rs 29-34. -/
def treeNewA (A : Alloc) (d : α) : M α Addr := makeNodeA A (.scattered d 0)

/-- `Forest::new` — forest.rs 31-33. -/
def forestNewA (A : Alloc) : M α Addr := makeNodeA A (.scatteredNone 0)

/-- `Tree::abandon` — tree.rs 175-183. -/
def abandonA (A : Alloc) (root : Addr) : M α (Addr × Addr) := do
  match (← getData root).take with
  | some (rest, d) => do
    setData root rest
    let newRoot ← makeNodeA A (.scattered d 0)
    return (newRoot, root)
  | none => M.throw .panic

/-- `IntoIterator for Tree` — into_iter.rs 34-43. -/
def treeIntoIterA (A : Alloc) (root : Addr) : M α Addr := do
  let f ← forestNewA A
  pushBack f root
  return f

/-- `Tree` — bfs_impls.rs 308-318 (`split`), into_iter.rs 13-32, 45-50. -/
def ownSrcA (A : Alloc) : Src α Addr Addr α where
  next f := do return (← popFront f, f)
  len f := degree f
  drop f := intoIterDrop f
  split t := do
    let desc := (← getSize t).descendants
    let (newRoot, forest) ← abandonA A t
    let d ← intoData newRoot
    return (d, forest, desc)

/-- `From<BfsTree> for Tree` — bfs_impls.rs 274-305. -/
def treeFromBfsA (A : Alloc) (nxt : σ → M α (Option (α × Size) × σ)) (drp : σ → M α Unit) (s : σ) : M α Addr := do
  let (o, s1) ← nxt s
  let (d, sz) ← unwrap o
  let v ← newVecA A (sz.descendants + 1)
  let _ ← makePiledNode v none 0 d sz
  let s2 ← fillLoop nxt v (sz.descendants + 1) s1 0 1 sz.degree
  let a ← vecNode v 0
  let r ← treeFromNode a
  drp s2
  return r

/-- `From<BfsForest> for Forest` — bfs_impls.rs 323-354. -/
def forestFromBfsA (A : Alloc) (nxt : σ → M α (Option (α × Size) × σ)) (drp : σ → M α Unit) (s : σ) (sz : Size) :
    M α Addr := do
  let v ← newVecA A (sz.descendants + 1)
  let _ ← vecMakeNode v none 0 (.piledNone v) sz
  let s2 ← fillLoop nxt v (sz.descendants + 1) s 0 1 sz.degree
  let a ← vecNode v 0
  drp s2
  return a

/-- `Tree::from(node.bfs().map(f))`, `Node::deep_clone` — bfs_impls.rs 21-31, 103-105, 274-305. -/
def mapBfsA (A : Alloc) (f : Nat → α → α) (a : Addr) : M α Addr :=
  treeFromBfsA A (mapNext f (splittedNext refSrc)) (fun s => dropIters refSrc s.1) (bfsStart a, 0)

/-- `Forest::from(node.bfs_children().map(f))`, `Node::deep_clone_forest` — bfs_impls.rs 44-54, 69, 323-354. -/
def mapBfsForestA (A : Alloc) (f : Nat → α → α) (a : Addr) : M α Addr := do
  let s ← bfsChildrenStart a
  let sz ← getSize a
  forestFromBfsA A (mapNext f (splittedNext refSrc)) (fun s => dropIters refSrc s.1) (s, 0) sz

/-- `Tree::from(tree.into_bfs().map(f))` — bfs_impls.rs 265-268, 274-305. -/
def rebuildTreeA (A : Alloc) (f : Nat → α → α) (t : Addr) : M α Addr := do
  let it ← treeIntoIterA A t
  treeFromBfsA A (mapNext f (splittedNext (ownSrcA A))) (fun s => dropIters (ownSrcA A) s.1) ([it], 0)

/-- `Forest::from(forest.into_bfs().map(f))` — bfs_impls.rs 208-211, 323-354. -/
def rebuildForestA (A : Alloc) (f : Nat → α → α) (a : Addr) : M α Addr := do
  let sz ← getSize a
  forestFromBfsA A (mapNext f (splittedNext (ownSrcA A))) (fun s => dropIters (ownSrcA A) s.1) ([a], 0) sz

/-- `k` calls of `next()` on `into_bfs().iter`, then the iterator is dropped — bfs.rs 177-194. -/
def intoBfsDriveA (A : Alloc) (k : Nat) (it : Addr) : M α (List (Option (α × Size))) := do
  let (os, s) ← driveVisits (splittedNext (ownSrcA A)) k [it]
  dropIters (ownSrcA A) s
  return os

/-- `tree.into_bfs()`, `k` calls of `next()`, then dropped — bfs_impls.rs 265-268. -/
def intoBfsTreeRunA (A : Alloc) (k : Nat) (t : Addr) : M α (Size × List (Option (α × Size))) := do
  let d := (← getSize t).descendants
  let it ← treeIntoIterA A t
  let os ← intoBfsDriveA A k it
  return (⟨1, d⟩, os)

/-- `forest.into_bfs()` — bfs_impls.rs 208-211. -/
def intoBfsForestRunA (A : Alloc) (k : Nat) (a : Addr) : M α (Size × List (Option (α × Size))) := do
  let sz ← getSize a
  let os ← intoBfsDriveA A k a
  return (sz, os)

/-- `Tree::from_tuple` — tree.rs 47-55. -/
def treeFromTupleA (A : Alloc) (t : Tup α) : M α Addr := do
  let v ← newVecA A (t.size.descendants + 1)
  constructTree v t
  let a ← vecNode v 0
  treeFromNode a

/-- `Forest::from_tuple` — forest.rs 46-54, 56-58. -/
def forestFromTupleA (A : Alloc) (ts : List (Tup α)) : M α Addr := do
  let v ← newVecA A ((forestSize ts).descendants + 1)
  constructForest v ts
  vecNode v 0

/-! #### Running one call.  `none`: the allocator has broken its contract. -/

/-- Run code of the crate; `env` is the environment if it panics. -/
def Machine.runA (m : Machine α) (env : Var → Option Handle) (c : M α β)
    (k : β → Heap α → Option (Outcome (Machine α) α)) : Option (Outcome (Machine α) α) :=
  match c m.heap with
  | .ok b h => k b h
  | .err .panic h => some (.panic ⟨h, env, m.fresh⟩)
  | .err .alloc _ => none
  | .err _ _ => some .bad

/-- Find the node at `p` in variable `x` (a tree or forest). -/
def Machine.onKidsA (m : Machine α) (x : Var) (p : Path)
    (k : Handle → Addr → Option (Outcome (Machine α) α)) : Option (Outcome (Machine α) α) :=
  match m.env x with
  | none => some .rejected
  | some hd => if hd.isIter then some .rejected else
    m.runA m.env (locate hd.addr p) fun o _ =>
      match o with
      | none => some (.ok m .absent)
      | some n => k hd n

/-- Find a proper node. -/
def Machine.onNodeA (m : Machine α) (x : Var) (l : Loc)
    (k : Addr → Option (Outcome (Machine α) α)) : Option (Outcome (Machine α) α) :=
  match m.env x with
  | none => some .rejected
  | some hd => if hd.isIter then some .rejected else
    match l with
    | .root => match hd with
      | .tree r => k r
      | _ => some .rejected
    | .child q i => m.runA m.env (locate hd.addr (q ++ [i])) fun o _ =>
      match o with
      | none => some (.ok m .absent)
      | some n => k n

def Machine.takeTreeA (m : Machine α) (x y : Var) (k : Addr → Option (Outcome (Machine α) α)) :
    Option (Outcome (Machine α) α) :=
  if x = y then some .rejected else
  match m.env y with
  | some (.tree t) => k t
  | _ => some .rejected

def Machine.takeForestA (m : Machine α) (x y : Var) (k : Addr → Option (Outcome (Machine α) α)) :
    Option (Outcome (Machine α) α) :=
  if x = y then some .rejected else
  match m.env y with
  | some (.forest t) => k t
  | _ => some .rejected

/-- One call of the API (compare `step`). -/
def stepA (A : Alloc) (m : Machine α) : Op α → Option (Outcome (Machine α) α)
  | .treeNew d => m.runA m.env (treeNewA A d) fun a h => some <| m.retVar h m.env (.tree a)
  | .forestNew => m.runA m.env (forestNewA A) fun a h => some <| m.retVar h m.env (.forest a)
  | .pushFront x p y => m.takeTreeA x y fun t => m.onKidsA x p fun _ n =>
      m.runA (m.setEnv y none) (pushFront n t) fun _ h => some <| m.ret h (m.setEnv y none) .unit
  | .pushBack x p y => m.takeTreeA x y fun t => m.onKidsA x p fun _ n =>
      m.runA (m.setEnv y none) (pushBack n t) fun _ h => some <| m.ret h (m.setEnv y none) .unit
  | .popFront x p => m.onKidsA x p fun _ n => m.runA m.env (popFront n) fun o h => some <| m.retPop h o
  | .popBack x p => m.onKidsA x p fun _ n => m.runA m.env (popBack n) fun o h => some <| m.retPop h o
  | .prepend x p y => m.takeForestA x y fun f => m.onKidsA x p fun _ n =>
      m.runA (m.setEnv y none) (prepend n f) fun _ h => some <| m.ret h (m.setEnv y none) .unit
  | .append x p y => m.takeForestA x y fun f => m.onKidsA x p fun _ n =>
      m.runA (m.setEnv y none) (append n f) fun _ h => some <| m.ret h (m.setEnv y none) .unit
  | .insertPrevSib x l y => m.takeTreeA x y fun t => m.onNodeA x l fun n =>
      m.runA (m.setEnv y none) (insertPrevSib n t) fun _ h => some <| m.ret h (m.setEnv y none) .unit
  | .insertNextSib x l y => m.takeTreeA x y fun t => m.onNodeA x l fun n =>
      m.runA (m.setEnv y none) (insertNextSib n t) fun _ h => some <| m.ret h (m.setEnv y none) .unit
  | .detach x l => m.onNodeA x l fun n => m.runA m.env (detach n) fun c h => some <| m.retVar h m.env (.tree c)
  | .abandon x => match m.env x with
      | some (.tree r) => m.runA m.env (abandonA A r) fun q h =>
          some <| m.retVar h (m.setEnv x (some (.tree q.1))) (.forest q.2)
      | _ => some .rejected
  | .setData x l d => m.onNodeA x l fun n =>
      m.runA m.env (dataMutSet n d) fun _ h => some <| m.ret h m.env .unit
  | .drop x => match m.env x with
      | some (.iter f) => m.runA (m.setEnv x none) (intoIterDrop f) fun _ h =>
          some <| m.ret h (m.setEnv x none) .unit
      | some hd => m.runA (m.setEnv x none) (dropRoot hd.addr) fun _ h =>
          some <| m.ret h (m.setEnv x none) .unit
      | none => some .rejected
  | .intoIter x => match m.env x with
      | some (.tree r) => m.runA (m.setEnv x none) (treeIntoIterA A r) fun f h =>
          some <| m.retVar h (m.setEnv x none) (.iter f)
      | some (.forest f) => some <| m.retVar m.heap (m.setEnv x none) (.iter f)
      | _ => some .rejected
  | .iterNext x => match m.env x with
      | some (.iter f) => m.runA m.env (popFront f) fun o h => some <| m.retPop h o
      | _ => some .rejected
  | .iterLen x => match m.env x with
      | some (.iter f) => m.runA m.env (degree f) fun n h => some <| m.ret h m.env (.nat n)
      | _ => some .rejected
  | .data x l => m.onNodeA x l fun n =>
      m.runA m.env (dataRef n) fun d h => some <| m.ret h m.env (.item (some d))
  | .degree x p => m.onKidsA x p fun _ n => m.runA m.env (degree n) fun k h => some <| m.ret h m.env (.nat k)
  | .nodeCount x p => m.onKidsA x p fun _ n =>
      m.runA m.env (nodeCount n) fun k h => some <| m.ret h m.env (.nat k)
  | .hasNoChild x p => m.onKidsA x p fun _ n =>
      m.runA m.env (hasNoChild n) fun b h => some <| m.ret h m.env (.bool b)
  | .childData x p => m.onKidsA x p fun _ n =>
      m.runA m.env (do readMany dataRef (← children n)) fun ds h => some <| m.ret h m.env (.items ds)
  | .frontData x p => m.onKidsA x p fun _ n =>
      m.runA m.env (do match (← front n) with
        | some c => do return some (← dataRef c)
        | none => return none) fun o h => some <| m.ret h m.env (.item o)
  | .backData x p => m.onKidsA x p fun _ n =>
      m.runA m.env (do match (← back n) with
        | some c => do return some (← dataRef c)
        | none => return none) fun o h => some <| m.ret h m.env (.item o)
  | .mapBfs x l f => m.onNodeA x l fun n =>
      m.runA m.env (mapBfsA A f n) fun a h => some <| m.retVar h m.env (.tree a)
  | .mapBfsForest x p f => m.onKidsA x p fun _ n =>
      m.runA m.env (mapBfsForestA A f n) fun a h => some <| m.retVar h m.env (.forest a)
  | .rebuild x f => match m.env x with
      | some (.tree r) => m.runA (m.setEnv x none) (rebuildTreeA A f r) fun a h =>
          some <| m.retVar h (m.setEnv x none) (.tree a)
      | some (.forest r) => m.runA (m.setEnv x none) (rebuildForestA A f r) fun a h =>
          some <| m.retVar h (m.setEnv x none) (.forest a)
      | _ => some .rejected
  | .bfs x l k => m.onNodeA x l fun n =>
      m.runA m.env (bfsRun k n) fun q h => some <| m.ret h m.env (outVisits q)
  | .bfsChildren x p k => m.onKidsA x p fun _ n =>
      m.runA m.env (bfsChildrenRun k n) fun q h => some <| m.ret h m.env (outVisits q)
  | .intoBfs x k => match m.env x with
      | some (.tree r) => m.runA (m.setEnv x none) (intoBfsTreeRunA A k r) fun q h =>
          some <| m.ret h (m.setEnv x none) (outVisits q)
      | some (.forest r) => m.runA (m.setEnv x none) (intoBfsForestRunA A k r) fun q h =>
          some <| m.ret h (m.setEnv x none) (outVisits q)
      | _ => some .rejected
  | .bfsMut x l k f => m.onNodeA x l fun n =>
      m.runA m.env (bfsMutRun f k n) fun q h => some <| m.ret h m.env (outVisits q)
  | .bfsChildrenMut x p k f => m.onKidsA x p fun _ n =>
      m.runA m.env (bfsChildrenMutRun f k n) fun q h => some <| m.ret h m.env (outVisits q)
  | .treeFromTuple t => if t.good then
      m.runA m.env (treeFromTupleA A t) fun a h => some <| m.retVar h m.env (.tree a) else some .rejected
  | .forestFromTuple ts => if Tup.goodL ts then
      m.runA m.env (forestFromTupleA A ts) fun a h => some <| m.retVar h m.env (.forest a) else some .rejected

/-- Run a program (compare `exec`); `none` when the allocator breaks its contract. -/
def execA (A : Alloc) : Machine α → List (Op α) → Option (Machine α × List (Outcome Unit α))
  | m, [] => some (m, [])
  | m, op :: ops =>
    match stepA A m op with
    | none => none
    | some (.ok m' o) => (execA A m' ops).map fun q => (q.1, .ok () o :: q.2)
    | some (.panic m') => (execA A m' ops).map fun q => (q.1, .panic () :: q.2)
    | some .rejected => (execA A m ops).map fun q => (q.1, .rejected :: q.2)
    | some .bad => (execA A m ops).map fun q => (q.1, .bad :: q.2)

end Trees
