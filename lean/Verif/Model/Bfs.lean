import Verif.Model.Node
/-
Breadth-first iteration (bfs.rs, bfs_impls.rs) and construction of contiguous trees and forests from it.
-/
namespace Trees
variable {α ι κ δ σ : Type}

/-- What `Splitted` uses of its iterator type `ι` (`ExactSizeIterator`) and of its item type `κ`
(`Split`) — bfs.rs 146-152, 171-173; `drop` is the destructor of the iterator. -/
structure Src (α ι κ δ : Type) where
  next : ι → M α (Option κ × ι)
  len : ι → M α Nat
  drop : ι → M α Unit
  split : κ → M α (δ × ι × Nat)

/-- `Iterator for Splitted` — bfs.rs 177-194; the state is the queue of iterators. -/
def splittedNext (S : Src α ι κ δ) : List ι → M α (Option (δ × Size) × List ι)
  | [] => pure (none, [])
  | it :: rest => do
    match (← S.next it) with
    | (some k, it') => do
      let (d, ch, desc) ← S.split k
      let n ← S.len ch
      return (some (d, ⟨n, desc⟩), it' :: rest ++ [ch])
    | (none, it') => do
      S.drop it'
      splittedNext S rest

/-- Dropping a `Splitted`: the queue drops its iterators from front to back (std `VecDeque`). -/
def dropIters (S : Src α ι κ δ) : List ι → M α Unit
  | [] => pure ()
  | it :: rest => do S.drop it; dropIters S rest

/-- `&Node` — bfs_impls.rs 127-134; `Iter` has no destructor. -/
def refSrc : Src α RawIter Addr α where
  next := RawIter.next
  len it := pure it.len
  drop _ := pure ()
  split a := do
    let d ← dataRef a
    let it ← iter a
    return (d, it, (← getSize a).descendants)

/-- `Pin<&mut Node>` — bfs_impls.rs 136-149; the `&mut T` handed out is named by its node. -/
def mutSrc : Src α RawIter Addr Addr where
  next := RawIter.next
  len it := pure it.len
  drop _ := pure ()
  split a := do
    let desc := (← getSize a).descendants
    let _ ← dataRef a
    let it ← iter a
    return (a, it, desc)

/-- `Tree` — bfs_impls.rs 308-318 (`split`), into_iter.rs 13-32 (`IntoIter`, named by its forest),
45-50. -/
def ownSrc : Src α Addr Addr α where
  next f := do return (← popFront f, f)
  len f := degree f
  drop f := intoIterDrop f
  split t := do
    let desc := (← getSize t).descendants
    let (newRoot, forest) ← abandon t
    let d ← intoData newRoot
    return (d, forest, desc)

/-- `BfsTree::map` / `BfsForest::map` — bfs.rs 47-55, 91-99. The closure is `FnMut`, so what it does may
differ from call to call: its `i`-th call is `f i`, and the state counts the calls. -/
def mapNext (f : Nat → δ → κ) (nxt : σ → M α (Option (δ × Size) × σ)) (s : σ × Nat) : M α (Option (κ × Size) × (σ × Nat)) := do
  let (o, s') ← nxt s.1
  match o with
  | some v => return (some (f s.2 v.1, v.2), (s', s.2 + 1))
  | none => return (none, (s', s.2))

/-- A client calling `next()` `k` times. -/
def driveVisits (nxt : σ → M α (Option (δ × Size) × σ)) : Nat → σ → M α (List (Option (δ × Size)) × σ)
  | 0, s => pure ([], s)
  | k+1, s => do
    let (o, s') ← nxt s
    let (os, s'') ← driveVisits nxt k s'
    return (o :: os, s'')

/-- Inner loop `while remains == 0` — bfs_impls.rs 294-300, 343-349: returns `(parent, remains)`. -/
def fillInner (v : Nat) : Nat → Nat → Nat → M α (Nat × Nat)
  | 0, _, _ => M.throw .fuel
  | k+1, par, child => do
    let a ← vecNode v (par + 1)
    let r ← degree a
    if par + 1 = child then return (par + 1, r)
    else if r = 0 then fillInner v k (par + 1) child
    else return (par + 1, r)

/-- Loop of `From<BfsTree> for Tree` and `From<BfsForest> for Forest` — bfs_impls.rs 289-302,
338-351 (`remains -= 1` panics on underflow). -/
def fillLoop (nxt : σ → M α (Option (α × Size) × σ)) (v : Nat) : Nat → σ → Nat → Nat → Nat → M α σ
  | 0, _, _, _, _ => M.throw .fuel
  | k+1, s, par, child, remains => do
    match (← nxt s) with
    | (none, s') => return s'
    | (some (d, sz), s') => do
      appendChild v par child d sz
      if remains = 0 then M.throw .panic
      else if remains - 1 = 0 then do
        let (par', remains') ← fillInner v (child + 1) par child
        fillLoop nxt v k s' par' (child + 1) remains'
      else fillLoop nxt v k s' par (child + 1) (remains - 1)

/-- `From<BfsTree> for Tree` — bfs_impls.rs 274-305; `drp` drops the exhausted iterator. -/
def treeFromBfs (nxt : σ → M α (Option (α × Size) × σ)) (drp : σ → M α Unit) (s : σ) : M α Addr := do
  let (o, s1) ← nxt s
  let (d, sz) ← unwrap o
  let v ← newVec (sz.descendants + 1)
  let _ ← makePiledNode v none 0 d sz
  let s2 ← fillLoop nxt v (sz.descendants + 1) s1 0 1 sz.degree
  let a ← vecNode v 0
  let r ← treeFromNode a
  drp s2
  return r

/-- `From<BfsForest> for Forest` — bfs_impls.rs 323-354. -/
def forestFromBfs (nxt : σ → M α (Option (α × Size) × σ)) (drp : σ → M α Unit) (s : σ) (sz : Size) : M α Addr := do
  let v ← newVec (sz.descendants + 1)
  let _ ← vecMakeNode v none 0 (.piledNone v) sz
  let s2 ← fillLoop nxt v (sz.descendants + 1) s 0 1 sz.degree
  let a ← vecNode v 0
  drp s2
  return a

/-! ### Entry points -/

/-- The iterator of `Node::bfs` — bfs_impls.rs 103-105, into_iter.rs 52-59; `bfs_mut` —
bfs_impls.rs 121-124, into_iter.rs 61-68. -/
def bfsStart (a : Addr) : List RawIter := [RawIter.once a]

/-- The iterator of `Node::bfs_children`, `Forest::bfs` — bfs_impls.rs 69, 165; `bfs_children_mut`,
`Forest::bfs_mut` — 85-88, 180-183. -/
def bfsChildrenStart (a : Addr) : M α (List RawIter) := do return [← iter a]

/-- `Tree::from(node.bfs().map(f))`; with the constant `f = T::clone` this is `Node::deep_clone` —
bfs_impls.rs 21-31 — and `Tree::clone` — tree.rs 232-236. (`f` maps into the same type: the
heap of the model holds values of one type.) -/
def mapBfs (f : Nat → α → α) (a : Addr) : M α Addr :=
  treeFromBfs (mapNext f (splittedNext refSrc)) (fun s => dropIters refSrc s.1) (bfsStart a, 0)

/-- `Forest::from(node.bfs_children().map(f))`; with `f = T::clone` this is
`Node::deep_clone_forest` — bfs_impls.rs 44-54 — and `Forest::clone` — forest.rs 284-288. -/
def mapBfsForest (f : Nat → α → α) (a : Addr) : M α Addr := do
  let s ← bfsChildrenStart a
  let sz ← getSize a
  forestFromBfs (mapNext f (splittedNext refSrc)) (fun s => dropIters refSrc s.1) (s, 0) sz

/-- `Tree::from(tree.into_bfs().map(f))` — bfs_impls.rs 265-268, 274-305. -/
def rebuildTree (f : Nat → α → α) (t : Addr) : M α Addr := do
  let it ← treeIntoIter t
  treeFromBfs (mapNext f (splittedNext ownSrc)) (fun s => dropIters ownSrc s.1) ([it], 0)

/-- `Forest::from(forest.into_bfs().map(f))` — bfs_impls.rs 208-211, 323-354. -/
def rebuildForest (f : Nat → α → α) (a : Addr) : M α Addr := do
  let sz ← getSize a
  forestFromBfs (mapNext f (splittedNext ownSrc)) (fun s => dropIters ownSrc s.1) ([a], 0) sz

/-- `k` calls of `next()` on `into_bfs().iter`, then the iterator is dropped. -/
def intoBfsDrive (k : Nat) (it : Addr) : M α (List (Option (α × Size))) := do
  let (os, s) ← driveVisits (splittedNext ownSrc) k [it]
  dropIters ownSrc s
  return os

/-- In-place update through the `&mut T` of a visit (`Data::as_mut`, node.rs 82-90). -/
def modifyData (a : Addr) (g : α → α) : M α Unit := do
  match (← getData a) with
  | .piled d o => setData a (.piled (g d) o)
  | .scattered d o => setData a (.scattered (g d) o)
  | _ => M.throw .panic

/-- A client calling `next()` on a mutable breadth-first iterator `k` times, reading the data of each
visit and updating it in place, the data of the `j`-th visit with `f j`, `j = i, i+1, …`. -/
def driveMut (f : Nat → α → α) : Nat → Nat → List RawIter → M α (List (Option (α × Size)))
  | 0, _, _ => pure []
  | k+1, i, s => do
    let (o, s') ← splittedNext mutSrc s
    match o with
    | some (a, sz) => do
      let d ← dataRef a
      modifyData a (f i)
      let os ← driveMut f k (i + 1) s'
      return some (d, sz) :: os
    | none => do
      let os ← driveMut f k (i + 1) s'
      return none :: os

end Trees
