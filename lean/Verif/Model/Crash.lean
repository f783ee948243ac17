import Verif.Model.Machine
import Verif.Spec.Crash
/-
User code that panics while a contiguous tree or forest is being built from a breadth-first iteration.
-/
namespace Trees
variable {α δ κ σ : Type}

/-- `BfsTree::map` / `BfsForest::map` — bfs.rs 47-55, 91-99 — with a closure that may panic (`f i d = none`).
`unw d s` is what unwinding runs on the way out of `From::from` — bfs_impls.rs 277-305, 326-354: the closure's argument
`d` and the iterator `s` are dropped.  The block that is being filled is a `NonNull<NodeVec>` (280, 329), which has no
destructor: it stays as it is.  (Simplification: a closure that panics still owns its argument.) -/
def mapNextC (f : Nat → δ → Option κ) (nxt : σ → M α (Option (δ × Size) × σ)) (unw : δ → σ → M α Unit) (s : σ × Nat) :
    M α (Option (κ × Size) × (σ × Nat)) := do
  let (o, s') ← nxt s.1
  match o with
  | some v => match f s.2 v.1 with
    | some w => return (some (w, v.2), (s', s.2 + 1))
    | none => do
      unw v.1 s'
      M.throw .panic
  | none => return (none, (s', s.2))

/-- Unwinding out of an iteration by reference: the closure's argument is a `&T`. -/
def refUnwind (_ : α) (s : List RawIter) : M α Unit := dropIters refSrc s

/-- Unwinding out of an owning iteration. -/
def ownUnwind (d : α) (s : List Addr) : M α Unit := do
  logDrop d
  dropIters ownSrc s

/-- `Tree::from(node.bfs().map(f))`, `Node::deep_clone` — bfs_impls.rs 21-31, 103-105, 274-305. -/
def mapBfsC (f : Nat → α → Option α) (a : Addr) : M α Addr :=
  treeFromBfs (mapNextC f (splittedNext refSrc) refUnwind) (fun s => dropIters refSrc s.1) (bfsStart a, 0)

/-- `Forest::from(node.bfs_children().map(f))`, `Node::deep_clone_forest` — bfs_impls.rs 44-54, 69, 323-354. -/
def mapBfsForestC (f : Nat → α → Option α) (a : Addr) : M α Addr := do
  let s ← bfsChildrenStart a
  let sz ← getSize a
  forestFromBfs (mapNextC f (splittedNext refSrc) refUnwind) (fun s => dropIters refSrc s.1) (s, 0) sz

/-- `Tree::from(tree.into_bfs().map(f))` — bfs_impls.rs 265-268, 274-305. -/
def rebuildTreeC (f : Nat → α → Option α) (t : Addr) : M α Addr := do
  let it ← treeIntoIter t
  treeFromBfs (mapNextC f (splittedNext ownSrc) ownUnwind) (fun s => dropIters ownSrc s.1) ([it], 0)

/-- `Forest::from(forest.into_bfs().map(f))` — bfs_impls.rs 208-211, 323-354. -/
def rebuildForestC (f : Nat → α → Option α) (a : Addr) : M α Addr := do
  let sz ← getSize a
  forestFromBfs (mapNextC f (splittedNext ownSrc) ownUnwind) (fun s => dropIters ownSrc s.1) ([a], 0) sz

/-! ### Iterators of the client's own: the fields of `BfsTree` and `BfsForest` are public — bfs.rs 15-18, 59-62 -/

/-- Destroy what is left in the client's iterator. -/
def dropVisits : List (α × Size) → M α Unit
  | [] => pure ()
  | v :: vs => do
    logDrop v.1
    dropVisits vs

/-- `Iterator::next` of an iterator (like `vec::IntoIter`) over a list of `Visit`s — bfs.rs 9-12 — that panics after some
calls, while it has visits left; unwinding drops these. -/
def listNext : List (α × Size) × Option Nat → M α (Option (α × Size) × (List (α × Size) × Option Nat))
  | ([], c) => return (none, ([], c))
  | (v :: vs, none) => return (some v, (vs, none))
  | (v :: vs, some 0) => do
    dropVisits (v :: vs)
    M.throw .panic
  | (v :: vs, some (k+1)) => return (some v, (vs, some k))

/-- `Tree::from(BfsTree{ iter, size })` — bfs_impls.rs 274-305; `size` is not used. -/
def treeOfVisits (vs : List (α × Size)) (j : Option Nat) : M α Addr := treeFromBfs listNext (fun s => dropVisits s.1) (vs, j)

/-- `Forest::from(BfsForest{ iter, size })` — bfs_impls.rs 323-354. -/
def forestOfVisits (vs : List (α × Size)) (sz : Size) (j : Option Nat) : M α Addr :=
  forestFromBfs listNext (fun s => dropVisits s.1) (vs, j) sz

/-- The `Visit`s of trees, in level order. -/
def visitList (ts : List (RTree α)) : List (α × Size) := (RTree.levelOrder ts).map fun t => ((RTree.visit t).1, ⟨(RTree.visit t).2.1, (RTree.visit t).2.2⟩)

/-! ### Destructors of user data that panic -/

/-- `T::drop`; run number `n`, counted from the beginning of the program, panics. -/
def logDropP (n : Nat) (d : α) : M α Unit := fun h =>
  (logDrop d h).bind fun _ h' => if h.log.length = n then .err .panic h' else .ok () h'

/-- `heap::drop_node` — heap.rs 32-46; the user value is dropped at the end of the `match`, after the node was released. -/
def dropNodeP (n : Nat) (a : Addr) : M α Unit := do
  let d ← getData a
  setData a .none
  match d with
  | .none => pure ()
  | .scatteredNone o => rcDrop o
  | .scattered d o => do rcDrop o; logDropP n d
  | .piledNone v => decrRef v
  | .piled d v => do decrRef v; logDropP n d

/-- `Drop for Tree` / `Drop for Forest` — tree.rs 244-249, forest.rs 277-282. When it unwinds nothing more is run: the
fields of `Tree` and `Forest` are `NonNull`s, which have no destructor. -/
def dropLoopP (n : Nat) : Nat → Addr → M α Unit
  | 0, _ => M.throw .fuel
  | k+1, r => do
    match (← popFront r) with
    | some c => do dropLoopP n k c; dropLoopP n k r
    | none => dropNodeP n r

/-- Dropping a `Tree` or `Forest` — tree.rs 244-249, forest.rs 277-282. -/
def dropRootP (n : Nat) (r : Addr) : M α Unit := M.fuelled fun h => dropLoopP n ((h.size r).descendants + 1) r

/-- Loop of `Drop for IntoIter` — into_iter.rs 28-32. -/
def intoIterDropLoopP (n : Nat) : Nat → Addr → M α Unit
  | 0, _ => M.throw .fuel
  | k+1, f => do
    match (← popFront f) with
    | some c => do dropRootP n c; intoIterDropLoopP n k f
    | none => pure ()

/-- Drop glue: `c` is the body of `Drop::drop`, `fin` drops the fields; these are dropped even if the body panics. -/
def thenFields (c fin : M α Unit) : M α Unit := fun h =>
  match c h with
  | .ok _ h' => fin h'
  | .err .panic h' => (fin h').bind fun _ s => .err .panic s
  | .err e h' => .err e h'

/-- `Drop for IntoIter` — into_iter.rs 28-32, and the drop of its field `forest`, which is a `Forest`. -/
def intoIterDropP (n : Nat) (f : Addr) : M α Unit :=
  thenFields (M.fuelled fun h => intoIterDropLoopP n ((h.size f).degree + 1) f) (dropRootP n f)

/-- One call; see `step` (Model/Machine.lean). -/
def cstep (m : Machine α) : COp α → Outcome (Machine α) α
  | .call op => step m op
  | .mapBfs x l f => m.onNode x l fun n => m.run m.env (mapBfsC f n) fun a h => m.retVar h m.env (.tree a)
  | .mapBfsForest x p f => m.onKids x p fun _ n =>
      m.run m.env (mapBfsForestC f n) fun a h => m.retVar h m.env (.forest a)
  | .rebuild x f => match m.env x with
      | some (.tree r) => m.run (m.setEnv x none) (rebuildTreeC f r) fun a h =>
          m.retVar h (m.setEnv x none) (.tree a)
      | some (.forest r) => m.run (m.setEnv x none) (rebuildForestC f r) fun a h =>
          m.retVar h (m.setEnv x none) (.forest a)
      | _ => .rejected
  | .ofVisits t j => m.run m.env (treeOfVisits (visitList [t]) j) fun a h => m.retVar h m.env (.tree a)
  | .ofVisitsForest ts j =>
      m.run m.env (forestOfVisits (visitList ts) ⟨ts.length, RTree.countL ts⟩ j) fun a h => m.retVar h m.env (.forest a)
  | .forget x => match m.env x with
      | some _ => m.ret m.heap (m.setEnv x none) .unit
      | none => .rejected
  | .dropPanic x j => match m.env x with
      | some (.iter f) => m.run (m.setEnv x none) (intoIterDropP (m.heap.log.length + j) f) fun _ h => m.ret h (m.setEnv x none) .unit
      | some hd => m.run (m.setEnv x none) (dropRootP (m.heap.log.length + j) hd.addr) fun _ h => m.ret h (m.setEnv x none) .unit
      | none => .rejected
  | .setDataPanic x l d => match step m (.setData x l d) with
      | .ok m' .unit => .panic m'
      | r => r

/-- States that client programs can reach that catch panics of their own code and go on. -/
inductive CReachable : Machine α → Prop
  | init : CReachable Machine.empty
  | ok {m m' op o} : CReachable m → cstep m op = .ok m' o → CReachable m'
  | panic {m m' op} : CReachable m → cstep m op = .panic m' → CReachable m'

end Trees
