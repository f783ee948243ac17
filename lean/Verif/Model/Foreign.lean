import Verif.Model.Crash
import Verif.Spec.Foreign
/-
Trees of other crates: a client implements `Split` for its own type and feeds it to `BfsTree`/`BfsForest`.
-/
namespace Trees
variable {α ι κ δ σ : Type}

/-- The client's functions, which do not touch the memory of this crate and have no effects on each other; bfs.rs 147-152, 171-174. -/
def Foreign.src (F : Foreign ι κ δ) : Src α ι κ δ where
  next it := pure (F.next it)
  len it := pure (F.len it)
  drop _ := pure ()
  split k := pure (F.split k)

/-- `BfsTree<Iter>`, `BfsForest<Iter>` — bfs.rs 14-18, 58-62. -/
structure BfsOf (σ : Type) where
  iter : σ
  size : Size

/-- `BfsTree::from` — bfs.rs 23-27 —, `BfsForest::from` — 67-71 —; `From<Treelike> for Splitted` — 160-169. `it` is `treelike.into_iter()`. -/
def BfsOf.from (it : ι) (size : Size) : BfsOf (List ι) := ⟨[it], size⟩

/-- `Bfs<Iter>` — bfs.rs 103-106. -/
inductive Bfs (σ : Type) where
  | tree (b : BfsOf σ)
  | forest (b : BfsOf σ)

/-- `BfsTree::wrap` — bfs.rs 31. -/
def BfsOf.wrapTree (b : BfsOf σ) : Bfs σ := .tree b

/-- `BfsForest::wrap` — bfs.rs 75. -/
def BfsOf.wrapForest (b : BfsOf σ) : Bfs σ := .forest b

/-- `Bfs::iter` — bfs.rs 112-117. -/
def Bfs.iter : Bfs σ → σ
  | .tree b => b.iter
  | .forest b => b.iter

/-- `Bfs::iter_and_size` — bfs.rs 120-125. -/
def Bfs.iterAndSize : Bfs σ → σ × Size
  | .tree b => (b.iter, b.size)
  | .forest b => (b.iter, b.size)

/-- `Bfs::tree_iter` — bfs.rs 129-134. -/
def Bfs.treeIter : Bfs σ → Option σ
  | .tree b => some b.iter
  | _ => none

/-- `Bfs::forest_iter` — bfs.rs 138-143. -/
def Bfs.forestIter : Bfs σ → Option σ
  | .forest b => some b.iter
  | _ => none

/-- `Tree::from(b.map(f))` — bfs_impls.rs 274-305, bfs.rs 47-55 — for a `BfsTree` of the client's trees. -/
def treeOfForeign (F : Foreign ι κ δ) (f : Nat → δ → α) (b : BfsOf (List ι)) : M α Addr :=
  treeFromBfs (mapNext f (splittedNext F.src)) (fun _ => pure ()) (b.iter, 0)

/-- `Forest::from(b.map(f))` — bfs_impls.rs 323-354, bfs.rs 91-99 — for a `BfsForest` of the client's trees. -/
def forestOfForeign (F : Foreign ι κ δ) (f : Nat → δ → α) (b : BfsOf (List ι)) : M α Addr :=
  forestFromBfs (mapNext f (splittedNext F.src)) (fun _ => pure ()) (b.iter, 0) b.size

/-- The same as calls of the machine: the result is bound to the fresh variable. -/
def Machine.fromForeign (m : Machine α) (F : Foreign ι κ δ) (f : Nat → δ → α) (b : BfsOf (List ι)) : Outcome (Machine α) α :=
  m.run m.env (treeOfForeign F f b) fun a h => m.retVar h m.env (.tree a)
def Machine.fromForeignForest (m : Machine α) (F : Foreign ι κ δ) (f : Nat → δ → α) (b : BfsOf (List ι)) : Outcome (Machine α) α :=
  m.run m.env (forestOfForeign F f b) fun a h => m.retVar h m.env (.forest a)

end Trees
