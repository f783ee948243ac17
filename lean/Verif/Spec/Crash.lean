import Verif.Spec.Store
/-
Specification of calls whose user code (a closure, `T::clone`) may panic.
-/
namespace Trees
variable {α : Type}

/-- Calls that run user code on the data of every node.  The closure may panic: its `i`-th call, on `d`, returns
`f i d`, or panics if that is `none`. -/
inductive COp (α : Type) where
  /-- A call without panicking user code. -/
  | call (op : Op α)
  /-- `Tree::from(node.bfs().map(f))`; `Node::deep_clone`, `Tree::clone` with `T::clone` for `f`. -/
  | mapBfs (x : Var) (l : Loc) (f : Nat → α → Option α)
  /-- `Forest::from(node.bfs_children().map(f))`; `Node::deep_clone_forest`, `Forest::clone`. -/
  | mapBfsForest (x : Var) (p : Path) (f : Nat → α → Option α)
  /-- `Tree::from(tree.into_bfs().map(f))`, `Forest::from(forest.into_bfs().map(f))`. -/
  | rebuild (x : Var) (f : Nat → α → Option α)
  /-- `Tree::from(BfsTree{ iter, size })` with an iterator of the client's own that owns, and yields, exactly the
  breadth-first visits of `t`; it panics when it is asked for visit number `j`, if that exists. -/
  | ofVisits (t : RTree α) (j : Option Nat)
  /-- `Forest::from(BfsForest{ iter, size })`, the same. -/
  | ofVisitsForest (ts : List (RTree α)) (j : Option Nat)
  /-- `mem::forget(x)`, for a tree, a forest or an owning iterator. -/
  | forget (x : Var)
  /-- `drop(x)`, in which the `j`-th run of a destructor of user data panics (if there are so many). -/
  | dropPanic (x : Var) (j : Nat)
  /-- `*node.data_mut() = d`, in which the destructor of the old data panics.  (The assignment takes place nevertheless:
  that is the semantics of assignments in Rust.) -/
  | setDataPanic (x : Var) (l : Loc) (d : α)

/-- Which call of the closure panics, if any: the first one that returns nothing, in breadth-first order. -/
def firstPanic (f : Nat → α → Option α) (ts : List (RTree α)) : Option Nat :=
  (List.range (RTree.countL ts)).find? fun j => ((RTree.levelOrder ts)[j]?.bind fun t => f j t.data).isNone

/-- The closure, where it returns. -/
def orSame (f : Nat → α → Option α) : Nat → α → α := fun i d => (f i d).getD d

/-- What unwinding destroys when the `n`-th visit of an owning iteration over `ts` panics: the data of that visit,
which the closure owns, and then the trees still in the queue.  The data of the earlier visits is in the unfinished
structure and is never destroyed. -/
def unwound (n : Nat) (ts : List (RTree α)) : List α :=
  (((RTree.levelOrder ts)[n]?.map RTree.data).toList) ++ RTree.postL (bfsRest (n + 1) ts)

/-- The items that an iterator of the client's own still has when it panics. -/
def unvisited (j : Option Nat) (ts : List (RTree α)) : Option (List α) :=
  j.bind fun n => if n < RTree.countL ts then some (((RTree.levelOrder ts).drop n).map RTree.data) else none

/-- The items that are destroyed when a list of trees, each of them owned, is dropped and the destructor of item number `j`,
in order of destruction, panics: what is left of the tree that this item belongs to is leaked, the later trees are dropped. -/
def dropEach : Nat → List (RTree α) → List α
  | _, [] => []
  | j, t :: ts => if j < t.count then t.post.take (j + 1) ++ RTree.postL ts else t.post ++ dropEach (j - t.count) ts

/-- The items that are destroyed when a value is dropped and the destructor of item number `j`, in order of destruction,
panics: of a tree or forest, the first `j + 1` (the rest is leaked); of an owning iterator see `dropEach`. -/
def Val.postUntil (j : Nat) : Val α → List α
  | .tree t => t.post.take (j + 1)
  | .forest ts => (RTree.postL ts).take (j + 1)
  | .iter ts => dropEach j ts

/-- The meaning of every call. -/
def specCrash (s : Store α) : COp α → Outcome (Store α) α
  | .call op => specStep s op
  | .mapBfs x l f =>
    let r := fun t => match firstPanic f [t] with
      | none => .ok (s.bind (.tree (t.updLevel (orSame f)))) (.var s.fresh)
      | some _ => .panic s
    s.onNode x l (fun _ t => r t) (fun _ _ _ _ t => r t)
  | .mapBfsForest x p f => s.onKids x p fun _ us =>
      match firstPanic f us with
      | none => .ok (s.bind (.forest (RTree.updLevelL (orSame f) us))) (.var s.fresh)
      | some _ => .panic s
  | .rebuild x f => match s.vars x with
      | some (.tree t) => match firstPanic f [t] with
        | none => .ok ((s.set x none).bind (.tree (t.updLevel (orSame f)))) (.var s.fresh)
        | some n => .panic ((s.set x none).drop (unwound n [t]))
      | some (.forest ts) => match firstPanic f ts with
        | none => .ok ((s.set x none).bind (.forest (RTree.updLevelL (orSame f) ts))) (.var s.fresh)
        | some n => .panic ((s.set x none).drop (unwound n ts))
      | _ => .rejected
  | .ofVisits t j => match unvisited j [t] with
      | none => .ok (s.bind (.tree t)) (.var s.fresh)
      | some ds => .panic (s.drop ds)
  | .ofVisitsForest ts j => match unvisited j ts with
      | none => .ok (s.bind (.forest ts)) (.var s.fresh)
      | some ds => .panic (s.drop ds)
  | .forget x => match s.vars x with
      | some _ => .ok (s.set x none) .unit
      | none => .rejected
  | .dropPanic x j => match s.vars x with
      | some v => if j < v.post.length then .panic ((s.set x none).drop (v.postUntil j)) else .ok ((s.set x none).drop v.post) .unit
      | none => .rejected
  | .setDataPanic x l d => match specStep s (.setData x l d) with
      | .ok s' .unit => .panic s'
      | r => r

end Trees
