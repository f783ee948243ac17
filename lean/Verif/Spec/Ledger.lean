import Verif.Spec.Crash
/-
Bookkeeping of data items: what is held, what a call brings in and what it hands out.
-/
namespace Trees
variable {α : Type}
open RTree

/-- All items held by the variables. -/
def Store.held (s : Store α) : List α := (List.range s.fresh).flatMap fun x => ((s.vars x).map Val.post).getD []

/-- The trees a call on a node is about: none if the call is not made. -/
def Store.nodeAt? (s : Store α) (x : Var) (l : Loc) : Option (RTree α) :=
  (s.vars x).bind fun v => if v.isIter then none else v.at? l

/-- The same for a child list. -/
def Store.kidsAt? (s : Store α) (x : Var) (p : Path) : Option (List (RTree α)) :=
  (s.vars x).bind fun v => if v.isIter then none else kidsAt v.kids p

/-- The trees in a tree or forest. -/
def Store.treesAt? (s : Store α) (x : Var) : Option (List (RTree α)) :=
  (s.vars x).bind fun v => match v with
    | .tree t => some [t]
    | .forest ts => some ts
    | .iter _ => none

/-- What a closure makes of the first `k` items of a breadth-first iteration. -/
def madeFrom (ts : Option (List (RTree α))) (k : Nat) (f : Nat → α → α) : List α :=
  ((levelOrder (ts.getD [])).take k).mapIdx fun i t => f i t.data

/-- The first `k` items of a breadth-first iteration. -/
def takenFrom (ts : Option (List (RTree α))) (k : Nat) : List α := ((levelOrder (ts.getD [])).take k).map RTree.data

/-- Number of nodes. -/
def countOf (ts : Option (List (RTree α))) : Nat := countL (ts.getD [])

/-- Items the client hands over to the library: arguments, results of its closures, items written through references. -/
def Store.brings (s : Store α) : Op α → List α
  | .treeNew d => [d]
  | .setData x l d => if (s.nodeAt? x l).isSome then [d] else []
  | .mapBfs x l f => let ts := (s.nodeAt? x l).map ([·]); madeFrom ts (countOf ts) f
  | .mapBfsForest x p f => let ts := s.kidsAt? x p; madeFrom ts (countOf ts) f
  | .rebuild x f => let ts := s.treesAt? x; madeFrom ts (countOf ts) f
  | .bfsMut x l k f => madeFrom ((s.nodeAt? x l).map ([·])) k f
  | .bfsChildrenMut x p k f => madeFrom (s.kidsAt? x p) k f
  | .treeFromTuple t => if t.good then t.toTree.pre else []
  | .forestFromTuple ts => if Tup.goodL ts then preL (Tup.toTreeL ts) else []
  | _ => []

/-- Items the library hands over to the client: arguments of its closures that own them, visits of owning iterations, items
replaced through references by a closure. -/
def Store.takes (s : Store α) : Op α → List α
  | .rebuild x _ => let ts := s.treesAt? x; takenFrom ts (countOf ts)
  | .intoBfs x k => takenFrom (s.treesAt? x) k
  | .bfsMut x l k _ => takenFrom ((s.nodeAt? x l).map ([·])) k
  | .bfsChildrenMut x p k _ => takenFrom (s.kidsAt? x p) k
  | _ => []

/-- How many calls of the closure return. -/
def okCalls (f : Nat → α → Option α) (ts : Option (List (RTree α))) : Nat := (firstPanic f (ts.getD [])).getD (countOf ts)

/-- Items the client hands over, in calls whose user code may panic. -/
def Store.bringsC (s : Store α) : COp α → List α
  | .call op => s.brings op
  | .mapBfs x l f => let ts := (s.nodeAt? x l).map ([·]); madeFrom ts (okCalls f ts) (orSame f)
  | .mapBfsForest x p f => let ts := s.kidsAt? x p; madeFrom ts (okCalls f ts) (orSame f)
  | .rebuild x f => let ts := s.treesAt? x; madeFrom ts (okCalls f ts) (orSame f)
  | .ofVisits t _ => t.pre
  | .ofVisitsForest ts _ => preL ts
  | .setDataPanic x l d => s.brings (.setData x l d)
  | .forget _ => []
  | .dropPanic _ _ => []

/-- Items the library hands over, in calls whose user code may panic. (A closure that panics gives its argument back to be
destroyed.) -/
def Store.takesC (s : Store α) : COp α → List α
  | .call op => s.takes op
  | .rebuild x f => let ts := s.treesAt? x; takenFrom ts (okCalls f ts)
  | _ => []

end Trees
