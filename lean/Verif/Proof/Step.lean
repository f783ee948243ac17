import Verif.Proof.BfsOps
import Verif.Proof.FromTuple
/-
Every call refines its specification.
-/
namespace Trees
variable {α : Type}
section
variable {m : Machine α} {K : Addr → List Addr} {S : Store α}

/-- Every call refines its specification. -/
theorem step_refines (M : MInv m K) (A : Abs m K S) (op : Op α) : Sim (step m op) (specStep S op) := by
  cases op with
  | treeNew d => exact refines_treeNew M A d
  | forestNew => exact refines_forestNew M A
  | pushFront x p y => exact refines_pushFront M A
  | pushBack x p y => exact refines_pushBack M A
  | popFront x p => exact refines_popFront M A
  | popBack x p => exact refines_popBack M A
  | prepend x p y => exact refines_prepend M A
  | append x p y => exact refines_append M A
  | insertPrevSib x l y => exact refines_insertPrevSib M A
  | insertNextSib x l y => exact refines_insertNextSib M A
  | detach x l => exact refines_detach M A
  | abandon x => exact refines_abandon M A
  | setData x l d => exact refines_setData M A
  | drop x => exact refines_drop M A
  | intoIter x => exact refines_intoIter M A
  | iterNext x => exact refines_iterNext M A
  | iterLen x => exact refines_iterLen M A
  | data x l => exact refines_data M A
  | degree x p => exact refines_degree M A
  | nodeCount x p => exact refines_nodeCount M A
  | hasNoChild x p => exact refines_hasNoChild M A
  | childData x p => exact refines_childData M A
  | frontData x p => exact refines_frontData M A
  | backData x p => exact refines_backData M A
  | mapBfs x l f => exact refines_mapBfs M A
  | mapBfsForest x p f => exact refines_mapBfsForest M A
  | rebuild x f => exact refines_rebuild M A
  | bfs x l k => exact refines_bfs M A
  | bfsChildren x p k => exact refines_bfsChildren M A
  | intoBfs x k => exact refines_intoBfs M A
  | bfsMut x l k f => exact refines_bfsMut M A
  | bfsChildrenMut x p k f => exact refines_bfsChildrenMut M A
  | treeFromTuple t => exact refines_treeFromTuple M A
  | forestFromTuple ts => exact refines_forestFromTuple M A

end
end Trees
