import Verif.Model.Machine
import Verif.Spec.Reenter
/-
Programs whose items have destructors that use the crate: the crate's own code with the destructors run where the code runs them.

Destructors run in: `Drop for Tree` (tree.rs 244-249), `Drop for Forest` (forest.rs 277-282), `Drop for IntoIter`
(into_iter.rs 28-32), the assignment through `data_mut()` (node.rs 118), and the unwinding of `insert_prev_sib` /
`insert_next_sib` (node.rs 204-251).  Simplification: the destructors of the items that a dropped owning breadth-first iterator
(`into_bfs`) still holds are taken to do nothing.
-/
namespace Trees
variable {α : Type}

/-- Run the destructors of the items that the heap's drop log gained since it had `n` entries. -/
def destroyed (D : α → Machine α → Run (Machine α)) : List α → Machine α → Run (Machine α)
  | [], m => .done m
  | d :: ds, m => (D d m).bind (destroyed D ds)

/-- `Drop for Tree` (tree.rs 244-249), `Drop for Forest` (forest.rs 277-282): pop and drop the children, then `heap::drop_node`
(heap.rs 32-46), at whose end — after the node's memory was given back — the item's destructor runs. -/
def dropLoopR (D : α → Machine α → Run (Machine α)) : Nat → Addr → Machine α → Run (Machine α)
  | 0, _, _ => .bad
  | k+1, r, m => match popFront r m.heap with
    | .ok (some c) h => (dropLoopR D k c { m with heap := h }).bind (dropLoopR D k r)
    | .ok none h => match dropNode r h with
      | .ok _ h' => destroyed D (h'.log.drop h.log.length) { m with heap := h' }
      | .err _ _ => .bad
    | .err _ _ => .bad

def dropRootR (D : α → Machine α → Run (Machine α)) (r : Addr) (m : Machine α) : Run (Machine α) :=
  dropLoopR D ((m.heap.size r).descendants + 1) r m

/-- The loop of `Drop for IntoIter` — into_iter.rs 28-32. -/
def iterDropLoopR (D : α → Machine α → Run (Machine α)) : Nat → Addr → Machine α → Run (Machine α)
  | 0, _, _ => .bad
  | k+1, f, m => match popFront f m.heap with
    | .ok (some c) h => (dropRootR D c { m with heap := h }).bind (iterDropLoopR D k f)
    | .ok none h => .done { m with heap := h }
    | .err _ _ => .bad

/-- `Drop for IntoIter` — into_iter.rs 28-32, then the drop of its field `forest`. -/
def intoIterDropR (D : α → Machine α → Run (Machine α)) (f : Addr) (m : Machine α) : Run (Machine α) :=
  (iterDropLoopR D ((m.heap.size f).degree + 1) f m).bind (dropRootR D f)

/-- Run code while variable `x` is mutably borrowed. -/
def Machine.borrowing (m : Machine α) (x : Var) (f : Machine α → Run (Machine α)) : Run (Machine α) :=
  (f { m with env := m.setEnv x none }).map fun m' => { m' with env := m'.setEnv x (m.env x) }

/-- One call, with the destructors it runs. -/
def stepR (D : α → Machine α → Run (Machine α)) (m : Machine α) : Op α → Run (Outcome (Machine α) α)
  | .drop x => match m.env x with
    | some (.iter f) => (intoIterDropR D f { m with env := m.setEnv x none }).map fun m' => .ok m' .unit
    | some hd => (dropRootR D hd.addr { m with env := m.setEnv x none }).map fun m' => .ok m' .unit
    | none => .done .rejected
  | .setData x l d => match step m (.setData x l d) with
    | .ok m' .unit => (m'.borrowing x (destroyed D (m'.heap.log.drop m.heap.log.length))).map fun m'' => .ok m'' .unit
    | o => .done o
  | .insertPrevSib x l y => match m.env y, step m (.insertPrevSib x l y) with
    | some hd, .panic _ => (Machine.borrowing { m with env := m.setEnv y none } x (dropRootR D hd.addr)).map .panic
    | _, o => .done o
  | .insertNextSib x l y => match m.env y, step m (.insertNextSib x l y) with
    | some hd, .panic _ => (Machine.borrowing { m with env := m.setEnv y none } x (dropRootR D hd.addr)).map .panic
    | _, o => .done o
  | op => .done (step m op)

/-- Programs with destructors nested no deeper than `n`. -/
def execR (dtor : α → List (Op α)) : Nat → Machine α → List (Op α) → Run (Machine α × List (Outcome Unit α))
  | 0, m, ops => if ops.isEmpty then .done (m, []) else .deep
  | n+1, m, ops => runOps (stepR fun d m => (execR dtor n m (dtor d)).map Prod.fst) m ops

end Trees
