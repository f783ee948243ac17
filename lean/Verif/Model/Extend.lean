import Verif.Model.Rc
/-
`Extend<Tree<T>> for RcNode<T>` — rc.rs 511-517.
-/
namespace Trees
variable {α : Type}

/-- The trees still in the iterator are dropped one after the other (drop glue of the iterator, e.g. of `vec::IntoIter`). -/
def dropTrees : List Var → RMachine α → Outcome (RMachine α) α
  | [], m => .ok m .unit
  | y :: ys, m => match rstep m (.excl (.drop y)) with
    | .ok m' _ => dropTrees ys m'
    | r => r

/-- Unwinding: the trees still in the iterator are dropped, the panic goes on. -/
def unwindTrees (ys : List Var) (m : RMachine α) : Outcome (RMachine α) α :=
  match dropTrees ys m with
  | .ok m' _ => .panic m'
  | r => r

/-- `handle.extend( iter )` — rc.rs 511-517. The iterator hands out the trees in `ys`; then it ends or, if `broken`, panics in `next` while it
still owns the trees in `zs`. Every round locks the node for one `push_back` (rc.rs 514). -/
def extendRc (k : Var) (broken : Bool) (zs : List Var) : List Var → RMachine α → Outcome (RMachine α) α
  | [], m => if broken then unwindTrees zs m else dropTrees zs m
  | y :: ys, m => match rstep m (.pushBack k y) with
    | .ok m' _ => extendRc k broken zs ys m'
    | .panic m' => unwindTrees (ys ++ zs) m'
    | r => r

end Trees
