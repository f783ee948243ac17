import Verif.Model.Rc
import Verif.Model.Conc
/-
`std::mem::forget` for every value of the API: a `Tree`, `Forest` or `IntoIter`, an `RcNode`, `WeakNode`, `IterRc`, a guard
(`Ref`, `RefMut`). No code of the crate runs: the variable is gone, memory is as before. (For a forgotten guard: its `RefCell` flag
stays set.)
-/
namespace Trees
variable {α : Type}

/-- The variables that a call mentions. -/
def ROp.vars : ROp α → List Var
  | .excl op => op.vars
  | .pushFront k y | .pushBack k y | .prepend k y | .append k y | .insertPrevSib k y | .insertNextSib k y => [k, y]
  | .fromTree k | .clone k | .drop k | .isRoot k | .data k | .degree k | .nodeCount k | .hasNoChild k | .front k | .back k | .parent k
  | .popFront k | .popBack k | .detach k | .setData k _ | .borrow k | .borrowMut k | .guardRead k | .guardWrite k _ | .iterRc k | .iterNext k
  | .iterClone k | .iterLen k | .downgrade k | .upgrade k | .deepClone k _ | .intoTree k => [k]

/-- The handle that a call moves (which the compiler refuses while a guard obtained from the handle is alive). -/
def ROp.moved : ROp α → List Var
  | .drop k | .intoTree k => [k]
  | _ => []

/-- A statement of a program: a call of the API, or `mem::forget( x )`. -/
inductive FOp (α : Type) where
  | call (op : ROp α)
  | forget (x : Var)

/-- `mem::forget` (std): its argument is moved, which the compiler refuses if it is borrowed by a guard. -/
def RMachine.forget (m : RMachine α) (x : Var) : Outcome (RMachine α) α :=
  if (m.env x).isNone && (m.refs x).isNone then .rejected
  else if m.guarded x then .rejected
  else .ok ⟨m.heap, upd m.env x none, upd m.refs x none, m.fresh⟩ .unit

/-- One statement. -/
def fstep (m : RMachine α) : FOp α → Outcome (RMachine α) α
  | .call op => rstep m op
  | .forget x => m.forget x

end Trees
