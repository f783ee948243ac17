import Verif.Spec.SharedStore
import Verif.Model.ForgetRc
/-
Specification of `std::mem::forget`: the value exists for ever, only the program has no name for it any more. (Of
`Model/ForgetRc.lean` only `FOp`, the list of statements, and the variables of a call are used.)
-/
namespace Trees
variable {α : Type}

/-- Plain values, and the variables whose values have been forgotten. -/
structure FStore (α : Type) where
  all : SStore α
  lost : Var → Bool

def FStore.empty : FStore α := ⟨SStore.empty, fun _ => false⟩

namespace FStore

/-- What the program still has names for. Trees that handles refer to, and the items destroyed so far, are as they are. -/
def seen (s : FStore α) : SStore α :=
  { s.all with
    excl := { s.all.excl with vars := fun x => if s.lost x then none else s.all.excl.vars x }
    refs := fun x => if s.lost x then none else s.all.refs x }

end FStore

/-- The meaning of a statement: of a call, what it means if nothing is ever forgotten; `forget` only loses the name.
`bad`: excluded; a handle is dropped or turned into a `Tree` although a guard obtained from it has been forgotten (see C59). -/
def fsstep (s : FStore α) : FOp α → Outcome (FStore α) α
  | .call op =>
    if op.vars.any s.lost then .rejected
    else if op.moved.any fun k => s.all.busy k && !s.seen.busy k then .bad
    else match sstep s.all op with
      | .ok s' o => .ok ⟨s', s.lost⟩ o
      | .panic s' => .panic ⟨s', s.lost⟩
      | .rejected => .rejected
      | .bad => .bad
  | .forget x =>
    if (s.seen.excl.vars x).isNone && (s.seen.refs x).isNone then .rejected
    else if s.seen.busy x then .rejected
    else .ok ⟨s.all, upd s.lost x true⟩ .unit

/-- Run a program: statements rejected by the compiler are skipped, panics are caught and recorded. -/
def runStmts {σ : Type} (st : σ → FOp α → Outcome σ α) : σ → List (FOp α) → σ × List (Outcome Unit α)
  | s, [] => (s, [])
  | s, op :: ops =>
    let r := st s op
    let q := runStmts st (match r with
      | .ok s' _ => s'
      | .panic s' => s'
      | _ => s) ops
    (q.1, (match r with
      | .ok _ o => .ok () o
      | .panic _ => .panic ()
      | .rejected => .rejected
      | .bad => .bad) :: q.2)

end Trees
