import Verif.Spec.SharedStore
import Verif.Spec.Ledger
/-
Bookkeeping of data items for programs with shared nodes: what a call brings in and what it hands out.
-/
namespace Trees
variable {α : Type}

/-- The call returned normally. -/
def Outcome.returned {σ : Type} : Outcome σ α → Bool
  | .ok _ _ => true
  | _ => false

/-- Items the client hands over to the library in a call. `x`: exclusive values; `look`: what handles show; `ok`: the call
returns. -/
def bringsS (x : Store α) (look : Var → Option (RTree α)) (ok : Bool) : ROp α → List α
  | .excl op => x.brings op
  | .setData _ d => if ok then [d] else []
  | .guardWrite _ d => if ok then [d] else []
  | .deepClone k f => if ok then let ts := (look k).map ([·]); madeFrom ts (countOf ts) f else []
  | _ => []

/-- Items the library hands over to the client. (No call on shared nodes does.) -/
def takesS (x : Store α) : ROp α → List α
  | .excl op => x.takes op
  | _ => []

end Trees
