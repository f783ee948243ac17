import Verif.Model.Machine
import Verif.Model.Traits
/-
The stack: destructors with a limit on the number of nested calls.
`Tree::drop` and `Forest::drop` call themselves, through `pop_front`'s result, for every child; the process is aborted
when the stack is exhausted. What else happens to be on the stack is not modelled: a stack has room for `L` calls.

For `Hash`, `Display` and the comparisons (Model/Traits) the first argument is already the number of nested calls that are
possible: `nodeHash hs L a s` is the run with room for `L` calls, and it fails with `fuel` when there is not enough room.
-/
namespace Trees
variable {α : Type}

/-- `Drop for Tree` / `Drop for Forest` — tree.rs 244-249, forest.rs 277-282 — with room for `L` nested calls (compare
`dropLoop`); the result `none`: the stack overflows. The second argument bounds the loop, as in `dropLoop`. -/
def dropWithin : Nat → Nat → Addr → M α (Option Unit)
  | 0, _, _ => pure none
  | _+1, 0, _ => M.throw .fuel
  | L+1, k+1, r => do
    match (← popFront r) with
    | some c => do
      match (← dropWithin L k c) with
      | some _ => dropWithin (L+1) k r
      | none => return none
    | none => do
      dropNode r
      return some ()

/-- Dropping a `Tree` or `Forest` (compare `dropRoot`). -/
def dropRootWithin (L : Nat) (r : Addr) : M α (Option Unit) := M.fuelled fun h => dropWithin L ((h.size r).descendants + 1) r

/-- Loop of `Drop for IntoIter` — into_iter.rs 28-32 (compare `intoIterDropLoop`). -/
def intoIterDropLoopWithin (L : Nat) : Nat → Addr → M α (Option Unit)
  | 0, _ => M.throw .fuel
  | k+1, f => do
    match (← popFront f) with
    | some c => do
      match (← dropRootWithin L c) with
      | some _ => intoIterDropLoopWithin L k f
      | none => return none
    | none => return some ()

/-- `Drop for IntoIter` — into_iter.rs 28-32, followed by the drop of its field `forest` (compare `intoIterDrop`). -/
def intoIterDropWithin (L : Nat) (f : Addr) : M α (Option Unit) := do
  match (← M.fuelled fun h => intoIterDropLoopWithin L ((h.size f).degree + 1) f) with
  | some _ => dropRootWithin L f
  | none => return none

/-- Run a destructor; `none`: the stack overflows. -/
def Machine.runWithin (m : Machine α) (env : Var → Option Handle) (c : M α (Option Unit)) : Option (Outcome (Machine α) α) :=
  match c m.heap with
  | .ok (some _) h => some (.ok ⟨h, env, m.fresh⟩ .unit)
  | .ok none _ => none
  | .err .panic h => some (.panic ⟨h, env, m.fresh⟩)
  | .err _ _ => some .bad

/-- The call `drop(x)` with room for `L` nested calls of destructors (compare `step` on `.drop x`). -/
def Machine.dropWithin (m : Machine α) (L : Nat) (x : Var) : Option (Outcome (Machine α) α) :=
  match m.env x with
  | some (.iter f) => m.runWithin (m.setEnv x none) (intoIterDropWithin L f)
  | some hd => m.runWithin (m.setEnv x none) (dropRootWithin L hd.addr)
  | none => some .rejected

end Trees
