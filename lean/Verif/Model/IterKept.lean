import Verif.Props.Refinement
/-
An `IterMut` that is kept while the program goes on: only the calls of `next` read its state.
-/
namespace Trees
variable {α : Type}

/-- Rounds of some calls of the program and one `next` of a kept `IterMut` — iter.rs 142-151, 68-75: the nodes yielded (the `Pin`s are
the addresses); `none` on undefined behaviour.  The calls between are those the program makes through the nodes that were yielded
(`insert_prev_sib`, `insert_next_sib`, `detach`, `data_mut`, calls on their children) and on other values; the model does not restrict
them to what the borrow checker allows. -/
def Machine.keptNexts : RawIter → Machine α → List (List (Op α)) → Option (List (Option Addr) × Machine α)
  | _, m, [] => some ([], m)
  | it, m, ops :: rest =>
    match it.next (exec step m ops).1.heap with
    | .ok (r, it') h => (Machine.keptNexts it' { (exec step m ops).1 with heap := h } rest).map fun q => (r :: q.1, q.2)
    | .err _ _ => none

end Trees
