import Verif.Spec.Shared
import Verif.Model.Rc
/-
Vocabulary for statements about shared nodes. Only handles and what they show are mentioned.
-/
namespace Trees
variable {α : Type}
open Classical

/-- Node `a` is below another node of a tree that some handle shows. -/
def RMachine.HasParent (m : RMachine α) (a : Addr) : Prop := ∃ j t, m.look j = some t ∧ a ∈ (RTree.preL t.kids).map Prod.fst

/-- A handle to node `x` other than the one in variable `k`. -/
noncomputable def RMachine.heldElse (m : RMachine α) (k : Var) (x : Addr) : Bool := decide (∃ j, j ≠ k ∧ m.nodeOf j = some x)

/-- Node `a` is part of a tree that some handle shows. -/
def RMachine.Shown (m : RMachine α) (a : Addr) : Prop := ∃ j t, m.look j = some t ∧ a ∈ t.ids

/-- The iterator in variable `i` stands before the nodes `cs`. -/
def RMachine.IterAt (m : RMachine α) (i : Var) (cs : List Addr) : Prop :=
  ∃ it, m.refs i = some (.iter it) ∧ it.len = cs.length ∧ (cs ≠ [] → it.curr = cs.head?)

/-- Calls outside of the known defects: `clone` and `downgrade` of a handle into a block; `next` of an iterator whose
current node is gone; `into_tree` (which is `unsafe`) with other handles to the nodes of the tree. -/
def Safe (m : RMachine α) : ROp α → Prop
  | .clone k => ∀ v i, m.refs k ≠ some (.rc (.piled v i))
  | .downgrade k => ∀ v i, m.refs k ≠ some (.rc (.piled v i))
  | .iterNext i => ∀ c cs, m.IterAt i (c :: cs) → m.Shown c
  | .intoTree k => ∀ t, m.look k = some t → m.HasParent t.data.1 ∨
      ((∀ j b, j ≠ k → m.nodeOf j = some b → b ∉ t.ids) ∧ ∀ w c, m.refs w = some (.weak (.scattered c)) → c ∉ t.ids)
  | _ => True

/-- The call takes the value in variable `j` away. -/
def ROp.Consumes : ROp α → Var → Prop
  | .drop k, j => j = k
  | .intoTree k, j => j = k
  | _, _ => False

/-- Histories of calls outside of the known defects. -/
inductive SReachable : RMachine α → Prop
  | init : SReachable RMachine.empty
  | ok {m m' op o} : SReachable m → Safe m op → rstep m op = .ok m' o → SReachable m'
  | panic {m m' op} : SReachable m → Safe m op → rstep m op = .panic m' → SReachable m'

end Trees
