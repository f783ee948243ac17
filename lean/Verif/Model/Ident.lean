import Verif.Model.Rc
import Verif.Spec.Ident
/-
Reading values together with the identity (address) of every node.
-/
namespace Trees
variable {α : Type}

/-- Read a value with the address of every node (`node as *const _`); see `readHandle` (Model/Machine.lean). -/
def readHandleLab : Handle → M α (Val (Addr × α))
  | .tree r => do return .tree (← readNode r)
  | .forest r => do return .forest (← M.fuelled fun h => do readMany (readLab ((h.size r).descendants + 1)) (← children r))
  | .iter r => do return .iter (← M.fuelled fun h => do readMany (readLab ((h.size r).descendants + 1)) (← children r))

/-- The contents of a variable with the addresses of the nodes. -/
def Machine.lview (m : Machine α) (x : Var) : Option (Val (Addr × α)) :=
  match m.env x with
  | none => none
  | some hd => match readHandleLab hd m.heap with
    | .ok v _ => some v
    | .err _ _ => none

/-- The tag of an address in a later state: the address if there was a node there in `m`. -/
def Machine.tag (m : Machine α) (a : Addr) : Option Nat := if m.heap.live a = true then some a else none

/-- The variables of `m'`, every item tagged with the node of `m` that it is in, `none` if that node did not exist in `m`. -/
def Machine.tags (m m' : Machine α) : Store (Tagged α) :=
  ⟨fun x => (m'.lview x).map (Val.map fun q => (m.tag q.1, q.2)), m'.fresh, m'.heap.log.map fun d => (none, d)⟩

/-- `S` is what the variables of `m` show, every item paired with (the address of) its node. -/
structure Machine.Shows (m : Machine α) (S : Store (Addr × α)) : Prop where
  vars : S.vars = m.lview
  fresh : S.fresh = m.fresh
  log : S.dropped.map Prod.snd = m.heap.log

end Trees
