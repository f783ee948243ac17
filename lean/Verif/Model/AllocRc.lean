import Verif.Model.Alloc
import Verif.Model.Rc
/-
Client programs that use the whole API (`RcNode`, `WeakNode`, `IterRc`, guards) when memory is reused.
Only calls on exclusive values and `deep_clone` ask for memory; the code of the others is that of Model/Rc.
-/
namespace Trees
variable {α β : Type}

/-- A `std::rc::Weak` to the box at `x` exists — rc.rs 523-530: as long as it does, the memory of the box is not given
back, also if the node in it is gone. -/
def RMachine.pinned (m : RMachine α) (x : Addr) : Bool :=
  (List.range m.fresh).any fun w => match m.refs w with
    | some (.weak (.scattered y)) => y == x
    | _ => false

/-- None of the places given out during a call that ended in `h` is pinned. (The call itself creates no weak handle.) -/
def RMachine.clear (A : Alloc) (m : RMachine α) (h : Heap α) : Bool :=
  (List.range (h.nextAddr - m.heap.nextAddr)).all fun i => !m.pinned (A.addr (m.heap.nextAddr + i))

/-- The result of a call, unless the allocator has broken its contract. -/
def RMachine.honest (A : Alloc) (m : RMachine α) (o : Outcome (RMachine α) α) : Option (Outcome (RMachine α) α) :=
  match o with
  | .ok m' o => if m.clear A m'.heap then some (.ok m' o) else none
  | .panic m' => if m.clear A m'.heap then some (.panic m') else none
  | .rejected => some .rejected
  | .bad => some .bad

/-- The code of one call (compare `rstep`); `none` when a place is given out that is in use. -/
def rstepRaw (A : Alloc) (m : RMachine α) : ROp α → Option (Outcome (RMachine α) α)
  | .excl op => match stepA A m.excl op with
      | none => none
      | some (.ok m' o) => some (.ok ⟨m'.heap, m'.env, m.refs, m'.fresh⟩ o)
      | some (.panic m') => some (.panic ⟨m'.heap, m'.env, m.refs, m'.fresh⟩)
      | some .rejected => some .rejected
      | some .bad => some .bad
  | .deepClone k f => match m.refs k with
      | some (.rc r) => match withShared r (fun a => mapBfsA A f a) m.heap with
          | .ok a h => some (.ok ⟨h, upd m.env m.fresh (some (.tree a)), m.refs, m.fresh + 1⟩ (.var m.fresh))
          | .err .panic h => some (.panic ⟨h, m.env, m.refs, m.fresh⟩)
          | .err .alloc _ => none
          | .err _ _ => some .bad
      | _ => some .rejected
  | op => some (rstep m op)

/-- One call of the API; `none` when the allocator breaks its contract. -/
def rstepA (A : Alloc) (m : RMachine α) (op : ROp α) : Option (Outcome (RMachine α) α) := (rstepRaw A m op).bind (m.honest A)

/-- Run a program (compare `runProg`); `none` when the allocator breaks its contract. -/
def runProgA (A : Alloc) : RMachine α → List (ROp α) → Option (RMachine α × List (Outcome Unit α))
  | m, [] => some (m, [])
  | m, op :: ops =>
    match rstepA A m op with
    | none => none
    | some (.ok m' o) => (runProgA A m' ops).map fun q => (q.1, .ok () o :: q.2)
    | some (.panic m') => (runProgA A m' ops).map fun q => (q.1, .panic () :: q.2)
    | some .rejected => (runProgA A m ops).map fun q => (q.1, .rejected :: q.2)
    | some .bad => (runProgA A m ops).map fun q => (q.1, .bad :: q.2)

end Trees
