import Verif.Spec.WalkLive
import Verif.Model.Walk
import Verif.Model.Live
/-
Walks that are kept while the program goes on calling.
-/
namespace Trees
variable {α β : Type}

/-- The machine together with the walks in use: `TreeWalk` — walk.rs 258-262, `ForestWalk` — walk.rs 453-458: the tree or forest,
which was moved out of a variable, here named by the variable, and the cursor. -/
structure WMachine (α : Type) where
  m : Machine α
  walks : Nat → Option (Var × Walk)
  made : Nat

def WMachine.empty : WMachine α := ⟨.empty, fun _ => none, 0⟩

def WMachine.put (W : WMachine α) (i : Nat) (w : Option (Var × Walk)) : WMachine α :=
  { W with walks := fun j => if j = i then w else W.walks j }

/-- `TreeWalk::from(tree)` — walk.rs 439-445 — and `ForestWalk::from(forest)` — walk.rs 625-633. -/
def Handle.startWalk : Handle → Option (M α Walk)
  | .tree r => some (Walk.fromTree r)
  | .forest f => some (Walk.fromForest f)
  | .iter _ => none

/-- The client looks at the node that it was given: `data()`, `degree()`, `node_count()`. -/
def WMachine.see (W : WMachine α) (o : WalkOut Addr) : WMachine α × WOut α :=
  match o with
  | .unit => (W, .unit)
  | .panic => (W, .panic)
  | .visit none => (W, .visit none)
  | .visit (some (k, a)) => match lookAt a W.m.heap with
    | .ok v h => ({ W with m := { W.m with heap := h } }, .visit (some (k, v)))
    | .err _ _ => (W, .bad)
  | .node none => (W, .node none)
  | .node (some a) => match lookAt a W.m.heap with
    | .ok v h => ({ W with m := { W.m with heap := h } }, .node (some v))
    | .err _ _ => (W, .bad)

/-- What a call does.  The methods of `TreeWalk` — walk.rs 275, 310, 329, 344, 360, 375, 390, 436 — and of `ForestWalk` — walk.rs 474,
506, 523, 538, 554, 569, 584, 622 — are those of the cursor inside.  A panic of a method is caught; the walk stays as the method left it.
`Tree::from(walk)`, `Forest::from(walk)` — walk.rs 447-451, 635-639 — drop the cursor. -/
def wexec (W : WMachine α) : WOp α → WMachine α × WOut α
  | .call op => match step W.m op with
    | .ok m o => ({ W with m := m }, .ok o)
    | .panic m => ({ W with m := m }, .panic)
    | .rejected => (W, .rejected)
    | .bad => (W, .bad)
  | .walk x => match (W.m.env x).bind Handle.startWalk with
    | some c => match c W.m.heap with
      | .ok w h => ({ WMachine.put { W with m := { W.m with heap := h } } W.made (some (x, w)) with made := W.made + 1 }, .new W.made)
      | .err .panic h => ({ W with m := { W.m with heap := h } }, .panic)
      | .err _ _ => (W, .bad)
    | none => (W, .rejected)
  | .act i op => match W.walks i with
    | some (x, w) => match Walk.call op (W.m.heap, w) with
      | .ok o s => (WMachine.put { W with m := { W.m with heap := s.1 } } i (some (x, s.2))).see o
      | .err .panic s => (WMachine.put { W with m := { W.m with heap := s.1 } } i (some (x, s.2)), .panic)
      | .err _ _ => (W, .bad)
    | none => (W, .rejected)
  | .unwalk i => match W.walks i with
    | some _ => (W.put i none, .unit)
    | none => (W, .rejected)

/-- One call, if the borrow checker lets it. -/
def wstep (W : WMachine α) (op : WOp α) : WMachine α × WOut α :=
  if wclash W.walks W.made op then (W, .rejected) else wexec W op

end Trees
