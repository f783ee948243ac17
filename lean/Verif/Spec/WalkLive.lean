import Verif.Spec.Walk
import Verif.Spec.Live
/-
Specification of walks (`TreeWalk`, `ForestWalk`) that are kept while the program goes on calling.
-/
namespace Trees
variable {α : Type}

/-- Calls of a program that keeps walks, numbered in the order in which they are made. -/
inductive WOp (α : Type) where
  /-- An ordinary call. -/
  | call (op : Op α)
  /-- `TreeWalk::from(x)`, `ForestWalk::from(x)`. -/
  | walk (x : Var)
  /-- A method of walk number `i`. -/
  | act (i : Nat) (op : WalkOp)
  /-- `Tree::from(walk)`, `Forest::from(walk)`: the value is in its variable again. -/
  | unwalk (i : Nat)

/-- What a call shows.  Of a node: item, degree and number of nodes. -/
inductive WOut (α : Type) where
  | ok (o : Out α)
  | panic
  | rejected
  | bad
  /-- The number of a new walk. -/
  | new (i : Nat)
  | unit
  | visit (v : Option (Kind × α × Nat × Nat))
  | node (v : Option (α × Nat × Nat))

/-- Variables, and the walks in use: the variable that the value was moved out of, its trees, the cursor. -/
structure WStore (α : Type) where
  store : Store α
  walks : Nat → Option (Var × List (RTree α) × Cur)
  made : Nat

def WStore.empty : WStore α := ⟨.empty, fun _ => none, 0⟩

/-- The borrow checker: a variable whose value was moved into a walk cannot be used. -/
def wclash {β : Type} (walks : Nat → Option (Var × β)) (made : Nat) : WOp α → Bool
  | .call op => (op.writes ++ op.reads).any (borrowed walks made)
  | .walk x => borrowed walks made x
  | _ => false

/-- The node at a position. -/
def RTree.nodeAt? (ts : List (RTree α)) : Pos → Option (RTree α)
  | [] => none
  | i :: q => (kidsAt ts q.reverse).bind (·[i]?)

/-- What a program sees of a node. -/
def RTree.glance (t : RTree α) : α × Nat × Nat := (t.data, t.kids.length, t.count)

/-- What a program sees of a result. -/
def seen (ts : List (RTree α)) : WalkOut Pos → WOut α
  | .unit => .unit
  | .panic => .panic
  | .visit none => .visit none
  | .visit (some (k, p)) => match RTree.nodeAt? ts p with
    | some t => .visit (some (k, t.glance))
    | none => .bad
  | .node none => .node none
  | .node (some p) => match RTree.nodeAt? ts p with
    | some t => .node (some t.glance)
    | none => .bad

/-- The trees of a value that can be walked. -/
def Val.walked : Val α → Option (List (RTree α))
  | .tree t => some [t]
  | .forest ts => some ts
  | .iter _ => none

/-- Change walk number `i`. -/
def WStore.put (S : WStore α) (i : Nat) (w : Option (Var × List (RTree α) × Cur)) : WStore α :=
  { S with walks := fun j => if j = i then w else S.walks j }

/-- What calls do, if the borrow checker lets them. The trees of a walk are fixed when it is made. -/
def wdo (S : WStore α) : WOp α → WStore α × WOut α
  | .call op => match specStep S.store op with
    | .ok s o => ({ S with store := s }, .ok o)
    | .panic s => ({ S with store := s }, .panic)
    | .rejected => (S, .rejected)
    | .bad => (S, .bad)
  | .walk x => match (S.store.vars x).bind Val.walked with
    | some ts => ({ S.put S.made (some (x, ts, Cur.start ts)) with made := S.made + 1 }, .new S.made)
    | none => (S, .rejected)
  | .act i op => match S.walks i with
    | some (x, ts, c) => (S.put i (some (x, ts, (c.call ts op).2)), seen ts (c.call ts op).1)
    | none => (S, .rejected)
  | .unwalk i => match S.walks i with
    | some _ => (S.put i none, .unit)
    | none => (S, .rejected)

/-- One call. -/
def wspec (S : WStore α) (op : WOp α) : WStore α × WOut α :=
  if wclash S.walks S.made op then (S, .rejected) else wdo S op

end Trees
