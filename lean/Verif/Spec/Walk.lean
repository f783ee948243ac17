import Verif.Spec.Tree
/-
Specification of the depth-first cursor (`TreeWalk`, `ForestWalk`).
A walk runs over a list of trees: the trees of a forest, or the one tree of a `TreeWalk`.
-/
namespace Trees
variable {α : Type}

/-- What a cursor reports about a node — `walk::Visit`. -/
inductive Kind where
  | begin | stop | leaf
deriving DecidableEq, Repr

/-- A position in a list of trees: child indices, INNERMOST FIRST. `i :: q` is child `i` of the node at `q`;
`[i]` is the root of tree `i`. -/
abbrev Pos := List Nat

/-- The number of children of the node at a position (`[]`: the number of trees); 0 if there is no such node. -/
def degAt (ts : List (RTree α)) (q : Pos) : Nat :=
  match kidsAt ts q.reverse with
  | some us => us.length
  | none => 0

/-- There is a node at this position. -/
def nodeExists (ts : List (RTree α)) : Pos → Prop
  | [] => False
  | i :: q => ∃ us, kidsAt ts q.reverse = some us ∧ i < us.length

mutual
/-- The Euler tour of the tree at position `p`: a leaf is reported once, a node with children before and after
its children. -/
def tour : Pos → RTree α → List (Kind × Pos)
  | p, .node _ [] => [(.leaf, p)]
  | p, .node _ (k :: ks) => (.begin, p) :: tourL p 0 (k :: ks) ++ [(.stop, p)]
/-- The tours of a list of siblings, children `i`, `i+1`, ... of `q`. -/
def tourL : Pos → Nat → List (RTree α) → List (Kind × Pos)
  | _, _, [] => []
  | q, i, t :: ts => tour (i :: q) t ++ tourL q (i + 1) ts
end

/-- The whole tour of a walk. -/
def eulerTour (ts : List (RTree α)) : List (Kind × Pos) := tourL [] 0 ts

/-- The state of a cursor. -/
inductive Cur where
  /-- The traversal is finished. -/
  | done
  /-- On a node. -/
  | at (k : Kind) (p : Pos)
  /-- After a jump to a child or sibling that does not exist: behind the last child of `q`.
  `dead`: additionally, a call of `revisit` has panicked here. -/
  | off (q : Pos) (dead : Bool)
deriving DecidableEq, Repr

/-- Public calls on a walk. -/
inductive WalkOp where
  | get | forward | next | toParent | getParent
  | toChild (n : Nat)
  | toSib (n : Nat)
  | revisit
deriving DecidableEq, Repr

/-- What a call returns; nodes are given by `ν` (positions in the specification, addresses in the model). -/
inductive WalkOut (ν : Type) where
  | unit
  | visit (v : Option (Kind × ν))
  | node (n : Option ν)
  | panic
deriving DecidableEq, Repr

/-- A report in terms of positions and a report in terms of nodes agree; `A` tells which node is at a position. -/
def OutRel {ν : Type} (A : Pos → Option ν) : WalkOut Pos → WalkOut ν → Prop
  | .unit, .unit => True
  | .panic, .panic => True
  | .visit none, .visit none => True
  | .visit (some (k, p)), .visit (some (k', a)) => k = k' ∧ A p = some a
  | .node none, .node none => True
  | .node (some p), .node (some a) => A p = some a
  | _, _ => False

namespace Cur

/-- How a node is first visited. -/
def first (ts : List (RTree α)) (p : Pos) : Cur := .at (if degAt ts p = 0 then .leaf else .begin) p

/-- The cursor of a fresh walk: on the first root; finished if there is none. -/
def start (ts : List (RTree α)) : Cur := if ts.length = 0 then done else first ts [0]

/-- Leave the children of `q`. -/
def leave : Pos → Cur
  | [] => done
  | i :: q => .at .stop (i :: q)

/-- What the cursor shows. -/
def shown : Cur → WalkOut Pos
  | done => .visit none
  | .at k p => .visit (some (k, p))
  | off _ _ => .panic

/-- One step of the traversal. -/
def forward (ts : List (RTree α)) : Cur → Option Cur
  | done => some done
  | .at .begin p => some (first ts (0 :: p))
  | .at _ (i :: q) => some (if i + 1 < degAt ts q then first ts ((i + 1) :: q) else leave q)
  | .at _ [] => some done
  | off q false => some (leave q)
  | off _ true => none

/-- One call: what it returns and the new state. -/
def call (ts : List (RTree α)) (c : Cur) : WalkOp → WalkOut Pos × Cur
  | .get => (c.shown, c)
  | .forward => match c.forward ts with
    | some c' => (.unit, c')
    | none => (.panic, c)
  | .next => match c.forward ts with
    | some c' => (c'.shown, c')
    | none => (.panic, c)
  | .toParent => match c with
    | .at _ (_ :: q) => ((leave q).shown, leave q)
    | off q _ => ((leave q).shown, leave q)
    | _ => (.visit none, done)
  | .getParent => match c with
    | .at _ (_ :: j :: q) => (.node (some (j :: q)), c)
    | off (j :: q) _ => (.node (some (j :: q)), c)
    | _ => (.node none, c)
  | .toChild n => match c with
    | .at _ p =>
      if degAt ts p = 0 then (.visit none, c)
      else if n < degAt ts p then ((first ts (n :: p)).shown, first ts (n :: p))
      else (.visit none, off p false)
    | done => (.visit none, done)
    | off _ _ => (.panic, c)
  | .toSib n => match c with
    | .at _ (i :: q) =>
      if i + n < degAt ts q then ((first ts ((i + n) :: q)).shown, first ts ((i + n) :: q))
      else (.visit none, off q false)
    | .at _ [] => (.visit none, c)
    | done => (.visit none, done)
    | off _ _ => (.panic, c)
  | .revisit => match c with
    | .at .stop p => (.unit, .at .begin p)
    | .at k p => (.unit, .at k p)
    | done => (.unit, start ts)
    | off q _ => (.panic, off q true)

/-- A sequence of calls (panics are caught). -/
def calls (ts : List (RTree α)) : Cur → List WalkOp → List (WalkOut Pos) × Cur
  | c, [] => ([], c)
  | c, op :: ops =>
    let (o, c') := c.call ts op
    let (os, c'') := calls ts c' ops
    (o :: os, c'')

end Cur
end Trees
