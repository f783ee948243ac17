import Verif.Model.Machine
import Verif.Spec.Walk
/-
Model of walk.rs: the depth-first cursor.
-/
namespace Trees
variable {α β γ : Type}

/-- walk.rs 27: `VisitType`. -/
inductive VisitType where
  | none | begin | stop | leaf
deriving DecidableEq

/-- walk.rs 44-48: `Direction`. -/
inductive Direction where
  | up | down | right
deriving DecidableEq

/-- walk.rs 30-33: `Nodes`. -/
structure Nodes where
  node : Option Addr
  sentinel : Option Addr

/-- walk.rs 51-56: `Walk`. `path` is the `Vec` used as a stack, here with its last element first. -/
structure Walk where
  path : List Nodes
  direction : Direction
  visitType : VisitType
  origin : Option Addr

/-- walk.rs 250-254: `Walk::default`. -/
def Walk.default : Walk := ⟨[], .down, .none, .none⟩

/-- Methods of `Walk` (`&mut self`): they see the heap and the walk.  A panic keeps the state reached. -/
def WM (α β : Type) := Heap α × Walk → Res (Heap α × Walk) β

namespace WM
protected def pure (b : β) : WM α β := fun s => .ok b s
protected def bind (x : WM α β) (f : β → WM α γ) : WM α γ := fun s => (x s).bind (fun b s => f b s)
instance : Monad (WM α) where
  pure := WM.pure
  bind := WM.bind
def throw (e : Err) : WM α β := fun s => .err e s
/-- Code that works on the heap. -/
def lift (c : M α β) : WM α β := fun s => match c s.1 with
  | .ok b h => .ok b (h, s.2)
  | .err e h => .err e (h, s.2)
def self : WM α Walk := fun s => .ok s.2 s
def modify (f : Walk → Walk) : WM α Unit := fun s => .ok () (s.1, f s.2)
/-- `Option::unwrap`. -/
def unwrap (o : Option β) : WM α β := lift (Trees.unwrap o)

@[simp] theorem pure_apply (b : β) (s : Heap α × Walk) : (pure b : WM α β) s = .ok b s := rfl
@[simp] theorem bind_apply (x : WM α β) (f : β → WM α γ) (s) : (x >>= f) s = (x s).bind (fun b s => f b s) := rfl
@[simp] theorem throw_apply (e : Err) (s : Heap α × Walk) : (throw e : WM α β) s = .err e s := rfl
@[simp] theorem self_apply (s : Heap α × Walk) : (self : WM α _) s = .ok s.2 s := rfl
@[simp] theorem modify_apply (f) (s : Heap α × Walk) : (modify f : WM α _) s = .ok () (s.1, f s.2) := rfl
@[simp] theorem unwrap_some (b : β) (s : Heap α × Walk) : (unwrap (some b) : WM α _) s = .ok b s := rfl
@[simp] theorem unwrap_none (s : Heap α × Walk) : (unwrap none : WM α β) s = .err .panic s := rfl
theorem lift_ok {c : M α β} {b : β} {h h' : Heap α} {w : Walk} (e : c h = .ok b h') : lift c (h, w) = .ok b (h', w) := by
  simp [lift, e]
end WM

namespace Walk

def setDir (d : Direction) : WM α Unit := WM.modify fun w => { w with direction := d }
def setVisit (v : VisitType) : WM α Unit := WM.modify fun w => { w with visitType := v }
def push (n : Nodes) : WM α Unit := WM.modify fun w => { w with path := n :: w.path }
def pop : WM α Unit := WM.modify fun w => { w with path := w.path.tail }
/-- Assignment through `path.last_mut()`. -/
def setLast (n : Nodes) : WM α Unit := WM.modify fun w => { w with path := n :: w.path.tail }

/-- Making a reference to a node: undefined behaviour if the node is not live. -/
def refNode (a : Addr) : M α Addr := rd (fun _ a => a) a

/-- walk.rs 59-63: `reset`. -/
def reset : WM α Unit := WM.modify fun w => { w with path := [], direction := .down, visitType := .none }

/-- `if has_no_child() { Leaf } else { Begin }`. -/
def visitOf (noChild : Bool) : VisitType := if noChild then .leaf else .begin

/-- walk.rs 65-78: `init_visit`. -/
def initVisit : WM α Unit := do
  match (← WM.self).path with
  | nodes :: _ => do
    let a ← WM.unwrap nodes.node
    let b ← WM.lift (hasNoChild a)
    setVisit (visitOf b)
  | [] => setVisit .none

/-- walk.rs 37: `Nodes::this`. -/
def this (node : Option Addr) : M α Nodes :=
  match node with
  | some a => do return ⟨node, ← getNext a⟩
  | none => pure ⟨node, none⟩

/-- walk.rs 40: `Nodes::sibs`. -/
def sibs (node : Option Addr) : Nodes := ⟨node, none⟩

/-- walk.rs 80-85: `on_node`. -/
def onNode (node : Option Addr) : WM α Unit := do
  reset
  let n ← WM.lift (this node)
  push n
  initVisit
  WM.modify fun w => { w with origin := node }

/-- walk.rs 87-92: `on_forest`. -/
def onForest (head : Option Addr) : WM α Unit := do
  reset
  push (sibs head)
  initVisit
  WM.modify fun w => { w with origin := head }

/-- walk.rs 94-103: `revisit`. -/
def revisit : WM α Unit := do
  let w ← WM.self
  if w.origin.isSome then do
    match w.visitType with
    | .none => push (sibs w.origin)
    | _ => pure ()
    setDir .down
    initVisit
  else pure ()

/-- walk.rs 106-117: `get`. -/
def get : WM α (Option (Kind × Addr)) := do
  let w ← WM.self
  match w.path with
  | nodes :: _ =>
    match w.visitType with
    | .begin => do return some (.begin, ← WM.lift (refNode (← WM.unwrap nodes.node)))
    | .stop => do return some (.stop, ← WM.lift (refNode (← WM.unwrap nodes.node)))
    | .leaf => do return some (.leaf, ← WM.lift (refNode (← WM.unwrap nodes.node)))
    | .none => return none
  | [] => return none

/-- walk.rs 120-169: the loop of `forward`.  The first argument bounds the number of iterations; a loop that
uses it up does not terminate. -/
def forwardLoop : Nat → WM α Unit
  | 0 => WM.throw .fuel
  | k + 1 => do
    match (← WM.self).direction with
    | .up => do
      pop
      match (← WM.self).path with
      | _ :: _ => do setDir .right; setVisit .stop
      | [] => do setDir .down; setVisit .none
    | .down => do
      match (← WM.self).path with
      | nodes :: _ => do
        let a ← WM.unwrap nodes.node
        if (← WM.lift (hasNoChild a)) then do
          setDir .right
          forwardLoop k
        else do
          let head ← WM.lift (getHead a)
          let hd ← WM.unwrap head
          let b ← WM.lift (hasNoChild hd)
          setVisit (visitOf b)
          push (sibs head)
      | [] => pure ()
    | .right => do
      match (← WM.self).path with
      | nodes :: _ => do
        let a ← WM.unwrap nodes.node
        let n ← WM.lift (getNext a)
        setLast ⟨n, nodes.sentinel⟩
        if n = nodes.sentinel then do
          setDir .up
          forwardLoop k
        else do
          let b ← WM.unwrap n
          if (← WM.lift (hasNoChild b)) then setVisit .leaf
          else do setVisit .begin; setDir .down
      | [] => forwardLoop k

/-- walk.rs 120: `forward`.  Three iterations suffice (down, right, up) unless the loop spins on an empty path;
see `c24_forward_terminates`. -/
def forward : WM α Unit := forwardLoop 3

/-- walk.rs 174-177: `next`. -/
def next : WM α (Option (Kind × Addr)) := do
  forward
  get

/-- walk.rs 180-192: `to_parent`. -/
def toParent : WM α (Option (Kind × Addr)) := do
  match (← WM.self).path with
  | _ :: _ => do
    pop
    match (← WM.self).path with
    | _ :: _ => do
      setDir .right
      setVisit .stop
      get
    | [] => do setDir .down; setVisit .none; return none
  | [] => do setDir .down; setVisit .none; return none

/-- walk.rs 195-201: `get_parent`. -/
def getParent : WM α (Option Addr) := do
  match (← WM.self).path with
  | _ :: parent :: _ => do
    let a ← WM.unwrap parent.node
    return some (← WM.lift (refNode a))
  | _ => return none

/-- walk.rs 206-213: the `for` loop of `to_sib`; `true`: it ran to its end. -/
def sibLoop : Nat → WM α Bool
  | 0 => pure true
  | k + 1 => do
    match (← WM.self).path with
    | nodes :: _ => do
      let a ← WM.unwrap nodes.node
      let n ← WM.lift (getNext a)
      setLast ⟨n, nodes.sentinel⟩
      if n = nodes.sentinel then do
        setDir .up
        return false
      else sibLoop k
    | [] => return false

/-- walk.rs 205-225: `to_sib`. -/
def toSib (n : Nat) : WM α (Option (Kind × Addr)) := do
  match (← WM.self).path with
  | _ :: _ => do
    if (← sibLoop n) then do
      match (← WM.self).path with
      | nodes :: _ => do
        let a ← WM.unwrap nodes.node
        if (← WM.lift (hasNoChild a)) then setVisit .leaf
        else do setVisit .begin; setDir .down
      | [] => pure ()
      get
    else return none
  | [] => return none

/-- walk.rs 229-247: `to_child`. -/
def toChild (n : Nat) : WM α (Option (Kind × Addr)) := do
  match (← WM.self).path with
  | nodes :: _ => do
    let a ← WM.unwrap nodes.node
    if (← WM.lift (hasNoChild a)) then do
      setDir .right
      return none
    else do
      let head ← WM.lift (getHead a)
      let hd ← WM.unwrap head
      let b ← WM.lift (hasNoChild hd)
      setVisit (visitOf b)
      push (sibs head)
      toSib n
  | [] => return none

/-- `TreeWalk::from(tree)` — walk.rs 439-445. The walk borrows the node pointers; the tree stays owned by the
`TreeWalk`. -/
def fromTree (r : Addr) : M α Walk := fun h =>
  match onNode (some r) (h, Walk.default) with
  | .ok _ s => .ok s.2 s.1
  | .err e s => .err e s.1

/-- `ForestWalk::from(forest)` — walk.rs 625-633. -/
def fromForest (f : Addr) : M α Walk := fun h =>
  match (do
      if (← WM.lift (hasNoChild f)) then pure ()
      else onForest (← WM.lift (front f)) : WM α Unit) (h, Walk.default) with
  | .ok _ s => .ok s.2 s.1
  | .err e s => .err e s.1

/-- `ForestWalk::default()` — walk.rs 453-458 (`#[derive( Default )]`): `Forest::default()` (forest.rs 275) and
`Walk::default()`. -/
def forestWalkDefault : M α (Addr × Walk) := do
  let f ← forestNew
  return (f, Walk.default)

/-- One public call. -/
def call : WalkOp → WM α (WalkOut Addr)
  | .get => do return .visit (← get)
  | .forward => do forward; return .unit
  | .next => do return .visit (← next)
  | .toParent => do return .visit (← toParent)
  | .getParent => do return .node (← getParent)
  | .toChild n => do return .visit (← toChild n)
  | .toSib n => do return .visit (← toSib n)
  | .revisit => do revisit; return .unit

/-- A sequence of calls (panics are caught). -/
def calls : List WalkOp → WM α (List (WalkOut Addr))
  | [] => pure []
  | op :: ops => do
    let o ← (fun s => match call op s with
      | .err .panic s' => .ok .panic s'
      | r => r : WM α (WalkOut Addr))
    let os ← calls ops
    return o :: os

end Walk

/-- A session: turn the tree or forest in `x` into a walk, make the calls, turn the walk back
(`From<TreeWalk> for Tree`, `From<ForestWalk> for Forest`, walk.rs 447-451, 635-639: the stored owner is returned,
the cursor is dropped).  The results of the calls and the state afterwards; `none` if `x` is no tree or forest or if a
call has undefined behaviour or does not terminate. -/
def Machine.walkRun (m : Machine α) (x : Var) (ops : List WalkOp) : Option (List (WalkOut Addr) × Machine α) :=
  let start : Option (Res (Heap α) Walk) := match m.env x with
    | some (.tree r) => some (Walk.fromTree r m.heap)
    | some (.forest f) => some (Walk.fromForest f m.heap)
    | _ => none
  match start with
  | some (.ok w h) => match Walk.calls ops (h, w) with
    | .ok os s => some (os, { m with heap := s.1 })
    | .err _ _ => none
  | _ => none

end Trees
