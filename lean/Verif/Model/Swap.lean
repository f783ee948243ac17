import Verif.Model.Machine
/-
`Node<T>` values in the hands of safe code. `Node<T>` is `Unpin` whenever `T` is (node.rs 94-102 has no `PhantomPinned`), so that
the `Pin<&mut Node<T>>` of `root_mut`, `front_mut`, `iter_mut` … (tree.rs 72, node.rs 348, iter.rs 142) is no more than a
`&mut Node<T>`: `mem::swap` exchanges two nodes. `Node<T>: Default` (node.rs 104-108) is public, so that safe code can own
a node outside of any tree, call its methods, and move it.
-/
namespace Trees
variable {α : Type}

/-- The places `a`, `b` exchanged. -/
def exch {β : Type} (f : Addr → β) (a b : Addr) : Addr → β := upd (upd f a (f b)) b (f a)

/-- Memory after `mem::swap(&mut *a, &mut *b)` of two nodes: all fields of `Node<T>` (node.rs 94-102); the `Rc` boxes with their
counts and flags stay where they are. -/
def Heap.swapped (h : Heap α) (a b : Addr) : Heap α :=
  { h with
    prev := exch h.prev a b
    next := exch h.next a b
    head := exch h.head a b
    tail := exch h.tail a b
    up := exch h.up a b
    size := exch h.size a b
    data := exch h.data a b }

/-- `mem::swap(&mut *a, &mut *b)`. -/
def swapNodes (a b : Addr) : M α Unit := fun h =>
  if h.live a = true ∧ h.live b = true then .ok () (h.swapped a b) else .err .ub h

/-- `Node::default()` in a local variable — node.rs 104-108. -/
def nodeDefault : M α Addr := fun h =>
  let a := h.nextAddr
  .ok a { h with
    live := upd h.live a true
    prev := upd h.prev a none
    next := upd h.next a none
    head := upd h.head a none
    tail := upd h.tail a none
    up := upd h.up a none
    size := upd h.size a .default
    data := upd h.data a .none
    count := upd h.count a 1
    borrow := upd h.borrow a 0
    nextAddr := h.nextAddr + 1 }

/-- A move `let b = a;` of a `Node<T>`: the bytes are copied to a new place, the old place is dead (`Node` has no `Drop`). -/
def nodeMove (a : Addr) : M α Addr := fun h =>
  let b := h.nextAddr
  if h.live a then
    .ok b { h with
      live := upd (upd h.live b true) a false
      prev := upd h.prev b (h.prev a)
      next := upd h.next b (h.next a)
      head := upd h.head b (h.head a)
      tail := upd h.tail b (h.tail a)
      up := upd h.up b (h.up a)
      size := upd h.size b (h.size a)
      data := upd h.data b (h.data a)
      count := upd h.count b 1
      borrow := upd h.borrow b 0
      nextAddr := h.nextAddr + 1 }
  else .err .ub h

/-- `n.front().unwrap().parent()` — node.rs 342, 178-190. -/
def frontParent (a : Addr) : M α (Option Addr) := do
  let c ← unwrap (← front a)
  parent c

/-- Variables of type `Node<T>` besides those of `Machine`. -/
structure NMachine (α : Type) where
  base : Machine α
  nodes : Var → Option Addr

/-- Calls. -/
inductive NOp (α : Type) where
  | call (op : Op α)
  /-- `mem::swap(&mut *x.root_mut(), &mut *y.root_mut())` -/
  | swapRoots (x y : Var)
  /-- `x.front().unwrap().parent() == x.root()`, compared as references -/
  | frontParentIsRoot (x : Var)
  /-- `let n = Node::default();` -/
  | nodeDefault
  /-- `let n' = n;` -/
  | nodeMove (n : Var)
  /-- `n.push_back(y)` -/
  | nodePush (n y : Var)
  /-- `n.front().unwrap().parent() == &n`, compared as references -/
  | frontParentIs (n : Var)

def NMachine.run {β : Type} (m : NMachine α) (env : Var → Option Handle) (nodes : Var → Option Addr) (c : M α β)
    (k : β → Heap α → Outcome (NMachine α) α) : Outcome (NMachine α) α :=
  match c m.base.heap with
  | .ok b h => k b h
  | .err .panic h => .panic ⟨⟨h, env, m.base.fresh⟩, nodes⟩
  | .err _ _ => .bad

/-- One call. -/
def nstep (m : NMachine α) : NOp α → Outcome (NMachine α) α
  | .call op => match step m.base op with
    | .ok b o => .ok ⟨b, m.nodes⟩ o
    | .panic b => .panic ⟨b, m.nodes⟩
    | .rejected => .rejected
    | .bad => .bad
  | .swapRoots x y => if x = y then .rejected else
    match m.base.env x, m.base.env y with
    | some (.tree a), some (.tree b) => m.run m.base.env m.nodes (swapNodes a b) fun _ h =>
        .ok ⟨⟨h, m.base.env, m.base.fresh⟩, m.nodes⟩ .unit
    | _, _ => .rejected
  | .frontParentIsRoot x => match m.base.env x with
    | some (.tree a) => m.run m.base.env m.nodes (frontParent a) fun o h =>
        .ok ⟨⟨h, m.base.env, m.base.fresh⟩, m.nodes⟩ (.bool (decide (o = some a)))
    | _ => .rejected
  | .nodeDefault => m.run m.base.env m.nodes nodeDefault fun a h =>
      .ok ⟨⟨h, m.base.env, m.base.fresh + 1⟩, upd m.nodes m.base.fresh (some a)⟩ (.var m.base.fresh)
  | .nodeMove n => match m.nodes n with
    | some a => m.run m.base.env m.nodes (nodeMove a) fun b h =>
        .ok ⟨⟨h, m.base.env, m.base.fresh + 1⟩, upd (upd m.nodes n none) m.base.fresh (some b)⟩ (.var m.base.fresh)
    | none => .rejected
  | .nodePush n y => match m.nodes n, m.base.env y with
    | some a, some (.tree t) => m.run (upd m.base.env y none) m.nodes (pushBack a t) fun _ h =>
        .ok ⟨⟨h, upd m.base.env y none, m.base.fresh⟩, m.nodes⟩ .unit
    | _, _ => .rejected
  | .frontParentIs n => match m.nodes n with
    | some a => m.run m.base.env m.nodes (frontParent a) fun o h =>
        .ok ⟨⟨h, m.base.env, m.base.fresh⟩, m.nodes⟩ (.bool (decide (o = some a)))
    | none => .rejected

/-- The machine without variables of type `Node<T>`. -/
def Machine.withNodes (m : Machine α) : NMachine α := ⟨m, fun _ => none⟩

end Trees
