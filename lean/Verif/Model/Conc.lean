import Verif.Model.Fine
/-
Several threads that work on values of this crate at the same time: a `Tree` or a `Forest` goes to another thread in a `TreeWalk`
or `ForestWalk` (`unsafe impl Send`, `unsafe impl Sync` — walk.rs 460-461, 641-642) and is taken out there (447-456, 635-639).
Memory is shared; the accesses
of the threads (Model/Fine) are interleaved one by one in the order of a schedule. Every access takes effect at once
(a program without data races cannot tell the difference).
-/
namespace Trees
namespace Fine
variable {α β : Type} {n : Nat}

/-- A thread: how often it has called the allocator (nodes, `NodeVec`s), the items whose destructors it has run, and what
it still has to do. -/
structure Thread (α β : Type) where
  nextAddr : Nat
  nextVec : Nat
  log : List α
  prog : Prog α β

/-- Shared memory (the counters and the log in `mem` are not used) and the threads. -/
structure Sys (n : Nat) (α β : Type) where
  mem : Heap α
  th : Fin n → Thread α β

/-- Memory as a thread sees it. -/
def Thread.view (t : Thread α β) (mem : Heap α) : Heap α :=
  { mem with nextAddr := t.nextAddr, nextVec := t.nextVec, log := t.log }

/-- Memory in use at `x` by any of the threads (compare `inUse`, Model/Alloc.lean). -/
def Sys.inUse (A : Fin n → Alloc) (s : Sys n α β) (x : Addr) : Bool :=
  s.mem.live x || (List.finRange n).any fun j => (List.range (s.th j).nextVec).any fun v =>
    match s.mem.vec ((A j).vec v) with
    | none => false
    | some nv => decide (nv.base ≤ x) && decide (x < nv.base + nv.cap)

/-- If the access is an allocation: the place that the allocator chooses is free. -/
def Sys.free (A : Fin n → Alloc) (s : Sys n α β) (i : Fin n) : Acc α → Bool
  | .make _ => !s.inUse A ((A i).addr (s.th i).nextAddr)
  | .newVec m => (s.mem.vec ((A i).vec (s.th i).nextVec)).isNone && (List.range (m + 1)).all fun k =>
      decide ((A i).addr ((s.th i).nextAddr + k) = (A i).addr (s.th i).nextAddr + k) && !s.inUse A ((A i).addr (s.th i).nextAddr + k)
  | _ => true

/-- Replace one thread. -/
def Sys.set (th : Fin n → Thread α β) (i : Fin n) (t : Thread α β) : Fin n → Thread α β := fun j => if j = i then t else th j

/-- Thread `i` does its next access; nothing happens if it has finished. `none`: the allocator has handed out memory that is
in use. -/
def Sys.step (A : Fin n → Alloc) (s : Sys n α β) (i : Fin n) : Option (Sys n α β) :=
  match (s.th i).prog with
  | .acc a k => if s.free A i a then
      match a.run (A i) ((s.th i).view s.mem) with
      | .ok x h => some ⟨h, Sys.set s.th i ⟨h.nextAddr, h.nextVec, h.log, k x⟩⟩
      | .err .alloc _ => none
      | .err e h => some ⟨h, Sys.set s.th i ⟨h.nextAddr, h.nextVec, h.log, .fail e⟩⟩
    else none
  | _ => some s

/-- The accesses in the order of the schedule. -/
def Sys.run (A : Fin n → Alloc) : Sys n α β → List (Fin n) → Option (Sys n α β)
  | s, [] => some s
  | s, i :: is => (s.step A i).bind fun s' => s'.run A is

/-! ### Data races -/

/-- The node that an access reads or writes. -/
def Acc.node? : Acc α → Option Addr
  | .ptr _ a | .setPtr _ a _ | .size a | .setSize a _ | .data a | .setData a _ | .rcDrop a => some a
  | _ => none

/-- The `NodeVec` that an access reads or writes. -/
def Acc.vec? : Acc α → Option Nat
  | .vecNode v _ | .getRef v | .setRef v _ | .freeVec v => some v
  | _ => none

/-- Accesses that do not write. -/
def Acc.reads : Acc α → Bool
  | .ptr _ _ | .size _ | .data _ | .vecNode _ _ | .getRef _ | .bound => true
  | _ => false

/-- Two accesses to the same place, one of which writes (or frees: `freeVec` frees all the nodes of the block). -/
def Conflict (mem : Heap α) (a b : Acc α) : Prop :=
  (a.reads = false ∨ b.reads = false) ∧
  ((∃ x, a.node? = some x ∧ b.node? = some x) ∨ (∃ v, a.vec? = some v ∧ b.vec? = some v) ∨
   ∃ v nv x, a = .freeVec v ∧ mem.vec v = some nv ∧ b.node? = some x ∧ nv.base ≤ x ∧ x < nv.base + nv.cap)

/-- A data race: two threads are about to do conflicting accesses, in whichever order. -/
def Sys.Race (s : Sys n α β) : Prop :=
  ∃ i j a ka b kb, i ≠ j ∧ (s.th i).prog = .acc a ka ∧ (s.th j).prog = .acc b kb ∧ Conflict s.mem a b

/-- Threads that each run a client program, in the memory of machine `m`; thread `i` has the variables `x` with `own x = i`. -/
def start (m : Machine α) (own : Var → Fin n) (ops : Fin n → List (Op α)) : Sys n α (Vars × List (Outcome Unit α)) :=
  ⟨m.heap, fun i => ⟨m.heap.nextAddr, m.heap.nextVec, [], exec ⟨fun x => if own x = i then m.env x else none, m.fresh⟩ (ops i)⟩⟩

/-- Calls through a shared reference: nothing is taken, made or changed. -/
def _root_.Trees.Op.reading : Op α → Bool
  | .data _ _ | .degree _ _ | .nodeCount _ _ | .hasNoChild _ _ | .childData _ _ | .frontData _ _ | .backData _ _ | .iterLen _ | .bfs _ _ _
  | .bfsChildren _ _ _ => true
  | _ => false

/-- Threads that have shared references to all the variables of machine `m` (`Sync`). -/
def share (m : Machine α) (ops : Fin n → List (Op α)) : Sys n α (Vars × List (Outcome Unit α)) :=
  ⟨m.heap, fun i => ⟨m.heap.nextAddr, m.heap.nextVec, [], exec ⟨m.env, m.fresh⟩ (ops i)⟩⟩

/-- Calls that need only a shared reference to their variable: those that only read, and those that make a copy
(`Node::deep_clone`, `deep_clone_forest`, `Tree::clone`, `Forest::clone`, `Tree::from( node.bfs().map(f) )`). -/
def _root_.Trees.Op.byRef : Op α → Bool
  | .mapBfs _ _ _ | .mapBfsForest _ _ _ => true
  | op => op.reading

/-- The variables that a call mentions. -/
def _root_.Trees.Op.vars : Op α → List Var
  | .treeNew _ | .forestNew | .treeFromTuple _ | .forestFromTuple _ => []
  | .pushFront x _ y | .pushBack x _ y | .prepend x _ y | .append x _ y | .insertPrevSib x _ y | .insertNextSib x _ y => [x, y]
  | .popFront x _ | .popBack x _ | .detach x _ | .abandon x | .setData x _ _ | .drop x | .intoIter x | .iterNext x | .iterLen x | .data x _
  | .degree x _ | .nodeCount x _ | .hasNoChild x _ | .childData x _ | .frontData x _ | .backData x _ | .mapBfs x _ _ | .mapBfsForest x _ _
  | .rebuild x _ | .bfs x _ _ | .bfsChildren x _ _ | .intoBfs x _ | .bfsMut x _ _ _ | .bfsChildrenMut x _ _ _ => [x]

/-- Threads that own some variables of machine `m` and have shared references to others (scoped threads): `own x = 0`
means that `x` is shared, `own x = i + 1` that it belongs to thread `i`. -/
def mixed (m : Machine α) (own : Var → Fin (n + 1)) (ops : Fin n → List (Op α)) : Sys n α (Vars × List (Outcome Unit α)) :=
  ⟨m.heap, fun i => ⟨m.heap.nextAddr, m.heap.nextVec, [],
    exec ⟨fun x => if own x = 0 ∨ own x = i.succ then m.env x else none, m.fresh⟩ (ops i)⟩⟩

/-- What the borrow checker asks of such a thread: a variable of `m` that is shared occurs only in calls by shared reference. -/
def Polite (m : Machine α) (own : Var → Fin (n + 1)) (ops : List (Op α)) : Prop :=
  ∀ op ∈ ops, op.byRef = true ∨ ∀ x ∈ op.vars, ¬ (own x = 0 ∧ x < m.fresh)

end Fine
end Trees
