import Verif.Model.Machine
/-
`RcNode<T>`, `WeakNode<T>`, `IterRc<T>` and the guards `Ref<T>` / `RefMut<T>` — rc.rs, iter_rc.rs.
A client program holds exclusive values (`Tree`, `Forest`, `IntoIter`: `Model/Machine.lean`) and shared ones in
variables; every call runs the modelled code.
-/
namespace Trees
variable {α β : Type}

/-! ### Handles and counts -/

/-- `RcNode<T>` — rc.rs 51-58 — and `WeakNode<T>` — rc.rs 523-530. `scattered`: the `Rc` box, identified with the
node in it. `piled`: the block and the index of the slot. -/
inductive RcRef where
  | scattered (a : Addr)
  | piled (v i : Nat)
deriving DecidableEq

/-- The node (with its count and its `RefCell` flag) a handle gives access to: `rc.deref()`, and
`node_vec.as_ref().buf.get_unchecked( index )` — rc.rs 183, 189. -/
def RcRef.slot : RcRef → M α Addr
  | .scattered a => fun h => if h.live a then .ok a h else .err .ub h
  | .piled v i => vecNode v i

/-- `Rc::strong_count`, `Cell::get`. -/
def getCount (a : Addr) : M α Nat := fun h => .ok (h.count a) h

/-- `RefCount::incr` — rc.rs 29-38 — (overflow is not modelled) and `Rc::clone`. -/
def incrCount (a : Addr) : M α Unit := fun h =>
  if h.count a = 0 then .err .panic h else .ok () { h with count := upd h.count a (h.count a + 1) }

/-- `RefCount::decr` on the count of a node — rc.rs 40-48: the new count. -/
def decrCount (a : Addr) : M α Nat := fun h =>
  if h.count a = 0 then .err .panic h
  else .ok (h.count a - 1) { h with count := upd h.count a (h.count a - 1) }

/-- `node_vec.ref_cnt.incr()` — rc.rs 83, 29-38. -/
def incrVec (v : Nat) : M α Unit := fun h =>
  match h.vec v with
  | none => .err .ub h
  | some nv => if nv.refCnt = 0 then .err .panic h
    else .ok () { h with vec := upd h.vec v (some { nv with refCnt := nv.refCnt + 1 }) }

/-- The index of the node in its block: `( self - buf.as_ptr() ) / size_of` — rc.rs 80-81, 100-101. (For a node outside of the
block the index would be meaningless and the access through it undefined: `ub` here already.) -/
def vecIndex (v : Nat) (a : Addr) : M α Nat := fun h =>
  match h.vec v with
  | none => .err .ub h
  | some nv => if nv.base ≤ a ∧ a < nv.base + nv.cap then .ok (a - nv.base) h else .err .ub h

/-- `Node::rc` — rc.rs 73-91: a new handle, counts are incremented. -/
def nodeRc (a : Addr) : M α RcRef := do
  match (← getData a) with
  | .scattered _ o => do
    let o ← (RcRef.scattered o).slot
    incrCount o
    return .scattered o
  | .piled _ v => do
    let i ← vecIndex v a
    incrVec v
    let s ← vecNode v i
    incrCount s
    return .piled v i
  | _ => M.throw .panic

/-- `Node::into_rc` — rc.rs 94-107: a handle that takes over the count the node's owner had. -/
def intoRc (a : Addr) : M α RcRef := do
  match (← getData a) with
  | .scattered _ o => return .scattered o
  | .piled _ v => do
    let i ← vecIndex v a
    return .piled v i
  | _ => M.throw .panic

/-- `Clone for RcNode` — rc.rs 110-123. The piled branch increments the count of the node only. -/
def rcClone (r : RcRef) : M α RcRef := do
  let a ← r.slot
  incrCount a
  return r

/-! ### Dynamic borrows -/

/-- Write of the `RefCell` flag. -/
def setBorrow (a : Addr) (b : Int) : M α Unit := wr (fun h => { h with borrow := upd h.borrow a b }) a

/-- `RcNode::node_borrow_mut` — rc.rs 196-209; also what `RcNode::borrow_mut` (rc.rs 178-179) calls: panics on a conflict; the assertion fails on a node without data
(and the guard is released by unwinding). -/
def borrowMut (r : RcRef) : M α Addr := do
  let a ← r.slot
  let b ← rd (fun h => h.borrow) a
  if b = 0 then do
    setBorrow a (-1)
    if (← getData a).isNone then do setBorrow a 0; M.throw .panic
    else return a
  else M.throw .panic

/-- `RcNode::node_borrow` — rc.rs 181-194; also what `RcNode::borrow` (rc.rs 176) calls. -/
def borrowShared (r : RcRef) : M α Addr := do
  let a ← r.slot
  let b ← rd (fun h => h.borrow) a
  if 0 ≤ b then do
    setBorrow a (b + 1)
    if (← getData a).isNone then do setBorrow a b; M.throw .panic
    else return a
  else M.throw .panic

/-- `Drop for RefMut` (std). -/
def releaseMut (a : Addr) : M α Unit := setBorrow a 0

/-- `Drop for Ref` (std). -/
def releaseShared (a : Addr) : M α Unit := do
  let b ← rd (fun h => h.borrow) a
  setBorrow a (b - 1)

/-- Run `c`, then `fin`, also if `c` panics (unwinding drops the guard). -/
def finally_ (c : M α β) (fin : M α Unit) : M α β := fun h =>
  match c h with
  | .ok b h' => (fin h').bind (fun _ s => .ok b s)
  | .err .panic h' => (fin h').bind (fun _ s => .err .panic s)
  | .err e h' => .err e h'

/-- An access through a temporary `RefMut`. -/
def withMut (r : RcRef) (f : Addr → M α β) : M α β := do
  let a ← borrowMut r
  finally_ (f a) (releaseMut a)

/-- An access through a temporary `Ref`. -/
def withShared (r : RcRef) (f : Addr → M α β) : M α β := do
  let a ← borrowShared r
  finally_ (f a) (releaseShared a)

/-- An access through a temporary `RefMut` that consumes the tree or forest `t`: on a conflict, unwinding drops it. -/
def withMutArg (r : RcRef) (t : Addr) (f : Addr → M α β) : M α β := fun h =>
  match borrowMut r h with
  | .ok a h' => finally_ (f a) (releaseMut a) h'
  | .err .panic h' => (dropRoot t h').bind (fun _ s => .err .panic s)
  | .err e h' => .err e h'

/-- Run `c`; if it panics, run `fin`. -/
def onPanic (c : M α β) (fin : M α Unit) : M α β := fun h =>
  match c h with
  | .err .panic h' => (fin h').bind (fun _ s => .err .panic s)
  | x => x

/-- `RcNode::data` — rc.rs 170: `Ref::map( self.node_borrow(), |node| node.data() )`; the guard stays. -/
def guardShared (r : RcRef) : M α Addr := do
  let a ← borrowShared r
  onPanic (do let _ ← dataRef a) (releaseShared a)
  return a

/-- `RcNode::data_mut` — rc.rs 173; the guard stays. -/
def guardMut (r : RcRef) : M α Addr := do
  let a ← borrowMut r
  onPanic (do let _ ← dataRef a) (releaseMut a)
  return a

/-! ### Calls -/

/-- `RcNode::pop_front` — rc.rs 334-336. -/
def popFrontRc (r : RcRef) : M α (Option RcRef) := withMut r fun a => do
  match (← popFront a) with
  | some c => do return some (← intoRc c)
  | none => return none

/-- `RcNode::pop_back` — rc.rs 353. -/
def popBackRc (r : RcRef) : M α (Option RcRef) := withMut r fun a => do
  match (← popBack a) with
  | some c => do return some (← intoRc c)
  | none => return none

/-- `ptr::drop_in_place( &mut node.data )` — rc.rs 146: the value of the node is dropped, the node may not be
accessed any more (its count may, as long as the block is there). -/
def dropInPlace (a : Addr) : M α Unit := do
  let d ← getData a
  fun h => .ok () { h with live := upd h.live a false, log := h.log ++ d.val?.toList }

mutual
/-- `Drop for RcNode` — rc.rs 125-152 — and, in the scattered case, the drop of the `Rc` (std). -/
def dropRc : Nat → RcRef → M α Unit
  | 0, _ => M.throw .fuel
  | k+1, .scattered a => do
    let a ← (RcRef.scattered a).slot
    if (← getCount a) = 1 then drainRc k (.scattered a)
    rcDrop a
  | k+1, .piled v i => do
    let a ← vecNode v i
    if (← decrCount a) = 0 then do
      drainRc k (.piled v i)
      dropInPlace a
    decrRef v
/-- `while let Some(_) = self.pop_front() {}` — rc.rs 131, 138: each popped handle is dropped. -/
def drainRc : Nat → RcRef → M α Unit
  | 0, _ => M.throw .fuel
  | k+1, r => do
    match (← popFrontRc r) with
    | some c => do dropRc k c; drainRc k r
    | none => pure ()
end

/-- The node of a handle, without any access (only to compute a loop budget). -/
def RcRef.at (h : Heap α) : RcRef → Addr
  | .scattered a => a
  | .piled v i => match h.vec v with
    | some nv => nv.base + i
    | none => 0

/-- Dropping an `RcNode`. -/
def dropHandle (r : RcRef) : M α Unit :=
  M.fuelled fun h => dropRc (2 * (h.size (r.at h)).descendants + 2) r

/-- `RcNode::detach` — rc.rs 425-427: the guard is alive while the detached handle is dropped. -/
def detachRc (r : RcRef) : M α Unit := withMut r fun a => do
  let c ← detach a
  let q ← intoRc c
  dropHandle q

/-- `RcNode::front` — rc.rs 259. -/
def frontRc (r : RcRef) : M α (Option RcRef) := withShared r fun a => do
  match (← front a) with
  | some c => do return some (← nodeRc c)
  | none => return none

/-- `RcNode::back` — rc.rs 272. -/
def backRc (r : RcRef) : M α (Option RcRef) := withShared r fun a => do
  match (← back a) with
  | some c => do return some (← nodeRc c)
  | none => return none

/-- `RcNode::parent` — rc.rs 287. -/
def parentRc (r : RcRef) : M α (Option RcRef) := withShared r fun a => do
  match (← parent a) with
  | some c => do return some (← nodeRc c)
  | none => return none

/-- `RcNode::is_root` — rc.rs 167. -/
def isRootRc (r : RcRef) : M α Bool := withShared r fun a => do return (← parent a).isNone

/-- `RcNode::iter_rc` — rc.rs 445-452. -/
def iterRc (r : RcRef) : M α RawIter := withShared r fun a => do
  if (← hasNoChild a) then return ⟨none, 0⟩
  else do
    let c ← front a
    let n ← degree a
    return ⟨c, n⟩

/-- `IterRc::next` — iter_rc.rs 21-23. -/
def iterRcNext (it : RawIter) : M α (Option RcRef × RawIter) := do
  match (← it.next) with
  | (some c, it') => do return (some (← nodeRc c), it')
  | (none, it') => return (none, it')

/-- `WeakNode::upgrade` — rc.rs 538-552. For `std::rc::Weak`: the strong count is zero exactly if the value in the
box has been dropped. -/
def upgradeWeak : RcRef → M α (Option RcRef)
  | .scattered a => fun h => if h.live a then (incrCount a h).bind (fun _ s => .ok (some (.scattered a)) s) else .ok none h
  | .piled v i => do
    let a ← vecNode v i
    if (← getCount a) = 0 then return none
    else do
      incrCount a
      return some (.piled v i)

/-- `Drop for WeakNode` — rc.rs 555-565. (`std::rc::Weak` keeps no node alive.) -/
def dropWeak : RcRef → M α Unit
  | .scattered _ => pure ()
  | .piled v _ => decrRef v

/-- `RcNode::into_tree` — rc.rs 481-493, without the drop of the handle on panic. -/
def intoTreeRc (r : RcRef) : M α Addr := do
  if (← isRootRc r) then
    match r with
    | .scattered _ => withMut r fun a => treeFromNode a
    | .piled v i => do
      let a ← vecNode v i
      treeFromNode a
  else M.throw .panic

/-- On panic the handle, which has been moved into the call, is dropped. -/
def intoTree (r : RcRef) : M α Addr := onPanic (intoTreeRc r) (dropHandle r)

/-! ### The machine -/

/-- Values of the shared part of the API. -/
inductive Ref where
  /-- `RcNode<T>` -/
  | rc (r : RcRef)
  /-- `WeakNode<T>` -/
  | weak (r : RcRef)
  /-- `Ref<T>` or `RefMut<T>` obtained from the handle in variable `k`, for the data of node `a` -/
  | guard (k : Var) (a : Addr) (wr : Bool)
  /-- `IterRc<T>` -/
  | iter (it : RawIter)

/-- A client program's state: memory, exclusive values, shared values. A variable holds at most one of both. -/
structure RMachine (α : Type) where
  heap : Heap α
  env : Var → Option Handle
  refs : Var → Option Ref
  fresh : Nat

def RMachine.empty : RMachine α := ⟨Heap.empty, fun _ => none, fun _ => none, 0⟩

/-- The exclusive part. -/
def RMachine.excl (m : RMachine α) : Machine α := ⟨m.heap, m.env, m.fresh⟩

/-- Calls of the shared part of the API; `k` is a variable holding an `RcNode`. -/
inductive ROp (α : Type) where
  /-- any call on exclusive values -/
  | excl (op : Op α)
  /-- `RcNode::from( tree )` -/
  | fromTree (x : Var)
  | clone (k : Var)
  /-- drop of a handle, weak handle, guard or iterator -/
  | drop (k : Var)
  | isRoot (k : Var)
  | data (k : Var)
  | degree (k : Var)
  | nodeCount (k : Var)
  | hasNoChild (k : Var)
  | front (k : Var)
  | back (k : Var)
  | parent (k : Var)
  | pushFront (k y : Var)
  | pushBack (k y : Var)
  | popFront (k : Var)
  | popBack (k : Var)
  | prepend (k y : Var)
  | append (k y : Var)
  | insertPrevSib (k y : Var)
  | insertNextSib (k y : Var)
  | detach (k : Var)
  /-- `*k.data_mut() = d` -/
  | setData (k : Var) (d : α)
  /-- `let g = k.data();` -/
  | borrow (k : Var)
  /-- `let g = k.data_mut();` -/
  | borrowMut (k : Var)
  /-- `*g` -/
  | guardRead (g : Var)
  /-- `*g = d`, for a `RefMut` -/
  | guardWrite (g : Var) (d : α)
  | iterRc (k : Var)
  | iterNext (i : Var)
  /-- `i.clone()` -/
  | iterClone (i : Var)
  /-- `i.size_hint()`: `n` for `(n, Some(n))` -/
  | iterLen (i : Var)
  | downgrade (k : Var)
  | upgrade (w : Var)
  /-- `k.deep_clone()`; `f` is `T::clone` (as in `Op.mapBfs`) -/
  | deepClone (k : Var) (f : Nat → α → α)
  | intoTree (k : Var)

namespace RMachine

/-- Run code of the crate; `refs`, `env` are the variables if it panics. -/
def run (m : RMachine α) (env : Var → Option Handle) (refs : Var → Option Ref) (c : M α β)
    (k : β → Heap α → Outcome (RMachine α) α) : Outcome (RMachine α) α :=
  match c m.heap with
  | .ok b h => k b h
  | .err .panic h => .panic ⟨h, env, refs, m.fresh⟩
  | .err _ _ => .bad

/-- The handle in variable `k`. -/
def onRc (m : RMachine α) (k : Var) (f : RcRef → Outcome (RMachine α) α) : Outcome (RMachine α) α :=
  match m.refs k with
  | some (.rc r) => f r
  | _ => .rejected

def takeTree (m : RMachine α) (y : Var) (f : Addr → Outcome (RMachine α) α) : Outcome (RMachine α) α :=
  match m.env y with
  | some (.tree t) => f t
  | _ => .rejected

def takeForest (m : RMachine α) (y : Var) (f : Addr → Outcome (RMachine α) α) : Outcome (RMachine α) α :=
  match m.env y with
  | some (.forest t) => f t
  | _ => .rejected

/-- A call on a handle that changes no variable. -/
def call (m : RMachine α) (k : Var) (c : RcRef → M α β) (o : β → Out α) : Outcome (RMachine α) α :=
  m.onRc k fun r => m.run m.env m.refs (c r) fun b h => .ok ⟨h, m.env, m.refs, m.fresh⟩ (o b)

/-- A call that returns a new shared value. -/
def bindRef (m : RMachine α) (h : Heap α) (refs : Var → Option Ref) (r : Ref) : Outcome (RMachine α) α :=
  .ok ⟨h, m.env, upd refs m.fresh (some r), m.fresh + 1⟩ (.var m.fresh)

/-- A call that returns an optional handle. -/
def retRc (m : RMachine α) (h : Heap α) (refs : Var → Option Ref) : Option RcRef → Outcome (RMachine α) α
  | some r => m.bindRef h refs (.rc r)
  | none => .ok ⟨h, m.env, refs, m.fresh⟩ .none

/-- A call with a tree or forest argument in variable `y`. -/
def consume (m : RMachine α) (k y : Var) (c : RcRef → M α Unit) : Outcome (RMachine α) α :=
  m.onRc k fun r => m.run (upd m.env y none) m.refs (c r) fun _ h => .ok ⟨h, upd m.env y none, m.refs, m.fresh⟩ .unit

/-- A guard obtained from handle `k` is alive: the handle is borrowed and can neither be dropped nor moved. -/
def guarded (m : RMachine α) (k : Var) : Bool :=
  (List.range m.fresh).any fun g => match m.refs g with
    | some (.guard k' _ _) => k' == k
    | _ => false

end RMachine

/-- One call of the API. The functions run here: `From<Tree> for RcNode` — rc.rs 63-69 —, `degree`, `node_count`,
`has_no_child`, `push_front`, `push_back`, `prepend`, `append`, `insert_prev_sib`, `insert_next_sib`, `downgrade`,
`deep_clone` — rc.rs 222-246, 302-317, 367-415, 455-460, 508 — are one line each, as are `Clone for IterRc` and
`IterRc::size_hint` — iter_rc.rs 25, 37-41; iter.rs 59-63, 77-79 —; the others are defined above. -/
def rstep (m : RMachine α) : ROp α → Outcome (RMachine α) α
  | .excl op => match step m.excl op with
      | .ok m' o => .ok ⟨m'.heap, m'.env, m.refs, m'.fresh⟩ o
      | .panic m' => .panic ⟨m'.heap, m'.env, m.refs, m'.fresh⟩
      | .rejected => .rejected
      | .bad => .bad
  | .fromTree x => m.takeTree x fun t => m.run (upd m.env x none) m.refs (intoRc t) fun r h =>
      .ok ⟨h, upd m.env x none, upd m.refs m.fresh (some (.rc r)), m.fresh + 1⟩ (.var m.fresh)
  | .clone k => m.onRc k fun r => m.run m.env m.refs (rcClone r) fun q h => m.bindRef h m.refs (.rc q)
  | .drop k => match m.refs k with
      | some (.rc r) => if m.guarded k then .rejected else
          m.run m.env (upd m.refs k none) (dropHandle r) fun _ h => .ok ⟨h, m.env, upd m.refs k none, m.fresh⟩ .unit
      | some (.weak r) => m.run m.env (upd m.refs k none) (dropWeak r) fun _ h =>
          .ok ⟨h, m.env, upd m.refs k none, m.fresh⟩ .unit
      | some (.guard _ a mt) => m.run m.env (upd m.refs k none) (if mt then releaseMut a else releaseShared a) fun _ h =>
          .ok ⟨h, m.env, upd m.refs k none, m.fresh⟩ .unit
      | some (.iter _) => .ok ⟨m.heap, m.env, upd m.refs k none, m.fresh⟩ .unit
      | none => .rejected
  | .isRoot k => m.call k isRootRc .bool
  | .data k => m.call k (fun r => withShared r dataRef) (fun d => .item (some d))
  | .degree k => m.call k (fun r => withShared r degree) .nat
  | .nodeCount k => m.call k (fun r => withShared r nodeCount) .nat
  | .hasNoChild k => m.call k (fun r => withShared r hasNoChild) .bool
  | .front k => m.onRc k fun r => m.run m.env m.refs (frontRc r) fun o h => m.retRc h m.refs o
  | .back k => m.onRc k fun r => m.run m.env m.refs (backRc r) fun o h => m.retRc h m.refs o
  | .parent k => m.onRc k fun r => m.run m.env m.refs (parentRc r) fun o h => m.retRc h m.refs o
  | .pushFront k y => m.takeTree y fun t => m.consume k y fun r => withMutArg r t fun a => pushFront a t
  | .pushBack k y => m.takeTree y fun t => m.consume k y fun r => withMutArg r t fun a => pushBack a t
  | .popFront k => m.onRc k fun r => m.run m.env m.refs (popFrontRc r) fun o h => m.retRc h m.refs o
  | .popBack k => m.onRc k fun r => m.run m.env m.refs (popBackRc r) fun o h => m.retRc h m.refs o
  | .prepend k y => m.takeForest y fun t => m.consume k y fun r => withMutArg r t fun a => prepend a t
  | .append k y => m.takeForest y fun t => m.consume k y fun r => withMutArg r t fun a => append a t
  | .insertPrevSib k y => m.takeTree y fun t => m.consume k y fun r => withMutArg r t fun a => insertPrevSib a t
  | .insertNextSib k y => m.takeTree y fun t => m.consume k y fun r => withMutArg r t fun a => insertNextSib a t
  | .detach k => m.call k detachRc fun _ => .unit
  | .setData k d => m.call k (fun r => withMut r fun a => dataMutSet a d) fun _ => .unit
  | .borrow k => m.onRc k fun r => m.run m.env m.refs (guardShared r) fun a h => m.bindRef h m.refs (.guard k a false)
  | .borrowMut k => m.onRc k fun r => m.run m.env m.refs (guardMut r) fun a h => m.bindRef h m.refs (.guard k a true)
  | .guardRead g => match m.refs g with
      | some (.guard _ a _) => m.run m.env m.refs (dataRef a) fun d h => .ok ⟨h, m.env, m.refs, m.fresh⟩ (.item (some d))
      | _ => .rejected
  | .guardWrite g d => match m.refs g with
      | some (.guard _ a true) => m.run m.env m.refs (dataMutSet a d) fun _ h => .ok ⟨h, m.env, m.refs, m.fresh⟩ .unit
      | _ => .rejected
  | .iterRc k => m.onRc k fun r => m.run m.env m.refs (iterRc r) fun it h => m.bindRef h m.refs (.iter it)
  | .iterNext i => match m.refs i with
      | some (.iter it) => m.run m.env m.refs (iterRcNext it) fun q h => m.retRc h (upd m.refs i (some (.iter q.2))) q.1
      | _ => .rejected
  | .iterClone i => match m.refs i with
      | some (.iter it) => m.bindRef m.heap m.refs (.iter it)
      | _ => .rejected
  | .iterLen i => match m.refs i with
      | some (.iter it) => .ok m (.nat it.len)
      | _ => .rejected
  | .downgrade k => m.onRc k fun r => m.bindRef m.heap m.refs (.weak r)
  | .upgrade w => match m.refs w with
      | some (.weak r) => m.run m.env m.refs (upgradeWeak r) fun o h => m.retRc h m.refs o
      | _ => .rejected
  | .deepClone k f => m.onRc k fun r => m.run m.env m.refs (withShared r fun a => mapBfs f a) fun a h =>
      .ok ⟨h, upd m.env m.fresh (some (.tree a)), m.refs, m.fresh + 1⟩ (.var m.fresh)
  | .intoTree k => m.onRc k fun r => if m.guarded k then .rejected else
      m.run m.env (upd m.refs k none) (intoTree r) fun a h =>
        .ok ⟨h, upd m.env m.fresh (some (.tree a)), upd m.refs k none, m.fresh + 1⟩ (.var m.fresh)

/-! ### What handles show -/

/-- Read a subtree with the identity (address) of every node. -/
def readLab : Nat → Addr → M α (RTree (Addr × α))
  | 0, _ => M.throw .fuel
  | k+1, a => do
    let d ← dataRef a
    let cs ← children a
    let ts ← readMany (readLab k) cs
    return .node (a, d) ts

/-- The labelled subtree of a node. -/
def readNode (a : Addr) : M α (RTree (Addr × α)) := M.fuelled fun h => readLab ((h.size a).descendants + 1) a

/-- The subtree below the handle in variable `k`, with the identities of the nodes. -/
def RMachine.look (m : RMachine α) (k : Var) : Option (RTree (Addr × α)) :=
  match m.refs k with
  | some (.rc r) => match readNode (r.at m.heap) m.heap with
    | .ok t _ => some t
    | .err _ _ => none
  | _ => none

/-- The tree in the exclusive variable `x`, with the identities of the nodes. -/
def RMachine.lookTree (m : RMachine α) (x : Var) : Option (RTree (Addr × α)) :=
  match m.env x with
  | some (.tree r) => match readNode r m.heap with
    | .ok t _ => some t
    | .err _ _ => none
  | _ => none

/-- The trees in the exclusive variable `x` (a `Forest`), with the identities of the nodes. -/
def RMachine.lookForest (m : RMachine α) (x : Var) : Option (List (RTree (Addr × α))) :=
  match m.env x with
  | some (.forest f) => match (do readMany readNode (← children f) : M α _) m.heap with
    | .ok ts _ => some ts
    | .err _ _ => none
  | _ => none

/-- The node of the handle in variable `k`. -/
def RMachine.nodeOf (m : RMachine α) (k : Var) : Option Addr := (m.look k).map fun t => t.data.1

/-- A `Ref` (`wr = false`) or a `RefMut` (`wr = true`) for the data of node `a` is alive. -/
def RMachine.Guarded (m : RMachine α) (a : Addr) (wr : Bool) : Prop := ∃ g k, m.refs g = some (.guard k a wr)

/-- States that client programs can reach (all programs, including those that run into the defects of the crate). -/
inductive RReachable : RMachine α → Prop
  | init : RReachable RMachine.empty
  | ok {m m' op o} : RReachable m → rstep m op = .ok m' o → RReachable m'
  | panic {m m' op} : RReachable m → rstep m op = .panic m' → RReachable m'

/-- A sequence of calls, all returning normally. -/
def rexec (m : RMachine α) : List (ROp α) → Option (RMachine α)
  | [] => some m
  | op :: ops => match rstep m op with
    | .ok m' _ => rexec m' ops
    | _ => none

end Trees
