import Verif.Model.Heap
/-
`Node<T>`, `heap.rs`, block reference counts, raw iterators, `Tree<T>`, `Forest<T>`.
A `&Node`, `&mut Node`, `Pin<&mut Node>`, `Tree` or `Forest` is the address of its (root) node.
-/
namespace Trees
variable {α : Type}

/-! ### Reading -/

/-- `self.head` etc.: field reads through a pointer. -/
def getPrev (a : Addr) : M α (Option Addr) := rd (fun h => h.prev) a
def getNext (a : Addr) : M α (Option Addr) := rd (fun h => h.next) a
def getHead (a : Addr) : M α (Option Addr) := rd (fun h => h.head) a
def getTail (a : Addr) : M α (Option Addr) := rd (fun h => h.tail) a
def getUp (a : Addr) : M α (Option Addr) := rd (fun h => h.up) a
def getSize (a : Addr) : M α Size := rd (fun h => h.size) a
def getData (a : Addr) : M α (Data α) := rd (fun h => h.data) a

/-- `Node::data` / `Data::as_ref` — node.rs 112, 72-80 (`unreachable!` is a panic). -/
def dataRef (a : Addr) : M α α := do
  match (← getData a).val? with
  | some d => pure d
  | none => M.throw .panic

/-- `*node.data_mut() = d` — node.rs 115, 82-90: the assignment drops the old value. -/
def dataMutSet (a : Addr) (d : α) : M α Unit := do
  match (← getData a) with
  | .piled old o => do setData a (.piled d o); logDrop old
  | .scattered old o => do setData a (.scattered d o); logDrop old
  | _ => M.throw .panic

/-- `Node::has_no_child` — node.rs 129. -/
def hasNoChild (a : Addr) : M α Bool := do return (← getHead a).isNone

/-- `Node::degree` — node.rs 145. -/
def degree (a : Addr) : M α Nat := do return (← getSize a).degree

/-- `Node::is_forest` — node.rs 591-597. -/
def isForest (a : Addr) : M α Bool := do return (← getData a).isForest

/-- `Node::node_count` — node.rs 157-163. -/
def nodeCount (a : Addr) : M α Nat := do
  if (← isForest a) then return (← getSize a).descendants
  else return (← getSize a).descendants + 1

/-- Loop of `Node::parent` — node.rs 181-187. -/
def parentLoop : Nat → Addr → M α (Option Addr)
  | 0, _ => M.throw .fuel
  | k+1, a => do
    match (← getUp a) with
    | some p => do if (← isForest p) then parentLoop k p else return some p
    | none => return none

/-- `Node::parent` — node.rs 178-190. -/
def parent (a : Addr) : M α (Option Addr) := M.fuelled fun h => parentLoop (h.nextAddr + 1) a

/-- `Node::front` / `front_mut` — node.rs 342-350. -/
def front (a : Addr) : M α (Option Addr) := getHead a
/-- `Node::back` / `back_mut` — node.rs 354-362. -/
def back (a : Addr) : M α (Option Addr) := getTail a

/-! ### Raw iterators — iter.rs -/

/-- `CountedRawIter` (with the `UncountedRawIter` inside) — iter.rs 38-55, 8-16. Also `Iter`,
`IterMut`, which wrap it (iter.rs 89-151), and `IterRc` (iter_rc.rs 29). It is copied by value (iter.rs 18-24, 57-63). -/
structure RawIter where
  curr : Option Addr
  len : Nat
deriving DecidableEq

/-- `UncountedRawIter::next` — iter.rs 29-35. -/
def uncountedNext (curr : Option Addr) : M α (Option Addr × Option Addr) := do
  match curr with
  | some c => do
    let n ← getNext c
    return (some c, n)
  | none => return (none, none)

/-- `CountedRawIter::next` — iter.rs 68-75. -/
def RawIter.next (it : RawIter) : M α (Option Addr × RawIter) := do
  if it.len = 0 then return (none, it)
  else do
    let (item, curr) ← uncountedNext it.curr
    return (item, ⟨curr, it.len - 1⟩)

/-- `Node::iter` / `Node::iter_mut` — node.rs 313-318, 333-338. -/
def iter (a : Addr) : M α RawIter := do
  match (← getHead a) with
  | some c => do return ⟨some c, (← degree a)⟩
  | none => return ⟨none, 0⟩

/-- `CountedRawIter::once` — iter.rs 52-54; `(&Node).into_iter()` — into_iter.rs 52-68. -/
def RawIter.once (a : Addr) : RawIter := ⟨some a, 1⟩

/-- `Iterator::nth`: `next` called `n` times discarding, then once more (std default method). -/
def RawIter.nth : Nat → RawIter → M α (Option Addr × RawIter)
  | 0, it => it.next
  | n+1, it => do
    match (← it.next) with
    | (some _, it') => it'.nth n
    | (none, it') => return (none, it')

/-- Collect all remaining items: `while let Some(x) = it.next()`, at most `len` of them. -/
def RawIter.collect : Nat → RawIter → M α (List Addr)
  | 0, it => do
    match (← it.next) with
    | (some _, _) => M.throw .fuel
    | (none, _) => return []
  | n+1, it => do
    match (← it.next) with
    | (some c, it') => do return c :: (← it'.collect n)
    | (none, _) => return []

/-- All children of a node, through its iterator. -/
def children (a : Addr) : M α (List Addr) := do
  let it ← iter a
  it.collect it.len

/-! ### Link surgery — node.rs 546-589 -/

/-- `Node::connect_next` — node.rs 562-565. -/
def connectNext (a b : Addr) : M α Unit := do
  setNext a (some b)
  setPrev b (some a)

/-- Loop of `Node::inc_sizes` — node.rs 571-576. -/
def incLoop : Nat → Option Addr → Nat → M α Unit
  | _, none, _ => pure ()
  | 0, some _, _ => M.throw .fuel
  | k+1, some p, cnt => do
    let s ← getSize p
    setSize p ⟨s.degree, s.descendants + cnt⟩
    incLoop k (← getUp p) cnt

/-- `Node::inc_sizes` — node.rs 567-577. -/
def incSizes (a : Addr) (deg cnt : Nat) : M α Unit := do
  let s ← getSize a
  setSize a ⟨s.degree + deg, s.descendants + cnt⟩
  let u ← getUp a
  M.fuelled fun h => incLoop h.nextAddr u cnt

/-- Loop of `Node::dec_sizes` — node.rs 583-588 (underflow panics). -/
def decLoop : Nat → Option Addr → Nat → M α Unit
  | _, none, _ => pure ()
  | 0, some _, _ => M.throw .fuel
  | k+1, some p, cnt => do
    let s ← getSize p
    if s.descendants < cnt then M.throw .panic
    else do
      setSize p ⟨s.degree, s.descendants - cnt⟩
      decLoop k (← getUp p) cnt

/-- `Node::dec_sizes` — node.rs 579-589 (underflow panics). -/
def decSizes (a : Addr) (deg cnt : Nat) : M α Unit := do
  let s ← getSize a
  if s.degree < deg ∨ s.descendants < cnt then M.throw .panic
  else do
    setSize a ⟨s.degree - deg, s.descendants - cnt⟩
    let u ← getUp a
    M.fuelled fun h => decLoop h.nextAddr u cnt

/-! ### Allocation and release — heap.rs, node_vec.rs 15-54, 171-186 -/

/-- Patch of `owner` in `heap::make_node` — heap.rs 21-25. -/
def Data.setOwner (d : Data α) (a : Addr) : Data α :=
  match d with
  | .scatteredNone _ => .scatteredNone a
  | .scattered d _ => .scattered d a
  | d => d

/-- `heap::make_node` — heap.rs 7-30: a new `Rc<RefCell<Node>>` with count 1. -/
def makeNode (d : Data α) : M α Addr := fun h =>
  let a := h.nextAddr
  .ok a { h with
    live := upd h.live a true
    prev := upd h.prev a none
    next := upd h.next a none
    head := upd h.head a none
    tail := upd h.tail a none
    up := upd h.up a none
    size := upd h.size a .default
    data := upd h.data a (d.setOwner a)
    count := upd h.count a 1
    borrow := upd h.borrow a 0
    nextAddr := h.nextAddr + 1 }

/-- `drop(Rc::from_raw(owner))` (std): decrement the strong count; at zero the `RefCell<Node>` is
dropped (the user value still in it, if any, is dropped) and the memory is released. -/
def rcDrop (o : Addr) : M α Unit := fun h =>
  if h.live o then
    if h.count o = 1 then
      .ok () { h with
        live := upd h.live o false
        count := upd h.count o 0
        log := h.log ++ (h.data o).val?.toList }
    else if h.count o = 0 then .err .ub h
    else .ok () { h with count := upd h.count o (h.count o - 1) }
  else .err .ub h

/-- `live` outside the block, `false` inside. -/
def killRange (live : Addr → Bool) (nv : NodeVec) : Addr → Bool :=
  fun a => if nv.base ≤ a ∧ a < nv.base + nv.cap then false else live a

/-- `NodeVec::decr_ref` and `Drop for NodeVec` — node_vec.rs 171-186; `Cell::decr` — rc.rs 40-48. -/
def decrRef (v : Nat) : M α Unit := fun h =>
  match h.vec v with
  | none => .err .ub h
  | some nv =>
    if nv.refCnt = 0 then .err .panic h
    else if nv.refCnt - 1 = 0 then
      .ok () { h with vec := upd h.vec v none, live := killRange h.live nv }
    else .ok () { h with vec := upd h.vec v (some { nv with refCnt := nv.refCnt - 1 }) }

/-- `heap::drop_node` — heap.rs 32-46. The user value is dropped at the end of the `match`. -/
def dropNode (a : Addr) : M α Unit := do
  let d ← getData a
  setData a .none
  match d with
  | .none => pure ()
  | .scatteredNone o => rcDrop o
  | .scattered d o => do rcDrop o; logDrop d
  | .piledNone v => decrRef v
  | .piled d v => do decrRef v; logDrop d

/-- `NodeVec::new_raw_non_null` — node_vec.rs 16-23: `cap` default nodes, each with count 1. -/
def newVec (cap : Nat) : M α Nat := fun h =>
  let v := h.nextVec
  let inR := fun (a : Addr) => h.nextAddr ≤ a ∧ a < h.nextAddr + cap
  .ok v { h with
    live := fun a => if inR a then true else h.live a
    prev := fun a => if inR a then none else h.prev a
    next := fun a => if inR a then none else h.next a
    head := fun a => if inR a then none else h.head a
    tail := fun a => if inR a then none else h.tail a
    up := fun a => if inR a then none else h.up a
    size := fun a => if inR a then .default else h.size a
    data := fun a => if inR a then .none else h.data a
    count := fun a => if inR a then 1 else h.count a
    borrow := fun a => if inR a then 0 else h.borrow a
    vec := upd h.vec v (some ⟨h.nextAddr, cap, cap⟩)
    nextAddr := h.nextAddr + cap
    nextVec := h.nextVec + 1 }

/-- `NodeVec::non_null_node` — node_vec.rs 31-35: `get_unchecked` out of range is undefined
behaviour. -/
def vecNode (v : Nat) (i : Nat) : M α Addr := fun h =>
  match h.vec v with
  | none => .err .ub h
  | some nv => if i < nv.cap then .ok (nv.base + i) h else .err .ub h

/-- `NodeVec::make_node` — node_vec.rs 44-54 (the assignment drops the old data value). -/
def vecMakeNode (v : Nat) (par : Option Addr) (i : Nat) (d : Data α) (s : Size) : M α Addr := do
  let a ← vecNode v i
  setUp a par
  setSize a s
  let old ← getData a
  setData a d
  match old.val? with
  | some x => logDrop x
  | none => pure ()
  return a

/-- `NodeVec::make_piled_node` — node_vec.rs 40-42. -/
def makePiledNode (v : Nat) (par : Option Addr) (i : Nat) (d : α) (s : Size) : M α Addr :=
  vecMakeNode v par i (.piled d v) s

/-- `NodeVec::append_child` — node_vec.rs 56-65. -/
def appendChild (v : Nat) (par child : Nat) (d : α) (s : Size) : M α Unit := do
  let p ← vecNode v par
  let c ← makePiledNode v (some p) child d s
  match (← getTail p) with
  | some t => connectNext t c
  | none => setHead p (some c)
  setTail p (some c)

/-! ### Child list operations — node.rs 377-544, tree.rs 63-66 -/

/-- `Tree::from_node` — tree.rs 63-66. -/
def treeFromNode (a : Addr) : M α Addr := do
  setUp a none
  return a

/-- `Node::push_front` — node.rs 377-387. -/
def pushFront (self tree : Addr) : M α Unit := do
  setUp tree (some self)
  if (← hasNoChild self) then setTail self (some tree)
  else do
    let hd ← unwrap (← getHead self)
    connectNext tree hd
  setHead self (some tree)
  incSizes self 1 (← nodeCount tree)

/-- `Node::push_back` — node.rs 402-412. -/
def pushBack (self tree : Addr) : M α Unit := do
  setUp tree (some self)
  if (← hasNoChild self) then setHead self (some tree)
  else do
    let tl ← unwrap (← getTail self)
    connectNext tl tree
  setTail self (some tree)
  incSizes self 1 (← nodeCount tree)

/-- `Node::pop_front` — node.rs 428-448. -/
def popFront (self : Addr) : M α (Option Addr) := do
  match (← getSize self).degree with
  | 0 => return none
  | 1 => do
    let hd ← unwrap (← getHead self)
    setHead self none
    setTail self none
    decSizes self 1 ((← getSize hd).descendants + 1)
    return some (← treeFromNode hd)
  | _ => do
    let hd ← unwrap (← getHead self)
    let newHead ← unwrap (← getNext hd)
    setPrev newHead none
    setNext hd none
    setHead self (some newHead)
    decSizes self 1 ((← getSize hd).descendants + 1)
    return some (← treeFromNode hd)

/-- `Node::pop_back` — node.rs 464-484. -/
def popBack (self : Addr) : M α (Option Addr) := do
  match (← getSize self).degree with
  | 0 => return none
  | 1 => do
    let tl ← unwrap (← getTail self)
    setHead self none
    setTail self none
    decSizes self 1 ((← getSize tl).descendants + 1)
    return some (← treeFromNode tl)
  | _ => do
    let tl ← unwrap (← getTail self)
    let newTail ← unwrap (← getPrev tl)
    setNext newTail none
    setPrev tl none
    setTail self (some newTail)
    decSizes self 1 ((← getSize tl).descendants + 1)
    return some (← treeFromNode tl)

/-! ### Destruction — tree.rs 244-249, forest.rs 277-282 -/

/-- `Drop for Tree` / `Drop for Forest`: `while let Some(_) = pop_front() {}` (each popped tree is
dropped) and then `drop_node`.  Fuel bounds both the recursion and the loop. -/
def dropLoop : Nat → Addr → M α Unit
  | 0, _ => M.throw .fuel
  | k+1, r => do
    match (← popFront r) with
    | some c => do dropLoop k c; dropLoop k r
    | none => dropNode r

/-- Dropping a `Tree` or `Forest` (tree.rs 244-249, forest.rs 277-282). -/
def dropRoot (r : Addr) : M α Unit := M.fuelled fun h => dropLoop ((h.size r).descendants + 1) r

/-! ### Forest splicing — forest.rs 60-73, node.rs 501-544 -/

/-- Loop of `Forest::set_up` — forest.rs 60-64 (`for_each` over `iter_mut`). -/
def setUpLoop : Nat → RawIter → Addr → M α Unit
  | 0, it, _ => do
    match (← it.next) with
    | (some _, _) => M.throw .fuel
    | (none, _) => pure ()
  | k+1, it, par => do
    match (← it.next) with
    | (some c, it') => do setUp c (some par); setUpLoop k it' par
    | (none, _) => pure ()

/-- `Forest::set_up` — forest.rs 60-64. -/
def forestSetUp (f par : Addr) : M α Unit := do
  let it ← iter f
  setUpLoop it.len it par

/-- `Forest::clear` — forest.rs 66-73. -/
def forestClear (f : Addr) : M α Unit := do
  setHead f none
  setTail f none
  setSize f .default

/-- `Node::prepend` — node.rs 501-514; the consumed forest is dropped at the end. -/
def prepend (self forest : Addr) : M α Unit := do
  if !(← hasNoChild forest) then
    forestSetUp forest self
    if (← hasNoChild self) then setTail self (some (← unwrap (← back forest)))
    else do
      let tl ← unwrap (← getTail forest)
      let hd ← unwrap (← getHead self)
      connectNext tl hd
    setHead self (some (← unwrap (← front forest)))
    let s ← getSize forest
    incSizes self s.degree s.descendants
    forestClear forest
  dropRoot forest

/-- `Node::append` — node.rs 531-544; the consumed forest is dropped at the end. -/
def append (self forest : Addr) : M α Unit := do
  if !(← hasNoChild forest) then
    forestSetUp forest self
    if (← hasNoChild self) then setHead self (some (← unwrap (← front forest)))
    else do
      let tl ← unwrap (← getTail self)
      let hd ← unwrap (← getHead forest)
      connectNext tl hd
    setTail self (some (← unwrap (← back forest)))
    let s ← getSize forest
    incSizes self s.degree s.descendants
    forestClear forest
  dropRoot forest

/-! ### Sibling operations — node.rs 204-294 -/

/-- `Node::insert_prev_sib` — node.rs 204-221.  When `self.up.unwrap()` panics, unwinding drops the
argument `sib`. -/
def insertPrevSib (self sib : Addr) : M α Unit := do
  match (← getUp self) with
  | none => do dropRoot sib; M.throw .panic
  | some u => do
    setUp sib (some u)
    match (← getPrev self) with
    | some p => connectNext p sib
    | none => setHead u (some sib)
    connectNext sib self
    incSizes u 1 (← nodeCount sib)

/-- `Node::insert_next_sib` — node.rs 234-251.  When `self.up.unwrap()` panics, unwinding drops the
argument `sib`. -/
def insertNextSib (self sib : Addr) : M α Unit := do
  match (← getUp self) with
  | none => do dropRoot sib; M.throw .panic
  | some u => do
    setUp sib (some u)
    match (← getNext self) with
    | some n => connectNext sib n
    | none => setTail u (some sib)
    connectNext self sib
    incSizes u 1 (← nodeCount sib)

/-- `Node::detach` — node.rs 263-294. -/
def detach (self : Addr) : M α Addr := do
  let u ← unwrap (← getUp self)
  match (← getSize u).degree with
  | 1 => do
    setHead u none
    setTail u none
  | _ => do
    if (← getPrev self).isNone then
      let n ← unwrap (← getNext self)
      setPrev n none
      setHead u (some n)
      setNext self none
    else if (← getNext self).isNone then
      let p ← unwrap (← getPrev self)
      setNext p none
      setTail u (some p)
      setPrev self none
    else
      let p ← unwrap (← getPrev self)
      let n ← unwrap (← getNext self)
      connectNext p n
      setPrev self none
      setNext self none
  decSizes u 1 (← nodeCount self)
  setUp self none
  return self

/-! ### Tree and Forest — tree.rs, forest.rs -/

/-- `Tree::new` — tree.rs 29-34. -/
def treeNew (d : α) : M α Addr := makeNode (.scattered d 0)

/-- `Forest::new` — forest.rs 31-33. -/
def forestNew : M α Addr := makeNode (.scatteredNone 0)

/-- `Tree::abandon` — tree.rs 175-183: returns (new root of the tree, the forest). -/
def abandon (root : Addr) : M α (Addr × Addr) := do
  match (← getData root).take with
  | some (rest, d) => do
    setData root rest
    let newRoot ← makeNode (.scattered d 0)
    return (newRoot, root)
  | none => M.throw .panic

/-- `Tree::into_data` with `Data::into_inner` — tree.rs 57-61, node.rs 57-69. -/
def intoData (root : Addr) : M α α := do
  let d ← getData root
  setData root .none
  match d with
  | .piled d v => do decrRef v; return d
  | .scattered d o => do rcDrop o; return d
  | _ => M.throw .panic

/-- `IntoIterator for Tree` — into_iter.rs 34-43. The result is the `IntoIter`'s forest. -/
def treeIntoIter (root : Addr) : M α Addr := do
  let f ← forestNew
  pushBack f root
  return f

/-- Loop of `Drop for IntoIter` — into_iter.rs 28-32: `for _ in self.by_ref() {}`. -/
def intoIterDropLoop : Nat → Addr → M α Unit
  | 0, _ => M.throw .fuel
  | k+1, f => do
    match (← popFront f) with
    | some c => do dropRoot c; intoIterDropLoop k f
    | none => pure ()

/-- `Drop for IntoIter` — into_iter.rs 28-32, followed by the drop of its field `forest`. -/
def intoIterDrop (f : Addr) : M α Unit := do
  M.fuelled fun h => intoIterDropLoop ((h.size f).degree + 1) f
  dropRoot f

end Trees
