import Verif.Model.Alloc
/-
The exclusive-ownership code once more, as programs of single memory accesses, so that the accesses of several threads can
be interleaved (Model/Conc.lean). The definitions are those of Model/Node, Model/Bfs, Model/Tuple, Model/Machine and
Model/Alloc, word by word, in another monad; Proof/Fine.lean proves that running them without interruption is running
the originals.
-/
namespace Trees
namespace Fine
variable {α β γ : Type}

/-- The pointers of a node — node.rs 94-99. -/
inductive Fld where
  | prev | next | head | tail | up
deriving DecidableEq

/-- One access to memory. Each concerns one node or one `NodeVec`; `bound` is no access (the budget of a loop of the model);
`logDrop` is the call of a destructor of user data. -/
inductive Acc (α : Type) where
  | ptr (f : Fld) (a : Addr)
  | setPtr (f : Fld) (a : Addr) (v : Option Addr)
  | size (a : Addr)
  | setSize (a : Addr) (s : Size)
  | data (a : Addr)
  | setData (a : Addr) (d : Data α)
  /-- `Rc::new` — heap.rs 8 -/
  | make (d : Data α)
  /-- `drop(Rc::from_raw(o))` -/
  | rcDrop (o : Addr)
  /-- `NodeVec::new_raw_non_null( n + 1 )` — node_vec.rs 16-23; all callers make room for `n` descendants and the root -/
  | newVec (n : Nat)
  | vecNode (v i : Nat)
  /-- `ref_cnt.get()` — rc.rs 41 -/
  | getRef (v : Nat)
  /-- `ref_cnt.set(n)` — rc.rs 43 -/
  | setRef (v n : Nat)
  /-- `drop(Box::from_raw(v))` — node_vec.rs 176 -/
  | freeVec (v : Nat)
  | logDrop (d : α)
  | bound

/-- What an access returns. -/
def Acc.Ret : Acc α → Type
  | .ptr _ _ => Option Addr
  | .setPtr _ _ _ => Unit
  | .size _ => Size
  | .setSize _ _ => Unit
  | .data _ => Data α
  | .setData _ _ => Unit
  | .make _ => Addr
  | .rcDrop _ => Unit
  | .newVec _ => Nat
  | .vecNode _ _ => Addr
  | .getRef _ => Nat
  | .setRef _ _ => Unit
  | .freeVec _ => Unit
  | .logDrop _ => Unit
  | .bound => Nat

def Fld.get : Fld → Addr → M α (Option Addr)
  | .prev => getPrev
  | .next => getNext
  | .head => getHead
  | .tail => getTail
  | .up => getUp

def Fld.set : Fld → Addr → Option Addr → M α Unit
  | .prev => Trees.setPrev
  | .next => Trees.setNext
  | .head => Trees.setHead
  | .tail => Trees.setTail
  | .up => Trees.setUp

/-- The effect of an access; `A` is the allocator. -/
def Acc.run (A : Alloc) : (a : Acc α) → M α a.Ret
  | .ptr f a => f.get a
  | .setPtr f a v => f.set a v
  | .size a => Trees.getSize a
  | .setSize a s => Trees.setSize a s
  | .data a => Trees.getData a
  | .setData a d => Trees.setData a d
  | .make d => makeNodeA A d
  | .rcDrop o => Trees.rcDrop o
  | .newVec n => newVecA A (n + 1)
  | .vecNode v i => Trees.vecNode v i
  | .getRef v => fun h => match h.vec v with
    | none => .err .ub h
    | some nv => .ok nv.refCnt h
  | .setRef v n => fun h => match h.vec v with
    | none => .err .ub h
    | some nv => .ok () { h with vec := upd h.vec v (some { nv with refCnt := n }) }
  | .freeVec v => fun h => match h.vec v with
    | none => .err .ub h
    | some nv => .ok () { h with vec := upd h.vec v none, live := killRange h.live nv }
  | .logDrop d => Trees.logDrop d
  | .bound => fun h => .ok h.nextAddr h

/-- Programs of accesses. -/
inductive Prog (α β : Type) where
  | ret (b : β)
  | fail (e : Err)
  | acc (a : Acc α) (k : a.Ret → Prog α β)

namespace Prog

protected def bind : Prog α β → (β → Prog α γ) → Prog α γ
  | ret b, f => f b
  | fail e, _ => fail e
  | acc a k, f => acc a fun x => (k x).bind f

instance : Monad (Prog α) where
  pure := ret
  bind := Prog.bind

/-- Run a program without interruption. -/
def run (A : Alloc) : Prog α β → M α β
  | ret b => fun h => .ok b h
  | fail e => fun h => .err e h
  | acc a k => fun h => (a.run A h).bind fun x h' => (k x).run A h'

/-- Go on after a panic (`catch_unwind`), or after the result. -/
def catch_ : Prog α β → (β → Prog α γ) → (Err → Prog α γ) → Prog α γ
  | ret b, f, _ => f b
  | fail e, _, g => g e
  | acc a k, f, g => acc a fun x => (k x).catch_ f g

end Prog

def access (a : Acc α) : Prog α a.Ret := .acc a .ret
def throw (e : Err) : Prog α β := .fail e
def getPrev (a : Addr) : Prog α (Option Addr) := access (.ptr .prev a)
def getNext (a : Addr) : Prog α (Option Addr) := access (.ptr .next a)
def getHead (a : Addr) : Prog α (Option Addr) := access (.ptr .head a)
def getTail (a : Addr) : Prog α (Option Addr) := access (.ptr .tail a)
def getUp (a : Addr) : Prog α (Option Addr) := access (.ptr .up a)
def setPrev (a : Addr) (v : Option Addr) : Prog α Unit := access (.setPtr .prev a v)
def setNext (a : Addr) (v : Option Addr) : Prog α Unit := access (.setPtr .next a v)
def setHead (a : Addr) (v : Option Addr) : Prog α Unit := access (.setPtr .head a v)
def setTail (a : Addr) (v : Option Addr) : Prog α Unit := access (.setPtr .tail a v)
def setUp (a : Addr) (v : Option Addr) : Prog α Unit := access (.setPtr .up a v)
def getSize (a : Addr) : Prog α Size := access (.size a)
def setSize (a : Addr) (s : Size) : Prog α Unit := access (.setSize a s)
def getData (a : Addr) : Prog α (Data α) := access (.data a)
def setData (a : Addr) (d : Data α) : Prog α Unit := access (.setData a d)
def rcDrop (o : Addr) : Prog α Unit := access (.rcDrop o)
def vecNode (v i : Nat) : Prog α Addr := access (.vecNode v i)
def logDrop (d : α) : Prog α Unit := access (.logDrop d)
def makeNode (d : Data α) : Prog α Addr := access (.make d)
def newVec (n : Nat) : Prog α Nat := access (.newVec n)
def getRef (v : Nat) : Prog α Nat := access (.getRef v)
def setRef (v n : Nat) : Prog α Unit := access (.setRef v n)
def freeVec (v : Nat) : Prog α Unit := access (.freeVec v)
def bound : Prog α Nat := access .bound

/-- `NodeVec::decr_ref` — node_vec.rs 171-180; `Cell::decr` — rc.rs 40-48: the count is read, then written. -/
def decrRef (v : Nat) : Prog α Unit := do
  let n ← getRef v
  if n = 0 then throw .panic
  else do
    setRef v (n - 1)
    if n - 1 = 0 then freeVec v

/-- `Option::unwrap`: panics on `None`. -/
def unwrap (o : Option β) : Prog α β :=
  match o with
  | some b => pure b
  | none => throw .panic

/-- `Node::data` / `Data::as_ref` — node.rs 112, 72-80 (`unreachable!` is a panic). -/
def dataRef (a : Addr) : Prog α α := do
  match (← getData a).val? with
  | some d => pure d
  | none => throw .panic

/-- `*node.data_mut() = d` — node.rs 115, 82-90: the assignment drops the old value. -/
def dataMutSet (a : Addr) (d : α) : Prog α Unit := do
  match (← getData a) with
  | .piled old o => do setData a (.piled d o); logDrop old
  | .scattered old o => do setData a (.scattered d o); logDrop old
  | _ => throw .panic

/-- `Node::has_no_child` — node.rs 129. -/
def hasNoChild (a : Addr) : Prog α Bool := do return (← getHead a).isNone

/-- `Node::degree` — node.rs 145. -/
def degree (a : Addr) : Prog α Nat := do return (← getSize a).degree

/-- `Node::is_forest` — node.rs 591-597. -/
def isForest (a : Addr) : Prog α Bool := do return (← getData a).isForest

/-- `Node::node_count` — node.rs 157-163. -/
def nodeCount (a : Addr) : Prog α Nat := do
  if (← isForest a) then return (← getSize a).descendants
  else return (← getSize a).descendants + 1

/-- Loop of `Node::parent` — node.rs 181-187. -/
def parentLoop : Nat → Addr → Prog α (Option Addr)
  | 0, _ => throw .fuel
  | k+1, a => do
    match (← getUp a) with
    | some p => do if (← isForest p) then parentLoop k p else return some p
    | none => return none

/-- `Node::parent` — node.rs 178-190. -/
def parent (a : Addr) : Prog α (Option Addr) := do
  let n ← bound
  parentLoop (n + 1) a

/-- `Node::front` / `front_mut` — node.rs 342-350. -/
def front (a : Addr) : Prog α (Option Addr) := getHead a
/-- `Node::back` / `back_mut` — node.rs 354-362. -/
def back (a : Addr) : Prog α (Option Addr) := getTail a

/-- `UncountedRawIter::next` — iter.rs 29-35. -/
def uncountedNext (curr : Option Addr) : Prog α (Option Addr × Option Addr) := do
  match curr with
  | some c => do
    let n ← getNext c
    return (some c, n)
  | none => return (none, none)

/-- `CountedRawIter::next` — iter.rs 68-75. -/
def iterNext (it : RawIter) : Prog α (Option Addr × RawIter) := do
  if it.len = 0 then return (none, it)
  else do
    let (item, curr) ← uncountedNext it.curr
    return (item, ⟨curr, it.len - 1⟩)

/-- `Node::iter` / `Node::iter_mut` — node.rs 313-318, 333-338. -/
def iter (a : Addr) : Prog α RawIter := do
  match (← getHead a) with
  | some c => do return ⟨some c, (← degree a)⟩
  | none => return ⟨none, 0⟩

/-- `Iterator::nth`: `next` called `n` times discarding, then once more (std default method). -/
def iterNth : Nat → RawIter → Prog α (Option Addr × RawIter)
  | 0, it => iterNext it
  | n+1, it => do
    match (← iterNext it) with
    | (some _, it') => iterNth n it'
    | (none, it') => return (none, it')

/-- Collect all remaining items: `while let Some(x) = iterNext it()`, at most `len` of them. -/
def iterCollect : Nat → RawIter → Prog α (List Addr)
  | 0, it => do
    match (← iterNext it) with
    | (some _, _) => throw .fuel
    | (none, _) => return []
  | n+1, it => do
    match (← iterNext it) with
    | (some c, it') => do return c :: (← iterCollect n it')
    | (none, _) => return []

/-- All children of a node, through its iterator. -/
def children (a : Addr) : Prog α (List Addr) := do
  let it ← iter a
  iterCollect it.len it

/-- `Node::connect_next` — node.rs 562-565. -/
def connectNext (a b : Addr) : Prog α Unit := do
  setNext a (some b)
  setPrev b (some a)

/-- Loop of `Node::inc_sizes` — node.rs 571-576. -/
def incLoop : Nat → Option Addr → Nat → Prog α Unit
  | _, none, _ => pure ()
  | 0, some _, _ => throw .fuel
  | k+1, some p, cnt => do
    let s ← getSize p
    setSize p ⟨s.degree, s.descendants + cnt⟩
    incLoop k (← getUp p) cnt

/-- `Node::inc_sizes` — node.rs 567-577. -/
def incSizes (a : Addr) (deg cnt : Nat) : Prog α Unit := do
  let s ← getSize a
  setSize a ⟨s.degree + deg, s.descendants + cnt⟩
  let u ← getUp a
  let n ← bound
  incLoop n u cnt

/-- Loop of `Node::dec_sizes` — node.rs 583-588 (underflow panics). -/
def decLoop : Nat → Option Addr → Nat → Prog α Unit
  | _, none, _ => pure ()
  | 0, some _, _ => throw .fuel
  | k+1, some p, cnt => do
    let s ← getSize p
    if s.descendants < cnt then throw .panic
    else do
      setSize p ⟨s.degree, s.descendants - cnt⟩
      decLoop k (← getUp p) cnt

/-- `Node::dec_sizes` — node.rs 579-589 (underflow panics). -/
def decSizes (a : Addr) (deg cnt : Nat) : Prog α Unit := do
  let s ← getSize a
  if s.degree < deg ∨ s.descendants < cnt then throw .panic
  else do
    setSize a ⟨s.degree - deg, s.descendants - cnt⟩
    let u ← getUp a
    let n ← bound
    decLoop n u cnt

/-- `heap::drop_node` — heap.rs 32-46. The user value is dropped at the end of the `match`. -/
def dropNode (a : Addr) : Prog α Unit := do
  let d ← getData a
  setData a .none
  match d with
  | .none => pure ()
  | .scatteredNone o => rcDrop o
  | .scattered d o => do rcDrop o; logDrop d
  | .piledNone v => decrRef v
  | .piled d v => do decrRef v; logDrop d

/-- `NodeVec::make_node` — node_vec.rs 44-54 (the assignment drops the old data value). -/
def vecMakeNode (v : Nat) (par : Option Addr) (i : Nat) (d : Data α) (s : Size) : Prog α Addr := do
  let a ← vecNode v i
  setUp a par
  setSize a s
  let old ← getData a
  setData a d
  match old.val? with
  | some x => logDrop x
  | none => pure ()
  return a

/-- `NodeVec::make_piled_node` — node_vec.rs 40-42. -/
def makePiledNode (v : Nat) (par : Option Addr) (i : Nat) (d : α) (s : Size) : Prog α Addr :=
  vecMakeNode v par i (.piled d v) s

/-- `NodeVec::append_child` — node_vec.rs 56-65. -/
def appendChild (v : Nat) (par child : Nat) (d : α) (s : Size) : Prog α Unit := do
  let p ← vecNode v par
  let c ← makePiledNode v (some p) child d s
  match (← getTail p) with
  | some t => connectNext t c
  | none => setHead p (some c)
  setTail p (some c)

/-- `Tree::from_node` — tree.rs 63-66. -/
def treeFromNode (a : Addr) : Prog α Addr := do
  setUp a none
  return a

/-- `Node::push_front` — node.rs 377-387. -/
def pushFront (self tree : Addr) : Prog α Unit := do
  setUp tree (some self)
  if (← hasNoChild self) then setTail self (some tree)
  else do
    let hd ← unwrap (← getHead self)
    connectNext tree hd
  setHead self (some tree)
  incSizes self 1 (← nodeCount tree)

/-- `Node::push_back` — node.rs 402-412. -/
def pushBack (self tree : Addr) : Prog α Unit := do
  setUp tree (some self)
  if (← hasNoChild self) then setHead self (some tree)
  else do
    let tl ← unwrap (← getTail self)
    connectNext tl tree
  setTail self (some tree)
  incSizes self 1 (← nodeCount tree)

/-- `Node::pop_front` — node.rs 428-448. -/
def popFront (self : Addr) : Prog α (Option Addr) := do
  match (← getSize self).degree with
  | 0 => return none
  | 1 => do
    let hd ← unwrap (← getHead self)
    setHead self none
    setTail self none
    decSizes self 1 ((← getSize hd).descendants + 1)
    return some (← treeFromNode hd)
  | _ => do
    let hd ← unwrap (← getHead self)
    let newHead ← unwrap (← getNext hd)
    setPrev newHead none
    setNext hd none
    setHead self (some newHead)
    decSizes self 1 ((← getSize hd).descendants + 1)
    return some (← treeFromNode hd)

/-- `Node::pop_back` — node.rs 464-484. -/
def popBack (self : Addr) : Prog α (Option Addr) := do
  match (← getSize self).degree with
  | 0 => return none
  | 1 => do
    let tl ← unwrap (← getTail self)
    setHead self none
    setTail self none
    decSizes self 1 ((← getSize tl).descendants + 1)
    return some (← treeFromNode tl)
  | _ => do
    let tl ← unwrap (← getTail self)
    let newTail ← unwrap (← getPrev tl)
    setNext newTail none
    setPrev tl none
    setTail self (some newTail)
    decSizes self 1 ((← getSize tl).descendants + 1)
    return some (← treeFromNode tl)

/-- `Drop for Tree` / `Drop for Forest`: `while let Some(_) = pop_front() {}` (each popped tree is
dropped) and then `drop_node`.  Fuel bounds both the recursion and the loop. -/
def dropLoop : Nat → Addr → Prog α Unit
  | 0, _ => throw .fuel
  | k+1, r => do
    match (← popFront r) with
    | some c => do dropLoop k c; dropLoop k r
    | none => dropNode r

/-- Dropping a `Tree` or `Forest` (tree.rs 244-249, forest.rs 277-282). -/
def dropRoot (r : Addr) : Prog α Unit := do
  let s ← getSize r
  dropLoop (s.descendants + 1) r

/-- Loop of `Forest::set_up` — forest.rs 60-64 (`for_each` over `iter_mut`). -/
def setUpLoop : Nat → RawIter → Addr → Prog α Unit
  | 0, it, _ => do
    match (← iterNext it) with
    | (some _, _) => throw .fuel
    | (none, _) => pure ()
  | k+1, it, par => do
    match (← iterNext it) with
    | (some c, it') => do setUp c (some par); setUpLoop k it' par
    | (none, _) => pure ()

/-- `Forest::set_up` — forest.rs 60-64. -/
def forestSetUp (f par : Addr) : Prog α Unit := do
  let it ← iter f
  setUpLoop it.len it par

/-- `Forest::clear` — forest.rs 66-73. -/
def forestClear (f : Addr) : Prog α Unit := do
  setHead f none
  setTail f none
  setSize f .default

/-- `Node::prepend` — node.rs 501-514; the consumed forest is dropped at the end. -/
def prepend (self forest : Addr) : Prog α Unit := do
  if !(← hasNoChild forest) then
    forestSetUp forest self
    if (← hasNoChild self) then setTail self (some (← unwrap (← back forest)))
    else do
      let tl ← unwrap (← getTail forest)
      let hd ← unwrap (← getHead self)
      connectNext tl hd
    setHead self (some (← unwrap (← front forest)))
    let s ← getSize forest
    incSizes self s.degree s.descendants
    forestClear forest
  dropRoot forest

/-- `Node::append` — node.rs 531-544; the consumed forest is dropped at the end. -/
def append (self forest : Addr) : Prog α Unit := do
  if !(← hasNoChild forest) then
    forestSetUp forest self
    if (← hasNoChild self) then setHead self (some (← unwrap (← front forest)))
    else do
      let tl ← unwrap (← getTail self)
      let hd ← unwrap (← getHead forest)
      connectNext tl hd
    setTail self (some (← unwrap (← back forest)))
    let s ← getSize forest
    incSizes self s.degree s.descendants
    forestClear forest
  dropRoot forest

/-- `Node::insert_prev_sib` — node.rs 204-221.  When `self.up.unwrap()` panics, unwinding drops the
argument `sib`. -/
def insertPrevSib (self sib : Addr) : Prog α Unit := do
  match (← getUp self) with
  | none => do dropRoot sib; throw .panic
  | some u => do
    setUp sib (some u)
    match (← getPrev self) with
    | some p => connectNext p sib
    | none => setHead u (some sib)
    connectNext sib self
    incSizes u 1 (← nodeCount sib)

/-- `Node::insert_next_sib` — node.rs 234-251.  When `self.up.unwrap()` panics, unwinding drops the
argument `sib`. -/
def insertNextSib (self sib : Addr) : Prog α Unit := do
  match (← getUp self) with
  | none => do dropRoot sib; throw .panic
  | some u => do
    setUp sib (some u)
    match (← getNext self) with
    | some n => connectNext sib n
    | none => setTail u (some sib)
    connectNext self sib
    incSizes u 1 (← nodeCount sib)

/-- `Node::detach` — node.rs 263-294. -/
def detach (self : Addr) : Prog α Addr := do
  let u ← unwrap (← getUp self)
  match (← getSize u).degree with
  | 1 => do
    setHead u none
    setTail u none
  | _ => do
    if (← getPrev self).isNone then
      let n ← unwrap (← getNext self)
      setPrev n none
      setHead u (some n)
      setNext self none
    else if (← getNext self).isNone then
      let p ← unwrap (← getPrev self)
      setNext p none
      setTail u (some p)
      setPrev self none
    else
      let p ← unwrap (← getPrev self)
      let n ← unwrap (← getNext self)
      connectNext p n
      setPrev self none
      setNext self none
  decSizes u 1 (← nodeCount self)
  setUp self none
  return self

/-- `Tree::new` — tree.rs 29-34. -/
def treeNew (d : α) : Prog α Addr := makeNode (.scattered d 0)

/-- `Forest::new` — forest.rs 31-33. -/
def forestNew : Prog α Addr := makeNode (.scatteredNone 0)

/-- `Tree::abandon` — tree.rs 175-183: returns (new root of the tree, the forest). -/
def abandon (root : Addr) : Prog α (Addr × Addr) := do
  match (← getData root).take with
  | some (rest, d) => do
    setData root rest
    let newRoot ← makeNode (.scattered d 0)
    return (newRoot, root)
  | none => throw .panic

/-- `Tree::into_data` with `Data::into_inner` — tree.rs 57-61, node.rs 57-69. -/
def intoData (root : Addr) : Prog α α := do
  let d ← getData root
  setData root .none
  match d with
  | .piled d v => do decrRef v; return d
  | .scattered d o => do rcDrop o; return d
  | _ => throw .panic

/-- `IntoIterator for Tree` — into_iter.rs 34-43. The result is the `IntoIter`'s forest. -/
def treeIntoIter (root : Addr) : Prog α Addr := do
  let f ← forestNew
  pushBack f root
  return f

/-- Loop of `Drop for IntoIter` — into_iter.rs 28-32: `for _ in self.by_ref() {}`. -/
def intoIterDropLoop : Nat → Addr → Prog α Unit
  | 0, _ => throw .fuel
  | k+1, f => do
    match (← popFront f) with
    | some c => do dropRoot c; intoIterDropLoop k f
    | none => pure ()

/-- `Drop for IntoIter` — into_iter.rs 28-32, followed by the drop of its field `forest`. -/
def intoIterDrop (f : Addr) : Prog α Unit := do
  let s ← getSize f
  intoIterDropLoop (s.degree + 1) f
  dropRoot f



variable {ι κ δ σ : Type}

/-- What `Splitted` uses of its iterator type `ι` (`ExactSizeIterator`) and of its item type `κ`
(`Split`) — bfs.rs 146-152, 171-173; `drop` is the destructor of the iterator. -/
structure Src (α ι κ δ : Type) where
  next : ι → Prog α (Option κ × ι)
  len : ι → Prog α Nat
  drop : ι → Prog α Unit
  split : κ → Prog α (δ × ι × Nat)

/-- `Iterator for Splitted` — bfs.rs 177-194; the state is the queue of iterators. -/
def splittedNext (S : Src α ι κ δ) : List ι → Prog α (Option (δ × Size) × List ι)
  | [] => pure (none, [])
  | it :: rest => do
    match (← S.next it) with
    | (some k, it') => do
      let (d, ch, desc) ← S.split k
      let n ← S.len ch
      return (some (d, ⟨n, desc⟩), it' :: rest ++ [ch])
    | (none, it') => do
      S.drop it'
      splittedNext S rest

/-- Dropping a `Splitted`: the queue drops its iterators from front to back (std `VecDeque`). -/
def dropIters (S : Src α ι κ δ) : List ι → Prog α Unit
  | [] => pure ()
  | it :: rest => do S.drop it; dropIters S rest

/-- `&Node` — bfs_impls.rs 127-134; `Iter` has no destructor. -/
def refSrc : Src α RawIter Addr α where
  next := iterNext
  len it := pure it.len
  drop _ := pure ()
  split a := do
    let d ← dataRef a
    let it ← iter a
    return (d, it, (← getSize a).descendants)

/-- `Pin<&mut Node>` — bfs_impls.rs 136-149; the `&mut T` handed out is named by its node. -/
def mutSrc : Src α RawIter Addr Addr where
  next := iterNext
  len it := pure it.len
  drop _ := pure ()
  split a := do
    let desc := (← getSize a).descendants
    let _ ← dataRef a
    let it ← iter a
    return (a, it, desc)

/-- `Tree` — bfs_impls.rs 308-318 (`split`), into_iter.rs 13-32 (`IntoIter`, named by its forest),
45-50. -/
def ownSrc : Src α Addr Addr α where
  next f := do return (← popFront f, f)
  len f := degree f
  drop f := intoIterDrop f
  split t := do
    let desc := (← getSize t).descendants
    let (newRoot, forest) ← abandon t
    let d ← intoData newRoot
    return (d, forest, desc)

/-- `BfsTree::map` / `BfsForest::map` — bfs.rs 47-55, 91-99. The closure is `FnMut`, so what it does may
differ from call to call: its `i`-th call is `f i`, and the state counts the calls. -/
def mapNext (f : Nat → δ → κ) (nxt : σ → Prog α (Option (δ × Size) × σ)) (s : σ × Nat) : Prog α (Option (κ × Size) × (σ × Nat)) := do
  let (o, s') ← nxt s.1
  match o with
  | some v => return (some (f s.2 v.1, v.2), (s', s.2 + 1))
  | none => return (none, (s', s.2))

/-- A client calling `next()` `k` times. -/
def driveVisits (nxt : σ → Prog α (Option (δ × Size) × σ)) : Nat → σ → Prog α (List (Option (δ × Size)) × σ)
  | 0, s => pure ([], s)
  | k+1, s => do
    let (o, s') ← nxt s
    let (os, s'') ← driveVisits nxt k s'
    return (o :: os, s'')

/-- Inner loop `while remains == 0` — bfs_impls.rs 294-300, 343-349: returns `(parent, remains)`. -/
def fillInner (v : Nat) : Nat → Nat → Nat → Prog α (Nat × Nat)
  | 0, _, _ => throw .fuel
  | k+1, par, child => do
    let a ← vecNode v (par + 1)
    let r ← degree a
    if par + 1 = child then return (par + 1, r)
    else if r = 0 then fillInner v k (par + 1) child
    else return (par + 1, r)

/-- Loop of `From<BfsTree> for Tree` and `From<BfsForest> for Forest` — bfs_impls.rs 289-302,
338-351 (`remains -= 1` panics on underflow). -/
def fillLoop (nxt : σ → Prog α (Option (α × Size) × σ)) (v : Nat) : Nat → σ → Nat → Nat → Nat → Prog α σ
  | 0, _, _, _, _ => throw .fuel
  | k+1, s, par, child, remains => do
    match (← nxt s) with
    | (none, s') => return s'
    | (some (d, sz), s') => do
      appendChild v par child d sz
      if remains = 0 then throw .panic
      else if remains - 1 = 0 then do
        let (par', remains') ← fillInner v (child + 1) par child
        fillLoop nxt v k s' par' (child + 1) remains'
      else fillLoop nxt v k s' par (child + 1) (remains - 1)

/-- `From<BfsTree> for Tree` — bfs_impls.rs 274-305; `drp` drops the exhausted iterator. -/
def treeFromBfs (nxt : σ → Prog α (Option (α × Size) × σ)) (drp : σ → Prog α Unit) (s : σ) : Prog α Addr := do
  let (o, s1) ← nxt s
  let (d, sz) ← unwrap o
  let v ← newVec sz.descendants
  let _ ← makePiledNode v none 0 d sz
  let s2 ← fillLoop nxt v (sz.descendants + 1) s1 0 1 sz.degree
  let a ← vecNode v 0
  let r ← treeFromNode a
  drp s2
  return r

/-- `From<BfsForest> for Forest` — bfs_impls.rs 323-354. -/
def forestFromBfs (nxt : σ → Prog α (Option (α × Size) × σ)) (drp : σ → Prog α Unit) (s : σ) (sz : Size) : Prog α Addr := do
  let v ← newVec sz.descendants
  let _ ← vecMakeNode v none 0 (.piledNone v) sz
  let s2 ← fillLoop nxt v (sz.descendants + 1) s 0 1 sz.degree
  let a ← vecNode v 0
  drp s2
  return a

/-- The iterator of `Node::bfs_children`, `Forest::bfs` — bfs_impls.rs 69, 165; `bfs_children_mut`,
`Forest::bfs_mut` — 85-88, 180-183. -/
def bfsChildrenStart (a : Addr) : Prog α (List RawIter) := do return [← iter a]

/-- `Tree::from(node.bfs().map(f))`; with the constant `f = T::clone` this is `Node::deep_clone` —
bfs_impls.rs 21-31 — and `Tree::clone` — tree.rs 232-236. (`f` maps into the same type: the
heap of the model holds values of one type.) -/
def mapBfs (f : Nat → α → α) (a : Addr) : Prog α Addr :=
  treeFromBfs (mapNext f (splittedNext refSrc)) (fun s => dropIters refSrc s.1) (bfsStart a, 0)

/-- `Forest::from(node.bfs_children().map(f))`; with `f = T::clone` this is
`Node::deep_clone_forest` — bfs_impls.rs 44-54 — and `Forest::clone` — forest.rs 284-288. -/
def mapBfsForest (f : Nat → α → α) (a : Addr) : Prog α Addr := do
  let s ← bfsChildrenStart a
  let sz ← getSize a
  forestFromBfs (mapNext f (splittedNext refSrc)) (fun s => dropIters refSrc s.1) (s, 0) sz

/-- `Tree::from(tree.into_bfs().map(f))` — bfs_impls.rs 265-268, 274-305. -/
def rebuildTree (f : Nat → α → α) (t : Addr) : Prog α Addr := do
  let it ← treeIntoIter t
  treeFromBfs (mapNext f (splittedNext ownSrc)) (fun s => dropIters ownSrc s.1) ([it], 0)

/-- `Forest::from(forest.into_bfs().map(f))` — bfs_impls.rs 208-211, 323-354. -/
def rebuildForest (f : Nat → α → α) (a : Addr) : Prog α Addr := do
  let sz ← getSize a
  forestFromBfs (mapNext f (splittedNext ownSrc)) (fun s => dropIters ownSrc s.1) ([a], 0) sz

/-- `k` calls of `next()` on `into_bfs().iter`, then the iterator is dropped. -/
def intoBfsDrive (k : Nat) (it : Addr) : Prog α (List (Option (α × Size))) := do
  let (os, s) ← driveVisits (splittedNext ownSrc) k [it]
  dropIters ownSrc s
  return os

/-- In-place update through the `&mut T` of a visit (`Data::as_mut`, node.rs 82-90). -/
def modifyData (a : Addr) (g : α → α) : Prog α Unit := do
  match (← getData a) with
  | .piled d o => setData a (.piled (g d) o)
  | .scattered d o => setData a (.scattered (g d) o)
  | _ => throw .panic

/-- A client calling `next()` on a mutable breadth-first iterator `k` times, reading the data of each
visit and updating it in place, the data of the `j`-th visit with `f j`, `j = i, i+1, …`. -/
def driveMut (f : Nat → α → α) : Nat → Nat → List RawIter → Prog α (List (Option (α × Size)))
  | 0, _, _ => pure []
  | k+1, i, s => do
    let (o, s') ← splittedNext mutSrc s
    match o with
    | some (a, sz) => do
      let d ← dataRef a
      modifyData a (f i)
      let os ← driveMut f k (i + 1) s'
      return some (d, sz) :: os
    | none => do
      let os ← driveMut f k (i + 1) s'
      return none :: os



/-- `offsets[ i ]` panics when out of range. -/
def idx (xs : List Nat) (i : Nat) : Prog α Nat :=
  match xs[i]? with
  | some x => pure x
  | none => throw .panic

/-- `offsets[ i ] += 1`. -/
def bump (xs : List Nat) (i : Nat) : Prog α (List Nat) :=
  match xs[i]? with
  | some x => pure (xs.set i (x + 1))
  | none => throw .panic

/-- The closure after the root — node_vec.rs 96-118 (tree: `guard` is true), 145-166 (forest: false).
Underflow of `depth - 1` panics. -/
def placeVisit (guard : Bool) (v : Nat) (c : Cursor) (visit : Visit α) (size : Size) : Prog α Cursor := do
  match visit with
  | .branch d => do
    let i ← idx c.offsets c.depth
    appendChild v c.parent i d size
    let i ← idx c.offsets c.depth
    return { c with parent := i, depth := c.depth + 1 }
  | .leaf d => do
    let i ← idx c.offsets c.depth
    appendChild v c.parent i d size
    let offsets ← bump c.offsets c.depth
    return { c with offsets := offsets, leaf := true }
  | .frame =>
    if c.depth = 0 then throw .panic
    else if c.leaf then do
      let offsets ← bump c.offsets (c.depth - 1)
      if guard && c.depth - 1 = 0 then
        return { c with depth := c.depth - 1, leaf := false, offsets := offsets }
      else if c.depth - 1 = 0 then throw .panic
      else do
        let p ← idx offsets (c.depth - 1 - 1)
        return { c with depth := c.depth - 1, leaf := false, offsets := offsets, parent := p }
    else return { c with depth := c.depth - 1 }

/-- The calls of the closure, in order. -/
def placeAll (guard : Bool) (v : Nat) : Cursor → List (Visit α × Size) → Prog α Cursor
  | c, [] => pure c
  | c, (visit, size) :: rest => do
    let c' ← placeVisit guard v c visit size
    placeAll guard v c' rest

/-- `NodeVec::construct_tree` — node_vec.rs 67-122: the first call of the closure (87-94) makes the root;
a first visit `Frame` is `unreachable!()`. -/
def constructTree (v : Nat) (t : Tup α) : Prog α Unit := do
  let c : Cursor := ⟨false, 0, 1, initOffsets t.height t.descendants⟩
  match t.preorderWithSizeHint with
  | [] => return ()
  | (visit, size) :: rest => do
    match visit.data? with
    | none => throw .panic
    | some d => do
      let _ ← makePiledNode v none 0 d size
      let _ ← placeAll true v c rest
      return ()

/-- `NodeVec::construct_forest` — node_vec.rs 124-169. -/
def constructForest (v : Nat) (ts : List (Tup α)) : Prog α Unit := do
  let c : Cursor := ⟨false, 0, 1, initOffsets (forestHeight ts + 1) (forestDescendants ts)⟩
  let _ ← vecMakeNode v none 0 (.piledNone v) (forestSize ts)
  let _ ← placeAll false v c (Tup.preorderWithSizeHintL ts)
  return ()

/-- `Tree::from_tuple` — tree.rs 47-55. -/
def treeFromTuple (t : Tup α) : Prog α Addr := do
  let v ← newVec t.size.descendants
  constructTree v t
  let a ← vecNode v 0
  treeFromNode a

/-- `Forest::from_tuple` — forest.rs 46-54, 56-58. -/
def forestFromTuple (ts : List (Tup α)) : Prog α Addr := do
  let v ← newVec (forestSize ts).descendants
  constructForest v ts
  vecNode v 0



/-- Reaching the node at a path: `node.iter().nth(i)` / `node.iter_mut().nth(i)` repeatedly
(node.rs 313-338, iter.rs 105-149). -/
def locate : Addr → Path → Prog α (Option Addr)
  | a, [] => pure (some a)
  | a, i :: p => do
    let it ← iter a
    match (← iterNth i it) with
    | (some c, _) => locate c p
    | (none, _) => return none

/-- Read every element of a list of nodes. -/
def readMany (f : Addr → Prog α β) : List Addr → Prog α (List β)
  | [] => pure []
  | c :: cs => do
    let t ← f c
    let ts ← readMany f cs
    return t :: ts

/-- `node.bfs()` and `k` calls of `next()` — bfs_impls.rs 103-105. -/
def bfsRun (k : Nat) (a : Addr) : Prog α (Size × List (Option (α × Size))) := do
  let d := (← getSize a).descendants
  let (os, _) ← driveVisits (splittedNext refSrc) k (bfsStart a)
  return (⟨1, d⟩, os)

/-- `node.bfs_children()` and `k` calls of `next()` — bfs_impls.rs 69, 165. -/
def bfsChildrenRun (k : Nat) (a : Addr) : Prog α (Size × List (Option (α × Size))) := do
  let s ← bfsChildrenStart a
  let sz ← getSize a
  let (os, _) ← driveVisits (splittedNext refSrc) k s
  return (sz, os)

/-- `node.bfs_mut()` and `k` calls of `next()`, updating each visit — bfs_impls.rs 121-124. -/
def bfsMutRun (f : Nat → α → α) (k : Nat) (a : Addr) : Prog α (Size × List (Option (α × Size))) := do
  let d := (← getSize a).descendants
  let os ← driveMut f k 0 (bfsStart a)
  return (⟨1, d⟩, os)

/-- `node.bfs_children_mut()` — bfs_impls.rs 85-88, 180-183. -/
def bfsChildrenMutRun (f : Nat → α → α) (k : Nat) (a : Addr) : Prog α (Size × List (Option (α × Size))) := do
  let sz ← getSize a
  let s ← bfsChildrenStart a
  let os ← driveMut f k 0 s
  return (sz, os)

/-- `tree.into_bfs()`, `k` calls of `next()`, then dropped — bfs_impls.rs 265-268. -/
def intoBfsTreeRun (k : Nat) (t : Addr) : Prog α (Size × List (Option (α × Size))) := do
  let d := (← getSize t).descendants
  let it ← treeIntoIter t
  let os ← intoBfsDrive k it
  return (⟨1, d⟩, os)

/-- `forest.into_bfs()` — bfs_impls.rs 208-211. -/
def intoBfsForestRun (k : Nat) (a : Addr) : Prog α (Size × List (Option (α × Size))) := do
  let sz ← getSize a
  let os ← intoBfsDrive k a
  return (sz, os)

/-- The variables of a thread. -/
structure Vars where
  env : Var → Option Handle
  fresh : Nat

namespace Vars

/-- Run code of the crate; `env` is the environment if it panics (compare `Machine.runA`). -/
def run (m : Vars) (env : Var → Option Handle) (c : Prog α β) (k : β → Prog α (Outcome Vars α)) : Prog α (Outcome Vars α) :=
  c.catch_ k fun e => match e with
    | .panic => .ret (.panic ⟨env, m.fresh⟩)
    | .alloc => .fail .alloc
    | _ => .ret .bad

/-- Find the node at `p` in variable `x` (a tree or forest). -/
def onKids (m : Vars) (x : Var) (p : Path) (k : Handle → Addr → Prog α (Outcome Vars α)) : Prog α (Outcome Vars α) :=
  match m.env x with
  | none => .ret .rejected
  | some hd => if hd.isIter then .ret .rejected else
    m.run m.env (locate hd.addr p) fun o =>
      match o with
      | none => .ret (.ok m .absent)
      | some n => k hd n

/-- Find a proper node. -/
def onNode (m : Vars) (x : Var) (l : Loc) (k : Addr → Prog α (Outcome Vars α)) : Prog α (Outcome Vars α) :=
  match m.env x with
  | none => .ret .rejected
  | some hd => if hd.isIter then .ret .rejected else
    match l with
    | .root => match hd with
      | .tree r => k r
      | _ => .ret .rejected
    | .child q i => m.run m.env (locate hd.addr (q ++ [i])) fun o =>
      match o with
      | none => .ret (.ok m .absent)
      | some n => k n

def takeTree (m : Vars) (x y : Var) (k : Addr → Prog α (Outcome Vars α)) : Prog α (Outcome Vars α) :=
  if x = y then .ret .rejected else
  match m.env y with
  | some (.tree t) => k t
  | _ => .ret .rejected

def takeForest (m : Vars) (x y : Var) (k : Addr → Prog α (Outcome Vars α)) : Prog α (Outcome Vars α) :=
  if x = y then .ret .rejected else
  match m.env y with
  | some (.forest t) => k t
  | _ => .ret .rejected

def setEnv (m : Vars) (x : Var) (v : Option Handle) : Var → Option Handle := upd m.env x v

/-- Normal return. -/
def ret (m : Vars) (env : Var → Option Handle) (o : Out α) : Prog α (Outcome Vars α) := .ret (.ok ⟨env, m.fresh⟩ o)

/-- Normal return binding the fresh variable. -/
def retVar (m : Vars) (env : Var → Option Handle) (hd : Handle) : Prog α (Outcome Vars α) :=
  .ret (.ok ⟨upd env m.fresh (some hd), m.fresh + 1⟩ (.var m.fresh))

/-- Return the result of a pop. -/
def retPop (m : Vars) : Option Addr → Prog α (Outcome Vars α)
  | none => m.ret m.env .none
  | some c => m.retVar m.env (.tree c)

end Vars

/-- One call of the API (compare `stepA`, `step`). -/
def step (m : Vars) : Op α → Prog α (Outcome Vars α)
  | .treeNew d => m.run m.env (treeNew d) fun a => m.retVar m.env (.tree a)
  | .forestNew => m.run m.env forestNew fun a => m.retVar m.env (.forest a)
  | .pushFront x p y => m.takeTree x y fun t => m.onKids x p fun _ n =>
      m.run (m.setEnv y none) (pushFront n t) fun _ => m.ret (m.setEnv y none) .unit
  | .pushBack x p y => m.takeTree x y fun t => m.onKids x p fun _ n =>
      m.run (m.setEnv y none) (pushBack n t) fun _ => m.ret (m.setEnv y none) .unit
  | .popFront x p => m.onKids x p fun _ n => m.run m.env (popFront n) fun o => m.retPop o
  | .popBack x p => m.onKids x p fun _ n => m.run m.env (popBack n) fun o => m.retPop o
  | .prepend x p y => m.takeForest x y fun f => m.onKids x p fun _ n =>
      m.run (m.setEnv y none) (prepend n f) fun _ => m.ret (m.setEnv y none) .unit
  | .append x p y => m.takeForest x y fun f => m.onKids x p fun _ n =>
      m.run (m.setEnv y none) (append n f) fun _ => m.ret (m.setEnv y none) .unit
  | .insertPrevSib x l y => m.takeTree x y fun t => m.onNode x l fun n =>
      m.run (m.setEnv y none) (insertPrevSib n t) fun _ => m.ret (m.setEnv y none) .unit
  | .insertNextSib x l y => m.takeTree x y fun t => m.onNode x l fun n =>
      m.run (m.setEnv y none) (insertNextSib n t) fun _ => m.ret (m.setEnv y none) .unit
  | .detach x l => m.onNode x l fun n => m.run m.env (detach n) fun c => m.retVar m.env (.tree c)
  | .abandon x => match m.env x with
      | some (.tree r) => m.run m.env (abandon r) fun q =>
          m.retVar (m.setEnv x (some (.tree q.1))) (.forest q.2)
      | _ => .ret .rejected
  | .setData x l d => m.onNode x l fun n =>
      m.run m.env (dataMutSet n d) fun _ => m.ret m.env .unit
  | .drop x => match m.env x with
      | some (.iter f) => m.run (m.setEnv x none) (intoIterDrop f) fun _ =>
          m.ret (m.setEnv x none) .unit
      | some hd => m.run (m.setEnv x none) (dropRoot hd.addr) fun _ =>
          m.ret (m.setEnv x none) .unit
      | none => .ret .rejected
  | .intoIter x => match m.env x with
      | some (.tree r) => m.run (m.setEnv x none) (treeIntoIter r) fun f =>
          m.retVar (m.setEnv x none) (.iter f)
      | some (.forest f) => m.retVar (m.setEnv x none) (.iter f)
      | _ => .ret .rejected
  | .iterNext x => match m.env x with
      | some (.iter f) => m.run m.env (popFront f) fun o => m.retPop o
      | _ => .ret .rejected
  | .iterLen x => match m.env x with
      | some (.iter f) => m.run m.env (degree f) fun n => m.ret m.env (.nat n)
      | _ => .ret .rejected
  | .data x l => m.onNode x l fun n =>
      m.run m.env (dataRef n) fun d => m.ret m.env (.item (some d))
  | .degree x p => m.onKids x p fun _ n => m.run m.env (degree n) fun k => m.ret m.env (.nat k)
  | .nodeCount x p => m.onKids x p fun _ n =>
      m.run m.env (nodeCount n) fun k => m.ret m.env (.nat k)
  | .hasNoChild x p => m.onKids x p fun _ n =>
      m.run m.env (hasNoChild n) fun b => m.ret m.env (.bool b)
  | .childData x p => m.onKids x p fun _ n =>
      m.run m.env (do readMany dataRef (← children n)) fun ds => m.ret m.env (.items ds)
  | .frontData x p => m.onKids x p fun _ n =>
      m.run m.env (do match (← front n) with
        | some c => do return some (← dataRef c)
        | none => return none) fun o => m.ret m.env (.item o)
  | .backData x p => m.onKids x p fun _ n =>
      m.run m.env (do match (← back n) with
        | some c => do return some (← dataRef c)
        | none => return none) fun o => m.ret m.env (.item o)
  | .mapBfs x l f => m.onNode x l fun n =>
      m.run m.env (mapBfs f n) fun a => m.retVar m.env (.tree a)
  | .mapBfsForest x p f => m.onKids x p fun _ n =>
      m.run m.env (mapBfsForest f n) fun a => m.retVar m.env (.forest a)
  | .rebuild x f => match m.env x with
      | some (.tree r) => m.run (m.setEnv x none) (rebuildTree f r) fun a =>
          m.retVar (m.setEnv x none) (.tree a)
      | some (.forest r) => m.run (m.setEnv x none) (rebuildForest f r) fun a =>
          m.retVar (m.setEnv x none) (.forest a)
      | _ => .ret .rejected
  | .bfs x l k => m.onNode x l fun n =>
      m.run m.env (bfsRun k n) fun q => m.ret m.env (outVisits q)
  | .bfsChildren x p k => m.onKids x p fun _ n =>
      m.run m.env (bfsChildrenRun k n) fun q => m.ret m.env (outVisits q)
  | .intoBfs x k => match m.env x with
      | some (.tree r) => m.run (m.setEnv x none) (intoBfsTreeRun k r) fun q =>
          m.ret (m.setEnv x none) (outVisits q)
      | some (.forest r) => m.run (m.setEnv x none) (intoBfsForestRun k r) fun q =>
          m.ret (m.setEnv x none) (outVisits q)
      | _ => .ret .rejected
  | .bfsMut x l k f => m.onNode x l fun n =>
      m.run m.env (bfsMutRun f k n) fun q => m.ret m.env (outVisits q)
  | .bfsChildrenMut x p k f => m.onKids x p fun _ n =>
      m.run m.env (bfsChildrenMutRun f k n) fun q => m.ret m.env (outVisits q)
  | .treeFromTuple t => if t.good then
      m.run m.env (treeFromTuple t) fun a => m.retVar m.env (.tree a) else .ret .rejected
  | .forestFromTuple ts => if Tup.goodL ts then
      m.run m.env (forestFromTuple ts) fun a => m.retVar m.env (.forest a) else .ret .rejected

/-- A whole client program, as one program of accesses: calls that the compiler rejects are skipped, panics are caught (compare
`execA`). The result: the variables at the end, and the outcomes of the calls. -/
def exec : Vars → List (Op α) → Prog α (Vars × List (Outcome Unit α))
  | m, [] => .ret (m, [])
  | m, op :: ops => (step m op).bind fun r =>
    match r with
    | .ok m' o => (exec m' ops).bind fun q => .ret (q.1, .ok () o :: q.2)
    | .panic m' => (exec m' ops).bind fun q => .ret (q.1, .panic () :: q.2)
    | .rejected => (exec m ops).bind fun q => .ret (q.1, .rejected :: q.2)
    | .bad => (exec m ops).bind fun q => .ret (q.1, .bad :: q.2)

end Fine
end Trees
