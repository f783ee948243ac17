/-
The heap, the state/error monad and the primitive accesses.
-/
namespace Trees

/-- Addresses of `Node<T>` values. Never reused (simplification: allocation returns fresh memory; Model/Alloc.lean and
Props/Alloc.lean show that reuse changes nothing). -/
abbrev Addr := Nat

/-- `Size` — /repo/src/size.rs 7-11 (`usize` is modelled by `Nat`, no wrap-around above). -/
structure Size where
  degree : Nat
  descendants : Nat
deriving DecidableEq, Repr

/-- `Default for Size` (derived) — size.rs 7. -/
def Size.default : Size := ⟨0, 0⟩

/-- `Data<T>` — node.rs 13-19; `none` is also `Data::default()` (node.rs 21-23).  `owner` of the scattered variants is the address of the `Rc` box,
identified with the address of the node in it; `owner` of the piled variants names the `NodeVec`. -/
inductive Data (α : Type) where
  | none
  | scatteredNone (owner : Addr)
  | scattered (data : α) (owner : Addr)
  | piledNone (owner : Nat)
  | piled (data : α) (owner : Nat)

/-- `NodeVec<T>` — node_vec.rs 10-13: slot `i` of `buf` is the node at address `base + i`,
`cap` is the length of `buf`. -/
structure NodeVec where
  base : Addr
  cap : Nat
  refCnt : Nat

/-- Memory. One array per field of `Node<T>` (node.rs 94-102), plus the strong count of the `Rc`
(or of `Shared`, rc.rs 8-11), the `RefCell` flag (`0` free, `n>0` shared borrows, `-1` exclusive),
the table of `NodeVec`s and the log of user data whose destructor has run. -/
structure Heap (α : Type) where
  live : Addr → Bool
  prev : Addr → Option Addr
  next : Addr → Option Addr
  head : Addr → Option Addr
  tail : Addr → Option Addr
  up : Addr → Option Addr
  size : Addr → Size
  data : Addr → Data α
  count : Addr → Nat
  borrow : Addr → Int
  vec : Nat → Option NodeVec
  nextAddr : Nat
  nextVec : Nat
  log : List α

/-- Empty memory. -/
def Heap.empty {α : Type} : Heap α where
  live _ := false
  prev _ := none
  next _ := none
  head _ := none
  tail _ := none
  up _ := none
  size _ := .default
  data _ := .none
  count _ := 0
  borrow _ := 0
  vec _ := none
  nextAddr := 0
  nextVec := 0
  log := []

/-- `panic`: unwinding (`unwrap` on `None`, `unreachable!`, `assert!`, arithmetic underflow,
`RefCell` conflict).  `ub`: access to memory that is not a live node (undefined behaviour).
`fuel`: a modelled loop did not terminate within its budget.  `alloc`: the allocator handed out memory
that is in use (only in Model/Alloc). -/
inductive Err where
  | panic | ub | fuel | alloc
deriving DecidableEq, Repr

inductive Res (σ β : Type) where
  | ok (b : β) (s : σ)
  | err (e : Err) (s : σ)

/-- Programs over the heap. -/
def M (α β : Type) := Heap α → Res (Heap α) β

namespace Res
variable {σ β γ : Type}
def bind (x : Res σ β) (f : β → σ → Res σ γ) : Res σ γ :=
  match x with
  | ok b s => f b s
  | err e s => err e s
@[simp] theorem bind_ok (b : β) (s : σ) (f : β → σ → Res σ γ) : (ok b s).bind f = f b s := rfl
@[simp] theorem bind_err (e) (s : σ) (f : β → σ → Res σ γ) : (err e s).bind f = err e s := rfl
end Res

namespace M
variable {α β γ : Type}
protected def pure (b : β) : M α β := fun h => .ok b h
protected def bind (x : M α β) (f : β → M α γ) : M α γ := fun h => (x h).bind (fun b s => f b s)
instance : Monad (M α) where
  pure := M.pure
  bind := M.bind
def throw (e : Err) : M α β := fun h => .err e h

/-- A program whose loop budget is computed from the current heap. -/
def fuelled (f : Heap α → M α β) : M α β := fun h => f h h

@[simp] theorem fuelled_apply (f : Heap α → M α β) (h : Heap α) : fuelled f h = f h h := rfl
@[simp] theorem pure_apply (b : β) (h : Heap α) : (pure b : M α β) h = .ok b h := rfl
@[simp] theorem bind_apply (x : M α β) (f : β → M α γ) (h : Heap α) :
    (x >>= f) h = (x h).bind (fun b s => f b s) := rfl
@[simp] theorem throw_apply (e : Err) (h : Heap α) : (throw e : M α β) h = .err e h := rfl
@[simp] theorem map_apply (f : β → γ) (x : M α β) (h : Heap α) :
    (f <$> x) h = (x h).bind (fun b s => .ok (f b) s) := rfl
end M

/-- Point update of a field array. -/
def upd {β : Type} (f : Addr → β) (a : Addr) (v : β) : Addr → β := fun x => if x = a then v else f x

@[simp] theorem upd_self {β : Type} (f : Addr → β) (a : Addr) (v : β) : upd f a v a = v := by simp [upd]
theorem upd_of_ne {β : Type} (f : Addr → β) {a x : Addr} (v : β) (hx : x ≠ a) : upd f a v x = f x := by
  simp [upd, hx]
theorem upd_apply {β : Type} (f : Addr → β) (a : Addr) (v : β) (x : Addr) :
    upd f a v x = if x = a then v else f x := rfl

section prims
variable {α β : Type}

/-- Read a field through a pointer: undefined behaviour if the node is not live. -/
def rd (f : Heap α → Addr → β) (a : Addr) : M α β :=
  fun h => if h.live a then .ok (f h a) h else .err .ub h

/-- Write through a pointer: undefined behaviour if the node is not live. -/
def wr (f : Heap α → Heap α) (a : Addr) : M α Unit :=
  fun h => if h.live a then .ok () (f h) else .err .ub h

def setPrev (a : Addr) (v : Option Addr) : M α Unit := wr (fun h => { h with prev := upd h.prev a v }) a
def setNext (a : Addr) (v : Option Addr) : M α Unit := wr (fun h => { h with next := upd h.next a v }) a
def setHead (a : Addr) (v : Option Addr) : M α Unit := wr (fun h => { h with head := upd h.head a v }) a
def setTail (a : Addr) (v : Option Addr) : M α Unit := wr (fun h => { h with tail := upd h.tail a v }) a
def setUp (a : Addr) (v : Option Addr) : M α Unit := wr (fun h => { h with up := upd h.up a v }) a
def setSize (a : Addr) (v : Size) : M α Unit := wr (fun h => { h with size := upd h.size a v }) a
def setData (a : Addr) (v : Data α) : M α Unit := wr (fun h => { h with data := upd h.data a v }) a

/-- `Option::unwrap`: panics on `None`. -/
def unwrap (o : Option β) : M α β :=
  match o with
  | some b => pure b
  | none => M.throw .panic

/-- The destructor of a user value runs (recorded in the log). -/
def logDrop (d : α) : M α Unit := fun h => .ok () { h with log := h.log ++ [d] }

@[simp] theorem rd_ok {f : Heap α → Addr → β} {a : Addr} {h : Heap α} (hl : h.live a = true) :
    rd f a h = .ok (f h a) h := by simp [rd, hl]
@[simp] theorem wr_ok {f : Heap α → Heap α} {a : Addr} {h : Heap α} (hl : h.live a = true) :
    wr f a h = .ok () (f h) := by simp [wr, hl]
@[simp] theorem unwrap_some (b : β) : (unwrap (some b) : M α β) = pure b := rfl
@[simp] theorem unwrap_none : (unwrap none : M α β) = M.throw .panic := rfl

end prims

/-! ### `Data<T>` accessors -/
namespace Data
variable {α : Type}

/-- The user value stored, if any. -/
def val? : Data α → Option α
  | scattered d _ => some d
  | piled d _ => some d
  | _ => Option.none

/-- `Data::is_none` — node.rs 26-31. -/
def isNone : Data α → Bool
  | none => true
  | _ => false

/-- `Node::is_forest` on the data field — node.rs 591-597. -/
def isForest : Data α → Bool
  | piledNone _ => true
  | scatteredNone _ => true
  | _ => false

/-- `Data::take` — node.rs 33-51: what is left behind and the value; `none` is `unreachable!`. -/
def take : Data α → Option (Data α × α)
  | scattered d o => some (scatteredNone o, d)
  | piled d o => some (piledNone o, d)
  | _ => Option.none

end Data

end Trees
