import Verif.Model.Rc
/-
`PartialEq`, `PartialOrd`, `Ord`, `Hash`, `Display` for `RcNode` — macros.rs 113-176, instantiated at rc.rs 519-521 with
`iter_rc` and `data().deref()`. Every visited node is borrowed (`data()`, `iter_rc()`, `has_no_child()`), every visited
child is a new handle (`IterRc::next`) that is dropped afterwards, also by unwinding.
-/
namespace Trees
variable {α β σ : Type}

/-- An access to the data through a temporary `Ref` (`self.data().deref()` — rc.rs 170), released afterwards. -/
def withData (r : RcRef) (f : α → M α β) : M α β := do
  let a ← guardShared r
  finally_ (do f (← dataRef a)) (releaseShared a)

/-- A block that owns the handle `r` and drops it at its end. -/
def withHandle (r : RcRef) (c : M α β) : M α β := finally_ c (dropHandle r)

/-- `Iterator::eq` (std) on two `IterRc`: both items are owned by the closure that compares them. -/
def iterEqRc (f : RcRef → RcRef → M α Bool) : Nat → RawIter → RawIter → M α Bool
  | 0, _, _ => M.throw .fuel
  | k+1, i, j => do
    match (← iterRcNext i) with
    | (none, _) => do
      match (← iterRcNext j) with
      | (none, _) => return true
      | (some y, _) => withHandle y (return false)
    | (some x, i') => do
      match (← withHandle x (do
        match (← iterRcNext j) with
        | (none, j') => return (false, j')
        | (some y, j') => withHandle y (do return (← f x y, j')))) with
      | (true, j') => iterEqRc f k i' j'
      | (false, _) => return false

/-- `Iterator::partial_cmp` (std) on two `IterRc`. -/
def iterPcmpRc (f : RcRef → RcRef → M α (Option Ordering)) : Nat → RawIter → RawIter → M α (Option Ordering)
  | 0, _, _ => M.throw .fuel
  | k+1, i, j => do
    match (← iterRcNext i) with
    | (none, _) => do
      match (← iterRcNext j) with
      | (none, _) => return some .eq
      | (some y, _) => withHandle y (return some .lt)
    | (some x, i') => do
      match (← withHandle x (do
        match (← iterRcNext j) with
        | (none, j') => return (some .gt, j')
        | (some y, j') => withHandle y (do return (← f x y, j')))) with
      | (some .eq, j') => iterPcmpRc f k i' j'
      | (r, _) => return r

/-- `Iterator::cmp` (std) on two `IterRc`. -/
def iterCmpRc (f : RcRef → RcRef → M α Ordering) : Nat → RawIter → RawIter → M α Ordering
  | 0, _, _ => M.throw .fuel
  | k+1, i, j => do
    match (← iterRcNext i) with
    | (none, _) => do
      match (← iterRcNext j) with
      | (none, _) => return .eq
      | (some y, _) => withHandle y (return .lt)
    | (some x, i') => do
      match (← withHandle x (do
        match (← iterRcNext j) with
        | (none, j') => return (.gt, j')
        | (some y, j') => withHandle y (do return (← f x y, j')))) with
      | (.eq, j') => iterCmpRc f k i' j'
      | (r, _) => return r

/-- `for child in self.iter_rc() { … }` with a state. -/
def forIterRc (f : RcRef → σ → M α σ) : Nat → RawIter → σ → M α σ
  | 0, _, _ => M.throw .fuel
  | k+1, i, s => do
    match (← iterRcNext i) with
    | (none, _) => return s
    | (some c, i') => do forIterRc f k i' (← withHandle c (f c s))

/-- `PartialEq::eq` for `RcNode` — macros.rs 134. The guards of the first operand of `&&` are released before the second one
is evaluated (compilers before 1.65 keep them until the end of the function, as in `partial_cmp`: no difference, they are
shared). -/
def rcEq (eq : α → α → Bool) : Nat → RcRef → RcRef → M α Bool
  | 0, _, _ => M.throw .fuel
  | k+1, r, q => do
    if (← withData r fun d => withData q fun e => return eq d e) then do
      let i ← iterRc r
      let j ← iterRc q
      iterEqRc (rcEq eq k) (i.len + 1) i j
    else return false

/-- `PartialEq::ne` for `RcNode` — macros.rs 135; `Iterator::ne` is the negation of `Iterator::eq` (std). -/
def rcNe (eq ne : α → α → Bool) (k : Nat) (r q : RcRef) : M α Bool := do
  if (← withData r fun d => withData q fun e => return ne d e) then return true
  else do
    let i ← iterRc r
    let j ← iterRc q
    return !(← iterEqRc (rcEq eq k) (i.len + 1) i j)

/-- `PartialOrd::partial_cmp` for `RcNode` — macros.rs 141-150. The guards in the scrutinee of `match` live until its end. -/
def rcPcmp (pc : α → α → Option Ordering) : Nat → RcRef → RcRef → M α (Option Ordering)
  | 0, _, _ => M.throw .fuel
  | k+1, r, q => withData r fun d => withData q fun e =>
    match pc d e with
    | none => return none
    | some .lt => return some .lt
    | some .gt => return some .gt
    | some .eq => do
      let i ← iterRc r
      let j ← iterRc q
      iterPcmpRc (rcPcmp pc k) (i.len + 1) i j

/-- `Ord::cmp` for `RcNode` — macros.rs 154-160. -/
def rcCmp (c : α → α → Ordering) : Nat → RcRef → RcRef → M α Ordering
  | 0, _, _ => M.throw .fuel
  | k+1, r, q => withData r fun d => withData q fun e =>
    match c d e with
    | .lt => return .lt
    | .gt => return .gt
    | .eq => do
      let i ← iterRc r
      let j ← iterRc q
      iterCmpRc (rcCmp c k) (i.len + 1) i j

/-- `Hash::hash` for `RcNode` — macros.rs 167-173. -/
def rcHash (hs : α → σ → σ) : Nat → RcRef → σ → M α σ
  | 0, _, _ => M.throw .fuel
  | k+1, r, s => do
    let s ← withData r fun d => return hs d s
    let i ← iterRc r
    forIterRc (rcHash hs k) (i.len + 1) i s

/-- `Display::fmt` for `RcNode` — macros.rs 113-126; `sh` is what `T::fmt` writes, the writer never fails. -/
def rcFmt (sh : α → List Char) : Nat → RcRef → List Char → M α (List Char)
  | 0, _, _ => M.throw .fuel
  | k+1, r, out => do
    if (← withShared r hasNoChild) then
      withData r fun d => return out ++ sh d
    else do
      let out ← withData r fun d => return out ++ sh d
      let out := out ++ ['(', ' ']
      let i ← iterRc r
      let out ← forIterRc (fun c o => do return (← rcFmt sh k c o) ++ [' ']) (i.len + 1) i out
      return out ++ [')']

/-- Budget of the recursion. -/
def rcDepth (r : RcRef) (h : Heap α) : Nat := (h.size (r.at h)).descendants + 1

/-- The trait methods. -/
def eqRc (eq : α → α → Bool) (r q : RcRef) : M α Bool := M.fuelled fun h => rcEq eq (rcDepth r h) r q
def neRc (eq ne : α → α → Bool) (r q : RcRef) : M α Bool := M.fuelled fun h => rcNe eq ne (rcDepth r h) r q
def pcmpRc (pc : α → α → Option Ordering) (r q : RcRef) : M α (Option Ordering) := M.fuelled fun h => rcPcmp pc (rcDepth r h) r q
def cmpRc (c : α → α → Ordering) (r q : RcRef) : M α Ordering := M.fuelled fun h => rcCmp c (rcDepth r h) r q
def hashRc (hs : α → σ → σ) (r : RcRef) (s : σ) : M α σ := M.fuelled fun h => rcHash hs (rcDepth r h) r s
def fmtRc (sh : α → List Char) (r : RcRef) : M α (List Char) := M.fuelled fun h => rcFmt sh (rcDepth r h) r []

end Trees
