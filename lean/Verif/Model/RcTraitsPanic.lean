import Verif.Model.RcTraits
/-
The traits of `RcNode` (macros.rs 113-176, rc.rs 519-521) for data types whose own implementations of the traits may panic. Unwinding
releases the `Ref`s and drops the handles of the iterators.
-/
namespace Trees
variable {α β σ : Type}

/-- User code: `none` is a panic. -/
def user (o : Option β) : M α β := match o with
  | some b => pure b
  | none => M.throw .panic

/-- `PartialEq::eq` — macros.rs 134. -/
def rcEqP (eq : α → α → Option Bool) : Nat → RcRef → RcRef → M α Bool
  | 0, _, _ => M.throw .fuel
  | k+1, r, q => do
    if (← withData r fun d => withData q fun e => user (eq d e)) then do
      let i ← iterRc r
      let j ← iterRc q
      iterEqRc (rcEqP eq k) (i.len + 1) i j
    else return false

/-- `PartialEq::ne` — macros.rs 135. -/
def rcNeP (eq ne : α → α → Option Bool) (k : Nat) (r q : RcRef) : M α Bool := do
  if (← withData r fun d => withData q fun e => user (ne d e)) then return true
  else do
    let i ← iterRc r
    let j ← iterRc q
    return !(← iterEqRc (rcEqP eq k) (i.len + 1) i j)

/-- `PartialOrd::partial_cmp` — macros.rs 141-150. -/
def rcPcmpP (pc : α → α → Option (Option Ordering)) : Nat → RcRef → RcRef → M α (Option Ordering)
  | 0, _, _ => M.throw .fuel
  | k+1, r, q => withData r fun d => withData q fun e => do
    match (← user (pc d e)) with
    | none => return none
    | some .lt => return some .lt
    | some .gt => return some .gt
    | some .eq => do
      let i ← iterRc r
      let j ← iterRc q
      iterPcmpRc (rcPcmpP pc k) (i.len + 1) i j

/-- `Ord::cmp` — macros.rs 154-160. -/
def rcCmpP (c : α → α → Option Ordering) : Nat → RcRef → RcRef → M α Ordering
  | 0, _, _ => M.throw .fuel
  | k+1, r, q => withData r fun d => withData q fun e => do
    match (← user (c d e)) with
    | .lt => return .lt
    | .gt => return .gt
    | .eq => do
      let i ← iterRc r
      let j ← iterRc q
      iterCmpRc (rcCmpP c k) (i.len + 1) i j

/-- `Hash::hash` — macros.rs 167-173. -/
def rcHashP (hs : α → σ → Option σ) : Nat → RcRef → σ → M α σ
  | 0, _, _ => M.throw .fuel
  | k+1, r, s => do
    let s ← withData r fun d => user (hs d s)
    let i ← iterRc r
    forIterRc (rcHashP hs k) (i.len + 1) i s

/-- `for child in self.iter_rc() { f( child )?; }` -/
def forIterRcE (f : RcRef → σ → M α (σ × Bool)) : Nat → RawIter → σ → M α (σ × Bool)
  | 0, _, _ => M.throw .fuel
  | k+1, i, s => do
    match (← iterRcNext i) with
    | (none, _) => return (s, true)
    | (some c, i') => do
      match (← withHandle c (f c s)) with
      | (s, true) => forIterRcE f k i' s
      | (s, false) => return (s, false)

/-- `Display::fmt` — macros.rs 113-126; `sh`: what `T::fmt` writes and whether it returns `Ok`. The writer itself never fails. -/
def rcFmtP (sh : α → Option (List Char × Bool)) : Nat → RcRef → List Char → M α (List Char × Bool)
  | 0, _, _ => M.throw .fuel
  | k+1, r, out => do
    if (← withShared r hasNoChild) then
      withData r fun d => do
        let w ← user (sh d)
        return (out ++ w.1, w.2)
    else do
      let w ← withData r fun d => do
        let w ← user (sh d)
        return (out ++ w.1, w.2)
      if w.2 then do
        let i ← iterRc r
        let w ← forIterRcE (fun c o => do
          let w ← rcFmtP sh k c o
          if w.2 then return (w.1 ++ [' '], true) else return w) (i.len + 1) i (w.1 ++ ['(', ' '])
        if w.2 then return (w.1 ++ [')'], true) else return w
      else return w

/-- The trait methods. -/
def eqRcP (eq : α → α → Option Bool) (r q : RcRef) : M α Bool := M.fuelled fun h => rcEqP eq (rcDepth r h) r q
def neRcP (eq ne : α → α → Option Bool) (r q : RcRef) : M α Bool := M.fuelled fun h => rcNeP eq ne (rcDepth r h) r q
def pcmpRcP (pc : α → α → Option (Option Ordering)) (r q : RcRef) : M α (Option Ordering) := M.fuelled fun h => rcPcmpP pc (rcDepth r h) r q
def cmpRcP (c : α → α → Option Ordering) (r q : RcRef) : M α Ordering := M.fuelled fun h => rcCmpP c (rcDepth r h) r q
def hashRcP (hs : α → σ → Option σ) (r : RcRef) (s : σ) : M α σ := M.fuelled fun h => rcHashP hs (rcDepth r h) r s
def fmtRcP (sh : α → Option (List Char × Bool)) (r : RcRef) : M α (List Char × Bool) := M.fuelled fun h => rcFmtP sh (rcDepth r h) r []

end Trees
