import Verif.Model.Machine
/-
`PartialEq`, `PartialOrd`, `Ord`, `Hash`, `Display` for `Node`, `Tree`, `Forest` — macros.rs.
The traits of the data type are parameters. The same code, instantiated for `RcNode` (rc.rs 519-521), walks
`iter_rc()` instead of `iter()`.
`&Tree` and `&Node` are addresses; a `Tree` delegates to its root node (macros.rs 50-67, 69-77, 1-13; tree.rs
251-253), a `Forest` to its iterator (forest.rs 290-292).
-/
namespace Trees
variable {α σ : Type}

/-- `Iterator::eq` (std): step both, compare the items with `==`. -/
def iterEq (f : Addr → Addr → M α Bool) : Nat → RawIter → RawIter → M α Bool
  | 0, _, _ => M.throw .fuel
  | k+1, i, j => do
    match (← i.next) with
    | (none, _) => do
      match (← j.next) with
      | (none, _) => return true
      | (some _, _) => return false
    | (some x, i') => do
      match (← j.next) with
      | (none, _) => return false
      | (some y, j') => do if (← f x y) then iterEq f k i' j' else return false

/-- `Iterator::partial_cmp` (std). -/
def iterPcmp (f : Addr → Addr → M α (Option Ordering)) : Nat → RawIter → RawIter → M α (Option Ordering)
  | 0, _, _ => M.throw .fuel
  | k+1, i, j => do
    match (← i.next) with
    | (none, _) => do
      match (← j.next) with
      | (none, _) => return some .eq
      | (some _, _) => return some .lt
    | (some x, i') => do
      match (← j.next) with
      | (none, _) => return some .gt
      | (some y, j') => do
        match (← f x y) with
        | some .eq => iterPcmp f k i' j'
        | r => return r

/-- `Iterator::cmp` (std). -/
def iterCmp (f : Addr → Addr → M α Ordering) : Nat → RawIter → RawIter → M α Ordering
  | 0, _, _ => M.throw .fuel
  | k+1, i, j => do
    match (← i.next) with
    | (none, _) => do
      match (← j.next) with
      | (none, _) => return .eq
      | (some _, _) => return .lt
    | (some x, i') => do
      match (← j.next) with
      | (none, _) => return .gt
      | (some y, j') => do
        match (← f x y) with
        | .eq => iterCmp f k i' j'
        | r => return r

/-- `for child in self.iter() { … }` with a state. -/
def forIter (f : Addr → σ → M α σ) : Nat → RawIter → σ → M α σ
  | 0, _, _ => M.throw .fuel
  | k+1, i, s => do
    match (← i.next) with
    | (none, _) => return s
    | (some c, i') => do forIter f k i' (← f c s)

/-- `PartialEq::eq` for `Node` — macros.rs 134. -/
def nodeEq (eq : α → α → Bool) : Nat → Addr → Addr → M α Bool
  | 0, _, _ => M.throw .fuel
  | k+1, a, b => do
    let d ← dataRef a
    let e ← dataRef b
    if eq d e then do
      let i ← iter a
      let j ← iter b
      iterEq (nodeEq eq k) (i.len + 1) i j
    else return false

/-- `PartialEq::ne` for `Node` — macros.rs 135; `Iterator::ne` is the negation of `Iterator::eq` (std). -/
def nodeNe (eq ne : α → α → Bool) : Nat → Addr → Addr → M α Bool
  | k, a, b => do
    let d ← dataRef a
    let e ← dataRef b
    if ne d e then return true
    else do
      let i ← iter a
      let j ← iter b
      return !(← iterEq (nodeEq eq k) (i.len + 1) i j)

/-- `PartialOrd::partial_cmp` for `Node` — macros.rs 141-150. -/
def nodePcmp (pc : α → α → Option Ordering) : Nat → Addr → Addr → M α (Option Ordering)
  | 0, _, _ => M.throw .fuel
  | k+1, a, b => do
    let d ← dataRef a
    let e ← dataRef b
    match pc d e with
    | none => return none
    | some .lt => return some .lt
    | some .gt => return some .gt
    | some .eq => do
      let i ← iter a
      let j ← iter b
      iterPcmp (nodePcmp pc k) (i.len + 1) i j

/-- `Ord::cmp` for `Node` — macros.rs 154-160. -/
def nodeCmp (c : α → α → Ordering) : Nat → Addr → Addr → M α Ordering
  | 0, _, _ => M.throw .fuel
  | k+1, a, b => do
    let d ← dataRef a
    let e ← dataRef b
    match c d e with
    | .lt => return .lt
    | .gt => return .gt
    | .eq => do
      let i ← iter a
      let j ← iter b
      iterCmp (nodeCmp c k) (i.len + 1) i j

/-- `Hash::hash` for `Node` — macros.rs 167-173; `hs` is `T::hash`, `σ` the hasher. -/
def nodeHash (hs : α → σ → σ) : Nat → Addr → σ → M α σ
  | 0, _, _ => M.throw .fuel
  | k+1, a, s => do
    let d ← dataRef a
    let s := hs d s
    let i ← iter a
    forIter (nodeHash hs k) (i.len + 1) i s

/-- `Display::fmt` for `Node` — macros.rs 113-126; `sh` is what `T::fmt` writes, the writer never fails. -/
def nodeFmt (sh : α → List Char) : Nat → Addr → List Char → M α (List Char)
  | 0, _, _ => M.throw .fuel
  | k+1, a, out => do
    if (← hasNoChild a) then do
      let d ← dataRef a
      return out ++ sh d
    else do
      let d ← dataRef a
      let out := out ++ sh d
      let out := out ++ ['(', ' ']
      let i ← iter a
      let out ← forIter (fun c o => do return (← nodeFmt sh k c o) ++ [' ']) (i.len + 1) i out
      return out ++ [')']

/-- Budget of the recursion. -/
def depthFuel (a : Addr) : Heap α → Nat := fun h => (h.size a).descendants + 1

/-- The trait methods on nodes and trees. -/
def eqNode (eq : α → α → Bool) (a b : Addr) : M α Bool := M.fuelled fun h => nodeEq eq (depthFuel a h) a b
def neNode (eq ne : α → α → Bool) (a b : Addr) : M α Bool := M.fuelled fun h => nodeNe eq ne (depthFuel a h) a b
def pcmpNode (pc : α → α → Option Ordering) (a b : Addr) : M α (Option Ordering) :=
  M.fuelled fun h => nodePcmp pc (depthFuel a h) a b
def cmpNode (c : α → α → Ordering) (a b : Addr) : M α Ordering := M.fuelled fun h => nodeCmp c (depthFuel a h) a b
def hashNode (hs : α → σ → σ) (a : Addr) (s : σ) : M α σ := M.fuelled fun h => nodeHash hs (depthFuel a h) a s
def fmtNode (sh : α → List Char) (a : Addr) : M α (List Char) := M.fuelled fun h => nodeFmt sh (depthFuel a h) a []

/-- `PartialEq::eq` for `Forest` — macros.rs 53, forest.rs 291. -/
def eqForest (eq : α → α → Bool) (a b : Addr) : M α Bool := M.fuelled fun h => do
  let i ← iter a
  let j ← iter b
  iterEq (nodeEq eq (depthFuel a h)) (i.len + 1) i j

/-- `PartialEq::ne` for `Forest` — macros.rs 54. -/
def neForest (eq : α → α → Bool) (a b : Addr) : M α Bool := do return !(← eqForest eq a b)

/-- `PartialOrd::partial_cmp` for `Forest` — macros.rs 60. -/
def pcmpForest (pc : α → α → Option Ordering) (a b : Addr) : M α (Option Ordering) := M.fuelled fun h => do
  let i ← iter a
  let j ← iter b
  iterPcmp (nodePcmp pc (depthFuel a h)) (i.len + 1) i j

/-- `Ord::cmp` for `Forest` — macros.rs 64. -/
def cmpForest (c : α → α → Ordering) (a b : Addr) : M α Ordering := M.fuelled fun h => do
  let i ← iter a
  let j ← iter b
  iterCmp (nodeCmp c (depthFuel a h)) (i.len + 1) i j

/-- `Hash::hash` for `Forest` — macros.rs 83-89. -/
def hashForest (hs : α → σ → σ) (a : Addr) (s : σ) : M α σ := M.fuelled fun h => do
  let i ← iter a
  forIter (nodeHash hs (depthFuel a h)) (i.len + 1) i s

/-- `Display::fmt` for `Forest` — macros.rs 35-45. -/
def fmtForest (sh : α → List Char) (a : Addr) : M α (List Char) := M.fuelled fun h => do
  if (← hasNoChild a) then return ['(', ')']
  else do
    let i ← iter a
    let out ← forIter (fun c o => do return (← nodeFmt sh (depthFuel a h) c o) ++ [' ']) (i.len + 1) i ['(', ' ']
    return out ++ [')']

end Trees
