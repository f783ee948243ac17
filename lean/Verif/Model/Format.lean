import Verif.Model.RcTraits
import Verif.Model.Traits
import Verif.Spec.Format
/-
`Display` and `Debug` with a writer that may fail and a `T::fmt` that may fail or panic — macros.rs 1-47, 92-129.
`fmt::Result` is a pair of the writer's state and a flag (`true`: `Ok(())`).
-/
namespace Trees
variable {α σ : Type}

/-- `c?` followed by `f`. -/
def tryW (c : M α (σ × Bool)) (f : σ → M α (σ × Bool)) : M α (σ × Bool) := do
  let r ← c
  if r.2 then f r.1 else return r

/-- One call of `write_str`, of `T::fmt` or of the pointer's `fmt`. -/
def putW (P : Writer α σ) (p : Piece α) (s : σ) : M α (σ × Bool) :=
  match P p s with
  | some r => pure r
  | none => M.throw .panic

/-- `for child in self.iter() { …?; }`. -/
def forIterW (f : Addr → σ → M α (σ × Bool)) : Nat → RawIter → σ → M α (σ × Bool)
  | 0, _, _ => M.throw .fuel
  | k+1, i, s => do
    match (← i.next) with
    | (none, _) => return (s, true)
    | (some c, i') => tryW (f c s) (forIterW f k i')

/-- `Display::fmt` for `Node` — macros.rs 113-126. -/
def nodeFmtW (P : Writer α σ) : Nat → Addr → σ → M α (σ × Bool)
  | 0, _, _ => M.throw .fuel
  | k+1, a, s => do
    if (← hasNoChild a) then do
      let d ← dataRef a
      putW P (.item d) s
    else do
      let d ← dataRef a
      tryW (putW P (.item d) s) fun s =>
      tryW (putW P (.text ['(', ' ']) s) fun s => do
      let i ← iter a
      tryW (forIterW (fun c s => tryW (nodeFmtW P k c s) fun s => putW P (.text [' ']) s) (i.len + 1) i s) fun s =>
      putW P (.text [')']) s

/-- `write!( f, "@{:?} ", self as *const _ )` — macros.rs 99, 102. -/
def putAddrW (P : Writer α σ) (a : Addr) (s : σ) : M α (σ × Bool) :=
  tryW (putW P (.text ['@']) s) fun s => tryW (putW P (.addr a) s) fun s => putW P (.text [' ']) s

/-- `Debug::fmt` for `Node` — macros.rs 95-111. -/
def nodeDebugW (P : Writer α σ) : Nat → Addr → σ → M α (σ × Bool)
  | 0, _, _ => M.throw .fuel
  | k+1, a, s => do
    if (← hasNoChild a) then do
      let d ← dataRef a
      tryW (putW P (.item d) s) fun s => putAddrW P a s
    else do
      let d ← dataRef a
      tryW (putW P (.item d) s) fun s =>
      tryW (putAddrW P a s) fun s =>
      tryW (putW P (.text ['(', ' ']) s) fun s => do
      let i ← iter a
      tryW (forIterW (nodeDebugW P k) (i.len + 1) i s) fun s =>
      putW P (.text [')']) s

/-- `Display` and `Debug` of nodes and trees (`Tree` forwards to its root node — macros.rs 5-11). -/
def displayNodeW (P : Writer α σ) (a : Addr) (s : σ) : M α (σ × Bool) := M.fuelled fun h => nodeFmtW P (depthFuel a h) a s
def debugNodeW (P : Writer α σ) (a : Addr) (s : σ) : M α (σ × Bool) := M.fuelled fun h => nodeDebugW P (depthFuel a h) a s

/-- `Display::fmt` for `Forest` — macros.rs 35-45. -/
def displayForestW (P : Writer α σ) (a : Addr) (s : σ) : M α (σ × Bool) := M.fuelled fun h => do
  if (← hasNoChild a) then putW P (.text ['(', ')']) s
  else
    tryW (putW P (.text ['(', ' ']) s) fun s => do
    let i ← iter a
    tryW (forIterW (fun c s => tryW (nodeFmtW P (depthFuel a h) c s) fun s => putW P (.text [' ']) s) (i.len + 1) i s) fun s =>
    putW P (.text [')']) s

/-- `Debug::fmt` for `Forest` — macros.rs 20-32. -/
def debugForestW (P : Writer α σ) (a : Addr) (s : σ) : M α (σ × Bool) := M.fuelled fun h => do
  if (← hasNoChild a) then putW P (.text ['(', ')']) s
  else
    tryW (putW P (.text ['(', ' ']) s) fun s => do
    let i ← iter a
    tryW (forIterW (fun c s => tryW (nodeDebugW P (depthFuel a h) c s) fun s => putW P (.text [' ']) s) (i.len + 1) i s) fun s =>
    putW P (.text [')']) s

/-! ### Shared nodes -/

/-- `for child in self.iter_rc() { …?; }`: the child handle is dropped at the end of each round, also by `?`. -/
def forIterRcW (f : RcRef → σ → M α (σ × Bool)) : Nat → RawIter → σ → M α (σ × Bool)
  | 0, _, _ => M.throw .fuel
  | k+1, i, s => do
    match (← iterRcNext i) with
    | (none, _) => return (s, true)
    | (some c, i') => tryW (withHandle c (f c s)) (forIterRcW f k i')

/-- `Display::fmt` for `RcNode` — macros.rs 113-126 with `iter_rc`, `data().deref()` (rc.rs 519). The guard lives while `T::fmt` runs. -/
def rcFmtW (P : Writer α σ) : Nat → RcRef → σ → M α (σ × Bool)
  | 0, _, _ => M.throw .fuel
  | k+1, r, s => do
    if (← withShared r hasNoChild) then
      withData r fun d => putW P (.item d) s
    else
      tryW (withData r fun d => putW P (.item d) s) fun s =>
      tryW (putW P (.text ['(', ' ']) s) fun s => do
      let i ← iterRc r
      tryW (forIterRcW (fun c s => tryW (rcFmtW P k c s) fun s => putW P (.text [' ']) s) (i.len + 1) i s) fun s =>
      putW P (.text [')']) s

/-- `write!( f, "@{:?} ", self as *const _ )` for a handle — macros.rs 99, 102. -/
def putLocW (P : Writer α σ) (loc : Addr → Addr) (r : RcRef) (s : σ) : M α (σ × Bool) := fun h => putAddrW P (loc (r.at h)) s h

/-- `Debug::fmt` for `RcNode` — macros.rs 95-111. `self as *const _` is the address of the handle, not of the node: the handle that
visits node `a` is at `loc a` (in one call every node is visited through one handle). -/
def rcDebugW (P : Writer α σ) (loc : Addr → Addr) : Nat → RcRef → σ → M α (σ × Bool)
  | 0, _, _ => M.throw .fuel
  | k+1, r, s => do
    if (← withShared r hasNoChild) then
      tryW (withData r fun d => putW P (.item d) s) fun s => putLocW P loc r s
    else
      tryW (withData r fun d => putW P (.item d) s) fun s =>
      tryW (putLocW P loc r s) fun s =>
      tryW (putW P (.text ['(', ' ']) s) fun s => do
      let i ← iterRc r
      tryW (forIterRcW (rcDebugW P loc k) (i.len + 1) i s) fun s =>
      putW P (.text [')']) s

def displayRcW (P : Writer α σ) (r : RcRef) (s : σ) : M α (σ × Bool) := M.fuelled fun h => rcFmtW P (rcDepth r h) r s
def debugRcW (P : Writer α σ) (loc : Addr → Addr) (r : RcRef) (s : σ) : M α (σ × Bool) := M.fuelled fun h => rcDebugW P loc (rcDepth r h) r s

end Trees
