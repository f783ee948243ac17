import Verif.Model.Format
/-
`Display`, `Debug` and `Hash` of a forest with room for `L` nested calls of the functions of the nodes (for nodes, the first argument of
`nodeFmtW`, `nodeDebugW` — Model/Format.lean — and `nodeHash` — Model/Traits.lean — is that limit).
-/
namespace Trees
variable {α σ : Type}

/-- `Display::fmt` for `Forest` — macros.rs 35-45 (compare `displayForestW`). -/
def displayForestWithin (P : Writer α σ) (L : Nat) (a : Addr) (s : σ) : M α (σ × Bool) := do
  if (← hasNoChild a) then putW P (.text ['(', ')']) s
  else
    tryW (putW P (.text ['(', ' ']) s) fun s => do
    let i ← iter a
    tryW (forIterW (fun c s => tryW (nodeFmtW P L c s) fun s => putW P (.text [' ']) s) (i.len + 1) i s) fun s =>
    putW P (.text [')']) s

/-- `Debug::fmt` for `Forest` — macros.rs 20-32 (compare `debugForestW`). -/
def debugForestWithin (P : Writer α σ) (L : Nat) (a : Addr) (s : σ) : M α (σ × Bool) := do
  if (← hasNoChild a) then putW P (.text ['(', ')']) s
  else
    tryW (putW P (.text ['(', ' ']) s) fun s => do
    let i ← iter a
    tryW (forIterW (fun c s => tryW (nodeDebugW P L c s) fun s => putW P (.text [' ']) s) (i.len + 1) i s) fun s =>
    putW P (.text [')']) s

/-- `Hash::hash` for `Forest` — macros.rs 83-89 (compare `hashForest`). -/
def hashForestWithin (hs : α → σ → σ) (L : Nat) (a : Addr) (s : σ) : M α σ := do
  let i ← iter a
  forIter (nodeHash hs L) (i.len + 1) i s

end Trees
