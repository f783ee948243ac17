import Verif.Model.Crash
/-
Reading a value back together with what its nodes report about their size, without trusting these reports.
-/
namespace Trees
variable {α : Type}

/-- Read a whole subtree with `data()` — node.rs 112 —, `iter()` — 313-318 —, and, for each node, `degree()` — 145 — and
`node_count() - 1` — 157-163; at most `k` levels. -/
def readSized : Nat → Addr → M α (RTree (α × Size))
  | 0, _ => M.throw .fuel
  | k+1, a => do
    let d ← dataRef a
    let g ← degree a
    let n ← nodeCount a
    let cs ← children a
    let ts ← readMany (readSized k) cs
    return .node (d, ⟨g, n - 1⟩) ts

/-- The same for the trees of a forest. -/
def readSizedForest (k : Nat) (f : Addr) : M α (List (RTree (α × Size))) := do
  let cs ← children f
  readMany (readSized k) cs

end Trees
