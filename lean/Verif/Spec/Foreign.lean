import Verif.Spec.Visits
/-
Specification for C62: a client's own type of trees.
-/
namespace Trees
variable {ι κ δ : Type}

/-- A client's implementation of `Split` — bfs.rs 147-152 — for its type `κ` of (references to) trees, and of `ExactSizeIterator`
for its type `ι` of iterators over them. -/
structure Foreign (ι κ δ : Type) where
  /-- `Iterator::next` -/
  next : ι → Option κ × ι
  /-- `ExactSizeIterator::len` -/
  len : ι → Nat
  /-- `Split::split`: the item, the children, the number of descendants -/
  split : κ → δ × ι × Nat

/-- What the client says of the size of a tree: how many children their iterator announces, and the number of descendants
that `split` reports. -/
def Foreign.claim (F : Foreign ι κ δ) (k : κ) : Size := ⟨F.len (F.split k).2.1, (F.split k).2.2⟩

/-- The client's iterator yields exactly these trees; every node carries what the client says of its size. -/
inductive Lists (F : Foreign ι κ δ) : ι → List (RTree (δ × Size)) → Prop
  | nil {it it' : ι} : F.next it = (none, it') → Lists F it []
  | cons {it it' : ι} {k : κ} {ks ts : List (RTree (δ × Size))} : F.next it = (some k, it') → Lists F (F.split k).2.1 ks → Lists F it' ts →
      Lists F it (.node ((F.split k).1, F.claim k) ks :: ts)

end Trees
