import Verif.Spec.Tree
/-
Specification of equality, order, hashing and printing of rose trees.
-/
namespace Trees.RTree
variable {α σ : Type}

mutual
/-- Same shape, and `R` relates the data at every position. -/
def Same (R : α → α → Prop) : RTree α → RTree α → Prop
  | node d ks, node e us => R d e ∧ SameL R ks us
def SameL (R : α → α → Prop) : List (RTree α) → List (RTree α) → Prop
  | [], [] => True
  | t :: ts, u :: us => Same R t u ∧ SameL R ts us
  | _, _ => False
end

mutual
/-- Data first, then the lists of children lexicographically (a proper prefix is smaller). -/
def cmp (c : α → α → Ordering) : RTree α → RTree α → Ordering
  | node d ks, node e us => (c d e).then (cmpL c ks us)
def cmpL (c : α → α → Ordering) : List (RTree α) → List (RTree α) → Ordering
  | [], [] => .eq
  | [], _ :: _ => .lt
  | _ :: _, [] => .gt
  | t :: ts, u :: us => (cmp c t u).then (cmpL c ts us)
end

/-- Keep the first result that is not `some .eq`. -/
def pthen (x y : Option Ordering) : Option Ordering := if x = some .eq then y else x

mutual
/-- The same for a partial order on the data. -/
def pcmp (c : α → α → Option Ordering) : RTree α → RTree α → Option Ordering
  | node d ks, node e us => pthen (c d e) (pcmpL c ks us)
def pcmpL (c : α → α → Option Ordering) : List (RTree α) → List (RTree α) → Option Ordering
  | [], [] => some .eq
  | [], _ :: _ => some .lt
  | _ :: _, [] => some .gt
  | t :: ts, u :: us => pthen (pcmp c t u) (pcmpL c ts us)
end

mutual
/-- `data` for a leaf, `data( child … child )` otherwise. -/
def render (sh : α → List Char) : RTree α → List Char
  | node d [] => sh d
  | node d (k :: ks) => sh d ++ "( ".toList ++ render sh k ++ " ".toList ++ renderL sh ks ++ ")".toList
/-- Every tree followed by a blank. -/
def renderL (sh : α → List Char) : List (RTree α) → List Char
  | [] => []
  | t :: ts => render sh t ++ " ".toList ++ renderL sh ts
end

/-- `()` for the empty forest, `( tree … tree )` otherwise. -/
def renderForest (sh : α → List Char) : List (RTree α) → List Char
  | [] => "()".toList
  | t :: ts => "( ".toList ++ renderL sh (t :: ts) ++ ")".toList

end Trees.RTree
