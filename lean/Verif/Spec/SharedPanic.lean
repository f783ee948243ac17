import Verif.Spec.SharedOrder
/-
Comparison, hashing and printing of trees whose items' own trait implementations may panic (`none`), and `fmt` may also report an error
(`false`). Some nodes are locked (their data is mutably borrowed). Nodes are visited in the usual order and only as far as needed;
`none`: a panic.
-/
namespace Trees.RTree
variable {α ι σ : Type}

mutual
/-- Equality. -/
def eqP (lk : ι → Bool) (eq : α → α → Option Bool) : RTree (ι × α) → RTree (ι × α) → Option Bool
  | node x ts, node y us => if lk x.1 || lk y.1 then none else match eq x.2 y.2 with
    | some true => eqPL lk eq ts us
    | r => r
def eqPL (lk : ι → Bool) (eq : α → α → Option Bool) : List (RTree (ι × α)) → List (RTree (ι × α)) → Option Bool
  | [], [] => some true
  | t :: ts, u :: us => match eqP lk eq t u with
    | some true => eqPL lk eq ts us
    | r => r
  | _, _ => some false
end

/-- Inequality: the roots by `ne`, all below by `eq`. -/
def neP (lk : ι → Bool) (eq ne : α → α → Option Bool) (t u : RTree (ι × α)) : Option Bool :=
  if lk t.data.1 || lk u.data.1 then none else match ne t.data.2 u.data.2 with
    | some false => (eqPL lk eq t.kids u.kids).map (!·)
    | r => r

mutual
/-- Three-way comparison. -/
def cmpP (lk : ι → Bool) (c : α → α → Option Ordering) : RTree (ι × α) → RTree (ι × α) → Option Ordering
  | node x ts, node y us => if lk x.1 || lk y.1 then none else match c x.2 y.2 with
    | some .eq => cmpPL lk c ts us
    | r => r
def cmpPL (lk : ι → Bool) (c : α → α → Option Ordering) : List (RTree (ι × α)) → List (RTree (ι × α)) → Option Ordering
  | [], [] => some .eq
  | [], _ :: _ => some .lt
  | _ :: _, [] => some .gt
  | t :: ts, u :: us => match cmpP lk c t u with
    | some .eq => cmpPL lk c ts us
    | r => r
end

mutual
/-- Partial comparison. -/
def pcmpP (lk : ι → Bool) (c : α → α → Option (Option Ordering)) : RTree (ι × α) → RTree (ι × α) → Option (Option Ordering)
  | node x ts, node y us => if lk x.1 || lk y.1 then none else match c x.2 y.2 with
    | some (some .eq) => pcmpPL lk c ts us
    | r => r
def pcmpPL (lk : ι → Bool) (c : α → α → Option (Option Ordering)) : List (RTree (ι × α)) → List (RTree (ι × α)) → Option (Option Ordering)
  | [], [] => some (some .eq)
  | [], _ :: _ => some (some .lt)
  | _ :: _, [] => some (some .gt)
  | t :: ts, u :: us => match pcmpP lk c t u with
    | some (some .eq) => pcmpPL lk c ts us
    | r => r
end

/-- Hashing: the items in pre-order. -/
def hashP (lk : ι → Bool) (hs : α → σ → Option σ) : List (ι × α) → σ → Option σ
  | [], s => some s
  | x :: xs, s => if lk x.1 then none else (hs x.2 s).bind (hashP lk hs xs)

mutual
/-- Printing after `out`: all that was written, and `true` unless an item reported an error (at which printing stops). -/
def fmtP (lk : ι → Bool) (sh : α → Option (List Char × Bool)) : RTree (ι × α) → List Char → Option (List Char × Bool)
  | node x ts, out => if lk x.1 then none else match sh x.2 with
    | none => none
    | some (w, false) => some (out ++ w, false)
    | some (w, true) => if ts.isEmpty then some (out ++ w, true) else match fmtPL lk sh ts (out ++ w ++ ['(', ' ']) with
      | some (o, true) => some (o ++ [')'], true)
      | r => r
def fmtPL (lk : ι → Bool) (sh : α → Option (List Char × Bool)) : List (RTree (ι × α)) → List Char → Option (List Char × Bool)
  | [], out => some (out, true)
  | t :: ts, out => match fmtP lk sh t out with
    | some (o, true) => fmtPL lk sh ts (o ++ [' '])
    | r => r
end

end Trees.RTree
