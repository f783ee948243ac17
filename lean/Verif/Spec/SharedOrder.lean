import Verif.Spec.Order
import Verif.Spec.Shared
/-
Comparison of trees some of whose nodes are locked (their data is mutably borrowed). The nodes are compared in the usual order
and only as far as needed; `none`: a locked node had to be looked at.
-/
namespace Trees.RTree
variable {α ι : Type}

mutual
/-- Equality. -/
def eqV (lk : ι → Bool) (eq : α → α → Bool) : RTree (ι × α) → RTree (ι × α) → Option Bool
  | node x ts, node y us => if lk x.1 || lk y.1 then none else if eq x.2 y.2 then eqVL lk eq ts us else some false
def eqVL (lk : ι → Bool) (eq : α → α → Bool) : List (RTree (ι × α)) → List (RTree (ι × α)) → Option Bool
  | [], [] => some true
  | t :: ts, u :: us => match eqV lk eq t u with
    | some true => eqVL lk eq ts us
    | r => r
  | _, _ => some false
end

mutual
/-- Three-way comparison. -/
def cmpV (lk : ι → Bool) (c : α → α → Ordering) : RTree (ι × α) → RTree (ι × α) → Option Ordering
  | node x ts, node y us => if lk x.1 || lk y.1 then none else if c x.2 y.2 = .eq then cmpVL lk c ts us else some (c x.2 y.2)
def cmpVL (lk : ι → Bool) (c : α → α → Ordering) : List (RTree (ι × α)) → List (RTree (ι × α)) → Option Ordering
  | [], [] => some .eq
  | [], _ :: _ => some .lt
  | _ :: _, [] => some .gt
  | t :: ts, u :: us => match cmpV lk c t u with
    | some .eq => cmpVL lk c ts us
    | r => r
end

mutual
/-- Partial comparison. -/
def pcmpV (lk : ι → Bool) (c : α → α → Option Ordering) : RTree (ι × α) → RTree (ι × α) → Option (Option Ordering)
  | node x ts, node y us => if lk x.1 || lk y.1 then none else if c x.2 y.2 = some .eq then pcmpVL lk c ts us else some (c x.2 y.2)
def pcmpVL (lk : ι → Bool) (c : α → α → Option Ordering) : List (RTree (ι × α)) → List (RTree (ι × α)) → Option (Option Ordering)
  | [], [] => some (some .eq)
  | [], _ :: _ => some (some .lt)
  | _ :: _, [] => some (some .gt)
  | t :: ts, u :: us => match pcmpV lk c t u with
    | some (some .eq) => pcmpVL lk c ts us
    | r => r
end

end Trees.RTree
