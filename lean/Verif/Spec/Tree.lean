/-
Specification layer: rose trees.  Nothing here mentions addresses, links or cached sizes.
-/
namespace Trees

/-- A finite ordered tree: a data item and the list of child trees. -/
inductive RTree (α : Type) where
  | node (data : α) (kids : List (RTree α)) : RTree α

namespace RTree
variable {α β : Type}

/-- The data item of the root. -/
def data : RTree α → α
  | node d _ => d

/-- The children of the root, in order. -/
def kids : RTree α → List (RTree α)
  | node _ ks => ks

@[simp] theorem data_node (d : α) (ks) : (node d ks).data = d := rfl
@[simp] theorem kids_node (d : α) (ks) : (node d ks).kids = ks := rfl
theorem eta (t : RTree α) : node t.data t.kids = t := by cases t; rfl

mutual
/-- Number of nodes of a tree. -/
def count : RTree α → Nat
  | node _ ks => countL ks + 1
/-- Number of nodes of a list of trees. -/
def countL : List (RTree α) → Nat
  | [] => 0
  | t :: ts => count t + countL ts
end

mutual
/-- Apply a function to every data item. -/
def map (f : α → β) : RTree α → RTree β
  | node d ks => node (f d) (mapL f ks)
def mapL (f : α → β) : List (RTree α) → List (RTree β)
  | [] => []
  | t :: ts => map f t :: mapL f ts
end

mutual
/-- Data in pre-order (node before its children, left to right). -/
def pre : RTree α → List α
  | node d ks => d :: preL ks
def preL : List (RTree α) → List α
  | [] => []
  | t :: ts => pre t ++ preL ts
end

mutual
/-- Data in post-order (children left to right, then the node). -/
def post : RTree α → List α
  | node d ks => postL ks ++ [d]
def postL : List (RTree α) → List α
  | [] => []
  | t :: ts => post t ++ postL ts
end

attribute [simp] count countL map mapL pre preL post postL

@[simp] theorem countL_append (xs ys : List (RTree α)) :
    countL (xs ++ ys) = countL xs + countL ys := by
  induction xs with
  | nil => simp
  | cons x xs ih => simp [ih]; omega

theorem mapL_eq (f : α → β) (ts : List (RTree α)) : mapL f ts = ts.map (map f) := by
  induction ts with
  | nil => simp
  | cons t ts ih => simp [ih]

theorem preL_eq (ts : List (RTree α)) : preL ts = ts.flatMap pre := by
  induction ts with
  | nil => simp
  | cons t ts ih => simp [ih]

theorem postL_eq (ts : List (RTree α)) : postL ts = ts.flatMap post := by
  induction ts with
  | nil => simp
  | cons t ts ih => simp [ih]

@[simp] theorem postL_append (xs ys : List (RTree α)) : postL (xs ++ ys) = postL xs ++ postL ys := by
  simp [postL_eq]

@[simp] theorem preL_append (xs ys : List (RTree α)) : preL (xs ++ ys) = preL xs ++ preL ys := by
  simp [preL_eq]

@[simp] theorem mapL_append (f : α → β) (xs ys : List (RTree α)) :
    mapL f (xs ++ ys) = mapL f xs ++ mapL f ys := by
  simp [mapL_eq]

/-- Induction principle with the hypothesis for every child. -/
theorem ind {P : RTree α → Prop} (h : ∀ d ks, (∀ t ∈ ks, P t) → P (node d ks)) : ∀ t, P t := by
  intro t
  induction t using RTree.rec (motive_2 := fun ts => ∀ t ∈ ts, P t) with
  | node d ks ih => exact h d ks ih
  | nil => rename_i t ht; simp at ht
  | cons t ts ih1 ih2 =>
    rename_i t' ht
    simp at ht
    rcases ht with rfl | ht
    · exact ih1
    · exact ih2 _ ht

end RTree

/-- A position: the sequence of child indices leading to a node. -/
abbrev Path := List Nat

/-- The child list found by following `p` from a child list: `[]` is the list itself,
`i :: p` goes into the `i`-th tree. -/
def kidsAt {α : Type} : List (RTree α) → Path → Option (List (RTree α))
  | ts, [] => some ts
  | ts, i :: p => match ts[i]? with
    | none => none
    | some t => kidsAt t.kids p

/-- Replace the child list found at `p` by its image under `f`; nothing else changes. -/
def modKids {α : Type} : List (RTree α) → Path → (List (RTree α) → List (RTree α)) → List (RTree α)
  | ts, [], f => f ts
  | ts, i :: p, f => match ts[i]? with
    | none => ts
    | some t => ts.set i (.node t.data (modKids t.kids p f))

end Trees
