import Verif.Spec.Tree
/-
Specification layer for shared nodes: trees whose nodes carry an identity.
-/
namespace Trees
namespace RTree
variable {α ι : Type}

/-- The identities of the nodes, parents first. -/
def ids (t : RTree (ι × α)) : List ι := t.pre.map Prod.fst

/-- The tree without the identities. -/
def plain (t : RTree (ι × α)) : RTree α := t.map Prod.snd

mutual
/-- The subtrees of all nodes. -/
def subs : RTree α → List (RTree α)
  | node x ts => node x ts :: subsL ts
def subsL : List (RTree α) → List (RTree α)
  | [] => []
  | t :: ts => subs t ++ subsL ts
end

section
variable [DecidableEq ι]

mutual
/-- The children of node `a` are replaced. -/
def modAt (a : ι) (f : List (RTree (ι × α)) → List (RTree (ι × α))) : RTree (ι × α) → RTree (ι × α)
  | node x ts => node x (if x.1 = a then f ts else modAtL a f ts)
def modAtL (a : ι) (f : List (RTree (ι × α)) → List (RTree (ι × α))) : List (RTree (ι × α)) → List (RTree (ι × α))
  | [] => []
  | t :: ts => modAt a f t :: modAtL a f ts
end

mutual
/-- The data item of node `a` is replaced. -/
def setAt (a : ι) (d : α) : RTree (ι × α) → RTree (ι × α)
  | node x ts => node (if x.1 = a then (a, d) else x) (setAtL a d ts)
def setAtL (a : ι) (d : α) : List (RTree (ι × α)) → List (RTree (ι × α))
  | [] => []
  | t :: ts => setAt a d t :: setAtL a d ts
end

mutual
/-- The child subtree whose root is node `a` is replaced by a list of trees, in place. -/
def sibAt (a : ι) (f : RTree (ι × α) → List (RTree (ι × α))) : RTree (ι × α) → RTree (ι × α)
  | node x ts => node x (sibAtL a f ts)
def sibAtL (a : ι) (f : RTree (ι × α) → List (RTree (ι × α))) : List (RTree (ι × α)) → List (RTree (ι × α))
  | [] => []
  | t :: ts => if t.data.1 = a then f t ++ ts else sibAt a f t :: sibAtL a f ts
end
end

mutual
/-- What goes away with the last owner of the root: the nodes that are not `held` and not below a held one; their
data items, in the order of destruction (children first). -/
def released (held : ι → Bool) : RTree (ι × α) → List (ι × α)
  | node x ts => if held x.1 then [] else releasedL held ts ++ [x]
def releasedL (held : ι → Bool) : List (RTree (ι × α)) → List (ι × α)
  | [] => []
  | t :: ts => released held t ++ releasedL held ts
end

mutual
/-- What is left: the subtrees whose roots are held, each now a tree of its own. -/
def survivors (held : ι → Bool) : RTree (ι × α) → List (RTree (ι × α))
  | node x ts => if held x.1 then [node x ts] else survivorsL held ts
def survivorsL (held : ι → Bool) : List (RTree (ι × α)) → List (RTree (ι × α))
  | [] => []
  | t :: ts => survivors held t ++ survivorsL held ts
end

end RTree
end Trees
