import Verif.Model.Size
import Verif.Spec.Bfs
/-
Specification for C47: when a sequence of visits, with any announced sizes at all, can be turned into a tree.
-/
namespace Trees
variable {α : Type}

/-- Every visit but the first one is announced by the visits before it: there are fewer visits before it than nodes that these
announce (the first visit, and as many children as each of them says it has). -/
def Announced (vs : List (α × Size)) : Prop :=
  ∀ i, 0 < i → i < vs.length → i ≤ ((vs.take i).map fun v => v.2.degree).sum

/-- The same for a forest of `n` trees. -/
def AnnouncedF (n : Nat) (vs : List (α × Size)) : Prop :=
  ∀ i, i < vs.length → i < n + ((vs.take i).map fun v => v.2.degree).sum

open RTree in
/-- The trees `ts`, whose nodes carry what they report about their size, are what the visits `vs` say about `n` trees, as far as
the visits go: in level order the nodes are the visits; and each node has the number of children that its visit announces, or
what is left of the visits if that is less.  (`told_unique`: there is at most one such list of trees.) -/
def Told (n : Nat) (vs : List (α × Size)) (ts : List (RTree (α × Size))) : Prop :=
  (levelOrder ts).map data = vs ∧ ts.length = min n vs.length ∧
    ∀ i s, (levelOrder ts)[i]? = some s → s.kids.length = min s.data.2.degree (vs.length - (n + ((vs.take i).map fun v => v.2.degree).sum))

/-- Every node reports the truth about its size. -/
def Truthful (ts : List (RTree (α × Size))) : Prop :=
  ∀ s ∈ RTree.levelOrder ts, s.data.2 = ⟨s.kids.length, s.count - 1⟩

end Trees
