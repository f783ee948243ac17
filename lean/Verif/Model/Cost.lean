import Verif.Model.Fine
/-
How much work the code does: the number of accesses to nodes and blocks, of calls of the allocator (in both directions) and of
calls of destructors, counted along a run of the programs of Model/Fine.
-/
namespace Trees
namespace Fine
variable {α β : Type}

/-- Every access is one unit of work; `bound` is not part of the code (Model/Fine). -/
def Acc.weight : Acc α → Nat
  | .bound => 0
  | _ => 1

/-- The number of accesses of a run. -/
def cost (A : Alloc) : Prog α β → Heap α → Nat
  | .ret _, _ => 0
  | .fail _, _ => 0
  | .acc a k, h => a.weight + match a.run A h with
    | .ok x h' => cost A (k x) h'
    | .err _ _ => 0

end Fine

/-- The variables of a machine. -/
def Machine.vars (m : Machine α) : Fine.Vars := ⟨m.env, m.fresh⟩

/-- The number of accesses that a call makes. -/
def Machine.accesses (m : Machine α) (op : Op α) : Nat := Fine.cost Alloc.fresh (Fine.step m.vars op) m.heap

/-- The outcome of the call whose accesses are counted. -/
def Machine.counted (m : Machine α) (op : Op α) : Outcome (Machine α) α :=
  match (Fine.step m.vars op).run Alloc.fresh m.heap with
  | .ok (.ok v o) h => .ok ⟨h, v.env, v.fresh⟩ o
  | .ok (.panic v) h => .panic ⟨h, v.env, v.fresh⟩
  | .ok .rejected _ => .rejected
  | _ => .bad

/-- The number of accesses that a client program makes. -/
def Machine.accessesAll (m : Machine α) (ops : List (Op α)) : Nat := Fine.cost Alloc.fresh (Fine.exec m.vars ops) m.heap

end Trees
