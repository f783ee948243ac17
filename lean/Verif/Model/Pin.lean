import Verif.Model.Ident
import Verif.Spec.Pin
/-
Mutable node references, kept while the program goes on calling.
-/
namespace Trees
variable {α β : Type}

/-- The variable `y` holds a tree that is handed over. -/
def Machine.giveTree (m : Machine α) (y : Var) (k : Addr → Outcome (Machine α) α) : Outcome (Machine α) α :=
  match m.env y with
  | some (.tree t) => k t
  | _ => .rejected

/-- The variable `y` holds a forest that is handed over. -/
def Machine.giveForest (m : Machine α) (y : Var) (k : Addr → Outcome (Machine α) α) : Outcome (Machine α) α :=
  match m.env y with
  | some (.forest t) => k t
  | _ => .rejected

/-- A method called on the node at address `n`, whatever that is: node.rs 112-115 (`data`, `data_mut`), 129-169 (`has_no_child`,
`degree`, `node_count`), 204-303 (`insert_prev_sib`, `insert_next_sib`, `detach`), 313-364 (`iter`, `front`, `back`), 377-560 (`push_front`, `push_back`, `pop_front`,
`pop_back`, `prepend`, `append`), bfs_impls.rs 69-183;
the code is that of `step` (Model/Machine.lean), without looking the node up. -/
def Machine.direct (m : Machine α) (n : Addr) : NodeCall α → Outcome (Machine α) α
  | .pushFront y => m.giveTree y fun t => m.run (m.setEnv y none) (pushFront n t) fun _ h => m.ret h (m.setEnv y none) .unit
  | .pushBack y => m.giveTree y fun t => m.run (m.setEnv y none) (pushBack n t) fun _ h => m.ret h (m.setEnv y none) .unit
  | .popFront => m.run m.env (popFront n) fun o h => m.retPop h o
  | .popBack => m.run m.env (popBack n) fun o h => m.retPop h o
  | .prepend y => m.giveForest y fun f => m.run (m.setEnv y none) (prepend n f) fun _ h => m.ret h (m.setEnv y none) .unit
  | .append y => m.giveForest y fun f => m.run (m.setEnv y none) (append n f) fun _ h => m.ret h (m.setEnv y none) .unit
  | .insertPrevSib y => m.giveTree y fun t =>
      m.run (m.setEnv y none) (insertPrevSib n t) fun _ h => m.ret h (m.setEnv y none) .unit
  | .insertNextSib y => m.giveTree y fun t =>
      m.run (m.setEnv y none) (insertNextSib n t) fun _ h => m.ret h (m.setEnv y none) .unit
  | .detach => m.run m.env (detach n) fun c h => m.retVar h m.env (.tree c)
  | .setData d => m.run m.env (dataMutSet n d) fun _ h => m.ret h m.env .unit
  | .data => m.run m.env (dataRef n) fun d h => m.ret h m.env (.item (some d))
  | .degree => m.run m.env (degree n) fun k h => m.ret h m.env (.nat k)
  | .nodeCount => m.run m.env (nodeCount n) fun k h => m.ret h m.env (.nat k)
  | .hasNoChild => m.run m.env (hasNoChild n) fun b h => m.ret h m.env (.bool b)
  | .childData => m.run m.env (do readMany dataRef (← children n)) fun ds h => m.ret h m.env (.items ds)
  | .frontData => m.run m.env (do match (← front n) with
        | some c => do return some (← dataRef c)
        | none => return none) fun o h => m.ret h m.env (.item o)
  | .backData => m.run m.env (do match (← back n) with
        | some c => do return some (← dataRef c)
        | none => return none) fun o h => m.ret h m.env (.item o)
  | .mapBfs f => m.run m.env (mapBfs f n) fun a h => m.retVar h m.env (.tree a)
  | .mapBfsForest f => m.run m.env (mapBfsForest f n) fun a h => m.retVar h m.env (.forest a)
  | .bfs k => m.run m.env (bfsRun k n) fun q h => m.ret h m.env (outVisits q)
  | .bfsChildren k => m.run m.env (bfsChildrenRun k n) fun q h => m.ret h m.env (outVisits q)
  | .bfsMut k f => m.run m.env (bfsMutRun f k n) fun q h => m.ret h m.env (outVisits q)
  | .bfsChildrenMut k f => m.run m.env (bfsChildrenMutRun f k n) fun q h => m.ret h m.env (outVisits q)

/-- The machine together with the addresses held by the references. -/
structure PMachine (α : Type) where
  m : Machine α
  refs : Nat → Option Addr
  made : Nat

def PMachine.empty : PMachine α := ⟨.empty, fun _ => none, 0⟩

/-- The outcome of a method. -/
def PMachine.after (P : PMachine α) : Outcome (Machine α) α → PMachine α × POut α
  | .ok m o => ({ P with m := m }, .ok o)
  | .panic m => ({ P with m := m }, .panic)
  | .rejected => (P, .rejected)
  | .bad => (P, .bad)

/-- A node found by following children from `a`: `iter_mut().nth(i)` repeatedly (node.rs 325-338, iter.rs 105-149). -/
def PMachine.find (P : PMachine α) (a : Addr) (p : Path) : PMachine α × POut α :=
  match locate a p P.m.heap with
  | .ok (some n) h => ({ P with m := { P.m with heap := h }, refs := (fun j => if j = P.made then some n else P.refs j), made := P.made + 1 }, .ref P.made)
  | .ok none h => ({ P with m := { P.m with heap := h } }, .nothing)
  | .err _ _ => (P, .bad)

/-- One call: no check of any kind is made on a reference.  `root_mut` — tree.rs 73, forest.rs 28. -/
def pinStep (P : PMachine α) : POp α → PMachine α × POut α
  | .call op => P.after (step P.m op)
  | .take x l => match P.m.env x, l with
    | some (.tree r), l => P.find r l.full
    | some (.forest f), .child q j => P.find f (q ++ [j])
    | _, _ => (P, .nothing)
  | .kid i j => match P.refs i with
    | none => (P, .rejected)
    | some a => P.find a [j]
  | .use i c => match P.refs i with
    | none => (P, .rejected)
    | some a => P.after (P.m.direct a c)

end Trees
