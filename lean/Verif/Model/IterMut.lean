import Verif.Model.Machine
/-
A client loop over `iter_mut()` that changes the siblings of the child it is standing on:

    for (i, mut c) in node.iter_mut().enumerate() { … c.insert_prev_sib(..) … c.detach() … }

`IterMut` — iter.rs 121-151 — holds the raw iterator across the calls.
-/
namespace Trees
variable {α : Type}

/-- A call on the child just yielded: `insert_prev_sib` (node.rs 204-221), `insert_next_sib` (node.rs 234-251),
`*data_mut() = d` (node.rs 115). -/
inductive Act (α : Type) where
  | insPrev (y : Var)
  | insNext (y : Var)
  | set (d : α)

/-- What the loop body does with one child: some calls, then possibly `detach()` (node.rs 263-294). -/
structure Plan (α : Type) where
  acts : List (Act α)
  det : Bool

/-- One call on the node at address `c`. -/
def Machine.act (m : Machine α) (c : Addr) : Act α → Outcome (Machine α) α
  | .insPrev y => match m.env y with
    | some (.tree t) => m.run (m.setEnv y none) (insertPrevSib c t) fun _ h => m.ret h (m.setEnv y none) .unit
    | _ => .rejected
  | .insNext y => match m.env y with
    | some (.tree t) => m.run (m.setEnv y none) (insertNextSib c t) fun _ h => m.ret h (m.setEnv y none) .unit
    | _ => .rejected
  | .set d => m.run m.env (dataMutSet c d) fun _ h => m.ret h m.env .unit

/-- Several calls; `none` unless all return normally. -/
def Machine.acts (m : Machine α) (c : Addr) : List (Act α) → Option (Machine α)
  | [] => some m
  | a :: as => match m.act c a with
    | .ok m' _ => m'.acts c as
    | _ => none

/-- The loop body. -/
def Machine.body (m : Machine α) (c : Addr) (p : Plan α) : Option (Machine α) :=
  match m.acts c p.acts with
  | none => none
  | some m' => if p.det then
      match m'.run m'.env (detach c) fun c h => m'.retVar h m'.env (.tree c) with
      | .ok m'' _ => some m''
      | _ => none
    else some m'

/-- The loop: `i` counts the children visited; the result lists their addresses. -/
def Machine.iterMutLoop (plan : Nat → Plan α) : Nat → Nat → RawIter → Machine α → Option (Machine α × List Addr)
  | 0, _, _, _ => none
  | k+1, i, it, m => match it.next m.heap with
    | .ok (none, _) _ => some (m, [])
    | .ok (some c, it') _ => match m.body c (plan i) with
      | none => none
      | some m' => match Machine.iterMutLoop plan k (i + 1) it' m' with
        | none => none
        | some (m'', cs) => some (m'', c :: cs)
    | .err _ _ => none

/-- The whole loop over the children of the node `n` — node.rs 333-338. -/
def Machine.iterMut (m : Machine α) (n : Addr) (plan : Nat → Plan α) : Option (Machine α × List Addr) :=
  match iter n m.heap with
  | .ok it _ => Machine.iterMutLoop plan (it.len + 1) 0 it m
  | .err _ _ => none

end Trees
