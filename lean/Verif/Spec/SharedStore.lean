import Verif.Spec.Shared
import Verif.Spec.Store
import Verif.Model.Rc
/-
Specification of the whole API, with shared nodes: an executable machine without addresses, links, counts, borrow
flags, boxes or blocks. (Of `Model/Rc.lean` only `ROp`, the list of calls, is used.)

The shared part of a program's data is a list of trees whose nodes carry an identity: a number, given to a node when it
becomes shared and never given again. A handle is the identity of a node.
-/
namespace Trees
variable {α : Type}

namespace RTree
mutual
/-- Identities `n`, `n + 1`, ... for the nodes of a tree, parents first. -/
def label (n : Nat) : RTree α → RTree (Nat × α)
  | node d ts => node (n, d) (labelL (n + 1) ts)
def labelL (n : Nat) : List (RTree α) → List (RTree (Nat × α))
  | [] => []
  | t :: ts => label n t :: labelL (n + t.count) ts
end
end RTree

/-- Shared values. -/
inductive SRef where
  /-- `RcNode<T>` for node `i` -/
  | rc (i : Nat)
  /-- `WeakNode<T>` for node `i` -/
  | weak (i : Nat)
  /-- `Ref<T>` or `RefMut<T>` obtained from the handle in variable `k` -/
  | guard (k : Var) (wr : Bool)
  /-- `IterRc<T>`: the node it stands at, if any, and the number of items it will still return -/
  | iter (c : Option Nat) (n : Nat)
deriving DecidableEq

/-- Exclusive values with the list of dropped items, shared trees, shared values, the next identity. -/
structure SStore (α : Type) where
  excl : Store α
  roots : List (RTree (Nat × α))
  refs : Var → Option SRef
  next : Nat

namespace SStore

def empty : SStore α := ⟨Store.empty, [], fun _ => none, 0⟩

/-! ### Questions -/

/-- The subtree of node `i`. -/
def node? (s : SStore α) (i : Nat) : Option (RTree (Nat × α)) := (RTree.subsL s.roots).find? fun u => u.data.1 = i

/-- Node `i` has no parent. -/
def isRoot (s : SStore α) (i : Nat) : Bool := s.roots.any fun u => u.data.1 = i

/-- The parent of node `i`, with its subtree. -/
def parent? (s : SStore α) (i : Nat) : Option (RTree (Nat × α)) :=
  (RTree.subsL s.roots).find? fun u => u.kids.any fun c => c.data.1 = i

/-- The next sibling of node `i`. -/
def nextSib (s : SStore α) (i : Nat) : Option Nat :=
  match s.parent? i with
  | none => none
  | some p => ((p.kids.map fun c => c.data.1).dropWhile (· ≠ i)).tail.head?

/-- Some variable satisfies `p`. -/
def anyVar (s : SStore α) (p : Var → Bool) : Bool := (List.range s.excl.fresh).any p

/-- A guard of the given kind for node `i` is alive. -/
def guarded (s : SStore α) (i : Nat) (wr : Bool) : Bool :=
  s.anyVar fun g => match s.refs g with
    | some (.guard k w) => w = wr && s.refs k = some (.rc i)
    | _ => false

/-- A guard obtained from the handle in variable `k` is alive. -/
def busy (s : SStore α) (k : Var) : Bool :=
  s.anyVar fun g => match s.refs g with
    | some (.guard k' _) => k' = k
    | _ => false

/-- There is a handle to node `i` other than the one in variable `k`. -/
def heldElse (s : SStore α) (k : Var) (i : Nat) : Bool := s.anyVar fun j => j ≠ k && s.refs j = some (.rc i)

/-- There is another handle, or a weak handle, to a node of the tree `t` of the handle in variable `k`. -/
def aliased (s : SStore α) (k : Var) (t : RTree (Nat × α)) : Bool :=
  s.anyVar fun j => match s.refs j with
    | some (.rc x) => j ≠ k && x ∈ t.ids
    | some (.weak x) => x ∈ t.ids
    | _ => false

/-! ### Changes -/

/-- A new shared value in the next variable. -/
def bindRef (s : SStore α) (r : SRef) : SStore α :=
  { s with refs := upd s.refs s.excl.fresh (some r), excl := { s.excl with fresh := s.excl.fresh + 1 } }

def setRef (s : SStore α) (k : Var) (r : Option SRef) : SStore α := { s with refs := upd s.refs k r }

/-- The result of a call that returns an optional handle. -/
def retRc (s : SStore α) : Option Nat → Outcome (SStore α) α
  | some i => .ok (s.bindRef (.rc i)) (.var s.excl.fresh)
  | none => .ok s .none

/-- Data items are dropped. -/
def log (s : SStore α) (ds : List α) : SStore α := { s with excl := s.excl.drop ds }

/-- A call on the handle in variable `k`: node `i` with the subtree `t`. -/
def onRc (s : SStore α) (k : Var) (f : Nat → RTree (Nat × α) → Outcome (SStore α) α) : Outcome (SStore α) α :=
  match s.refs k with
  | some (.rc i) => match s.node? i with
    | some t => f i t
    | none => .bad
  | _ => .rejected

/-- A call that reads: it panics if there is a `RefMut` for the node. -/
def reads (s : SStore α) (k : Var) (f : Nat → RTree (Nat × α) → Outcome (SStore α) α) : Outcome (SStore α) α :=
  s.onRc k fun i t => if s.guarded i true then .panic s else f i t

/-- A call that changes the node: it panics if there is a guard for it. -/
def writes (s : SStore α) (k : Var) (f : Nat → RTree (Nat × α) → Outcome (SStore α) α) : Outcome (SStore α) α :=
  s.onRc k fun i t => if s.guarded i true || s.guarded i false then .panic s else f i t

/-- A call with a tree or forest `v` in variable `y` as argument, which is moved: on panic it is dropped. `c` are the new nodes. -/
def consumes (s : SStore α) (k y : Var) (v : Val α) (f : Nat → Option (List (RTree (Nat × α)))) : Outcome (SStore α) α :=
  s.onRc k fun i _ =>
    if s.guarded i true || s.guarded i false then .panic { s with excl := (s.excl.set y none).drop v.post }
    else match f i with
      | some roots => .ok { s with excl := s.excl.set y none, roots, next := s.next + v.count } .unit
      | none => .panic { s with excl := (s.excl.set y none).drop v.post }

/-- With a tree argument. -/
def withTree (s : SStore α) (k y : Var) (f : RTree (Nat × α) → Nat → Option (List (RTree (Nat × α)))) : Outcome (SStore α) α :=
  match s.excl.vars y with
  | some (.tree t) => s.consumes k y (.tree t) (f (t.label s.next))
  | _ => .rejected

/-- With a forest argument. -/
def withForest (s : SStore α) (k y : Var) (f : List (RTree (Nat × α)) → Nat → Option (List (RTree (Nat × α)))) : Outcome (SStore α) α :=
  match s.excl.vars y with
  | some (.forest ts) => s.consumes k y (.forest ts) (f (RTree.labelL s.next ts))
  | _ => .rejected

/-- The handle in variable `k` to node `i` with subtree `t` is dropped: if the node has a parent, nothing else happens.
Otherwise the nodes below it that are in no subtree of another handle are dropped. -/
def release (s : SStore α) (k : Var) (i : Nat) (t : RTree (Nat × α)) : SStore α :=
  if s.isRoot i then
    { s.setRef k none with
      roots := s.roots.flatMap fun u => if u.data.1 = i then u.survivors (s.heldElse k) else [u]
      excl := s.excl.drop ((t.released (s.heldElse k)).map Prod.snd) }
  else s.setRef k none

end SStore

/-- The meaning of every call. `bad`: the call is excluded, because the crate does not give it a meaning. -/
def sstep (s : SStore α) : ROp α → Outcome (SStore α) α
  | .excl op => match specStep s.excl op with
      | .ok e o => .ok { s with excl := e } o
      | .panic e => .panic { s with excl := e }
      | .rejected => .rejected
      | .bad => .bad
  | .fromTree x => match s.excl.vars x with
      | some (.tree t) => .ok { ({ s with excl := s.excl.set x none } : SStore α).bindRef (.rc s.next) with
          roots := s.roots ++ [t.label s.next], next := s.next + t.count } (.var s.excl.fresh)
      | _ => .rejected
  | .clone k => s.onRc k fun i _ => .ok (s.bindRef (.rc i)) (.var s.excl.fresh)
  | .drop k => match s.refs k with
      | some (.rc _) => if s.busy k then .rejected else s.onRc k fun i t => .ok (s.release k i t) .unit
      | some _ => .ok (s.setRef k none) .unit
      | none => .rejected
  | .isRoot k => s.reads k fun i _ => .ok s (.bool (s.isRoot i))
  | .data k => s.reads k fun _ t => .ok s (.item (some t.data.2))
  | .degree k => s.reads k fun _ t => .ok s (.nat t.kids.length)
  | .nodeCount k => s.reads k fun _ t => .ok s (.nat t.count)
  | .hasNoChild k => s.reads k fun _ t => .ok s (.bool t.kids.isEmpty)
  | .front k => s.reads k fun _ t => s.retRc (t.kids.head?.map fun c => c.data.1)
  | .back k => s.reads k fun _ t => s.retRc (t.kids.getLast?.map fun c => c.data.1)
  | .parent k => s.reads k fun i _ => s.retRc ((s.parent? i).map fun p => p.data.1)
  | .pushFront k y => s.withTree k y fun t i => some (RTree.modAtL i (fun us => t :: us) s.roots)
  | .pushBack k y => s.withTree k y fun t i => some (RTree.modAtL i (fun us => us ++ [t]) s.roots)
  | .prepend k y => s.withForest k y fun ts i => some (RTree.modAtL i (fun us => ts ++ us) s.roots)
  | .append k y => s.withForest k y fun ts i => some (RTree.modAtL i (fun us => us ++ ts) s.roots)
  | .insertPrevSib k y => s.withTree k y fun t i => if s.isRoot i then none else some (RTree.sibAtL i (fun u => [t, u]) s.roots)
  | .insertNextSib k y => s.withTree k y fun t i => if s.isRoot i then none else some (RTree.sibAtL i (fun u => [u, t]) s.roots)
  | .popFront k => s.writes k fun i t => match t.kids.head? with
      | none => .ok s .none
      | some c => ({ s with roots := RTree.modAtL i List.tail s.roots ++ [c] } : SStore α).retRc (some c.data.1)
  | .popBack k => s.writes k fun i t => match t.kids.getLast? with
      | none => .ok s .none
      | some c => ({ s with roots := RTree.modAtL i List.dropLast s.roots ++ [c] } : SStore α).retRc (some c.data.1)
  | .detach k => s.writes k fun i t => if s.isRoot i then .panic s
      else .ok { s with roots := RTree.sibAtL i (fun _ => []) s.roots ++ [t] } .unit
  | .setData k d => s.writes k fun i t => .ok ({ s with roots := RTree.setAtL i d s.roots }.log [t.data.2]) .unit
  | .borrow k => s.reads k fun _ _ => .ok (s.bindRef (.guard k false)) (.var s.excl.fresh)
  | .borrowMut k => s.writes k fun _ _ => .ok (s.bindRef (.guard k true)) (.var s.excl.fresh)
  | .guardRead g => match s.refs g with
      | some (.guard k _) => s.onRc k fun _ t => .ok s (.item (some t.data.2))
      | _ => .rejected
  | .guardWrite g d => match s.refs g with
      | some (.guard k true) => s.onRc k fun i t => .ok ({ s with roots := RTree.setAtL i d s.roots }.log [t.data.2]) .unit
      | _ => .rejected
  | .iterRc k => s.reads k fun _ t => .ok (s.bindRef (.iter (t.kids.head?.map fun c => c.data.1) t.kids.length)) (.var s.excl.fresh)
  | .iterNext i => match s.refs i with
      | some (.iter _ 0) => .ok s .none
      | some (.iter none (n + 1)) => .ok (s.setRef i (some (.iter none n))) .none
      | some (.iter (some c) (n + 1)) => if (s.node? c).isNone then .bad
          else (s.setRef i (some (.iter (s.nextSib c) n))).retRc (some c)
      | _ => .rejected
  | .iterClone i => match s.refs i with
      | some (.iter c n) => .ok (s.bindRef (.iter c n)) (.var s.excl.fresh)
      | _ => .rejected
  | .iterLen i => match s.refs i with
      | some (.iter _ n) => .ok s (.nat n)
      | _ => .rejected
  | .downgrade k => s.onRc k fun i _ => .ok (s.bindRef (.weak i)) (.var s.excl.fresh)
  | .upgrade w => match s.refs w with
      | some (.weak i) => s.retRc (if (s.node? i).isSome then some i else none)
      | _ => .rejected
  | .deepClone k f => s.reads k fun _ t => .ok { s with excl := s.excl.bind (.tree (t.plain.updLevel f)) } (.var s.excl.fresh)
  | .intoTree k => s.onRc k fun i t => if s.busy k then .rejected
      else if !s.isRoot i then .panic (s.setRef k none)
      else if s.aliased k t then .bad
      else .ok { s.setRef k none with roots := s.roots.filter (fun u => u.data.1 ≠ i), excl := s.excl.bind (.tree t.plain) } (.var s.excl.fresh)

/-- The subtree below the handle in variable `k`, with the identities of the nodes. -/
def SStore.look (s : SStore α) (k : Var) : Option (RTree (Nat × α)) :=
  match s.refs k with
  | some (.rc i) => s.node? i
  | _ => none

/-- Run a program: calls rejected by the compiler are skipped, panics are caught and recorded. -/
def runProg {σ : Type} (st : σ → ROp α → Outcome σ α) : σ → List (ROp α) → σ × List (Outcome Unit α)
  | s, [] => (s, [])
  | s, op :: ops =>
    let r := st s op
    let s' := match r with
      | .ok s' _ => s'
      | .panic s' => s'
      | _ => s
    let (s'', os) := runProg st s' ops
    (s'', (match r with
      | .ok _ o => .ok () o
      | .panic _ => .panic ()
      | .rejected => .rejected
      | .bad => .bad) :: os)

end Trees
