import Verif.Spec.Store
/-
Specification of programs whose items have destructors that use the crate themselves.

`dtor d` is the body of the destructor (`Drop::drop`) of the item `d`: a list of calls on the program's variables
(in Rust: trees reachable from a `thread_local!`, a `static` or an `Rc<RefCell<_>>`).  A destructor may make new trees, change
and drop others, and so run further destructors.
-/
namespace Trees
variable {α : Type} {σ τ : Type}

/-- Result of running code that may run destructors, nested no deeper than a given bound: it ends, or goes wrong, or a destructor
deeper than the bound would have made a call. -/
inductive Run (σ : Type) where
  | done (s : σ)
  | bad
  | deep

def Run.bind : Run σ → (σ → Run τ) → Run τ
  | .done s, f => f s
  | .bad, _ => .bad
  | .deep, _ => .deep

def Run.map (f : σ → τ) : Run σ → Run τ
  | .done s => .done (f s)
  | .bad => .bad
  | .deep => .deep

/-- A program: calls rejected by the compiler are skipped, panics are caught and recorded. -/
def runOps (st : σ → Op α → Run (Outcome σ α)) : σ → List (Op α) → Run (σ × List (Outcome Unit α))
  | s, [] => .done (s, [])
  | s, op :: ops => (st s op).bind fun
    | .ok s' o => (runOps st s' ops).map fun q => (q.1, .ok () o :: q.2)
    | .panic s' => (runOps st s' ops).map fun q => (q.1, .panic () :: q.2)
    | .rejected => (runOps st s ops).map fun q => (q.1, .rejected :: q.2)
    | .bad => (runOps st s ops).map fun q => (q.1, .bad :: q.2)

/-- Destroy items one after the other: each is recorded as dropped and then its destructor `D` runs. -/
def destroyItems (D : α → Store α → Run (Store α)) : List α → Store α → Run (Store α)
  | [], S => .done S
  | d :: ds, S => (D d (S.drop [d])).bind (destroyItems D ds)

/-- While variable `x` is mutably borrowed, nobody can use it. -/
def Store.borrowing (S : Store α) (x : Var) (f : Store α → Run (Store α)) : Run (Store α) :=
  (f (S.set x none)).map fun S' => S'.set x (S.vars x)

/-- The meaning of a call when destructors run: the items of a dropped value are destroyed children before parents; a
replaced item is destroyed while the tree it was in is still borrowed; so are the items of a tree passed to an `insert_*_sib` that
panics. -/
def specStepR (D : α → Store α → Run (Store α)) (S : Store α) : Op α → Run (Outcome (Store α) α)
  | .drop x => match S.vars x with
    | some v => (destroyItems D v.post (S.set x none)).map fun S' => .ok S' .unit
    | none => .done .rejected
  | .setData x l d => match specStep S (.data x l), specStep S (.setData x l d) with
    | .ok _ (.item (some old)), .ok S' .unit => (S'.borrowing x (D old)).map fun S'' => .ok S'' .unit
    | _, o => .done o
  | .insertPrevSib x l y => match S.vars y, specStep S (.insertPrevSib x l y) with
    | some v, .panic _ => ((S.set y none).borrowing x (destroyItems D v.post)).map .panic
    | _, o => .done o
  | .insertNextSib x l y => match S.vars y, specStep S (.insertNextSib x l y) with
    | some v, .panic _ => ((S.set y none).borrowing x (destroyItems D v.post)).map .panic
    | _, o => .done o
  | op => .done (specStep S op)

/-- Programs with destructors nested no deeper than `n`. -/
def specExecR (dtor : α → List (Op α)) : Nat → Store α → List (Op α) → Run (Store α × List (Outcome Unit α))
  | 0, S, ops => if ops.isEmpty then .done (S, []) else .deep
  | n+1, S, ops => runOps (specStepR fun d S => (specExecR dtor n S (dtor d)).map Prod.fst) S ops

end Trees
