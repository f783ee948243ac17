import Verif.Model.Rc
/-
The stack: `Drop for RcNode` with a limit on the number of nested calls (compare Model/Stack).
-/
namespace Trees
variable {α : Type}

mutual
/-- `Drop for RcNode` — rc.rs 125-152 — with room for `L` nested calls (compare `dropRc`); the result `none`: the stack
overflows. The second argument bounds the loops, as in `dropRc`. -/
def dropRcWithin : Nat → Nat → RcRef → M α (Option Unit)
  | 0, _, _ => pure none
  | _+1, 0, _ => M.throw .fuel
  | L+1, k+1, .scattered a => do
    let a ← (RcRef.scattered a).slot
    if (← getCount a) = 1 then do
      match (← drainRcWithin L k (.scattered a)) with
      | some _ => do
        rcDrop a
        return some ()
      | none => return none
    else do
      rcDrop a
      return some ()
  | L+1, k+1, .piled v i => do
    let a ← vecNode v i
    if (← decrCount a) = 0 then do
      match (← drainRcWithin L k (.piled v i)) with
      | some _ => do
        dropInPlace a
        decrRef v
        return some ()
      | none => return none
    else do
      decrRef v
      return some ()
/-- `while let Some(_) = self.pop_front() {}` — rc.rs 131, 138; the drop of each popped handle has room for `L` calls. -/
def drainRcWithin : Nat → Nat → RcRef → M α (Option Unit)
  | _, 0, _ => M.throw .fuel
  | L, k+1, r => do
    match (← popFrontRc r) with
    | some c => do
      match (← dropRcWithin L k c) with
      | some _ => drainRcWithin L k r
      | none => return none
    | none => return some ()
end

/-- Dropping an `RcNode` (compare `dropHandle`). -/
def dropHandleWithin (L : Nat) (r : RcRef) : M α (Option Unit) :=
  M.fuelled fun h => dropRcWithin L (2 * (h.size (r.at h)).descendants + 2) r

/-- The call `drop(k)` for an `RcNode` in variable `k`, with room for `L` nested calls of destructors (compare `rstep` on
`.drop k`); `none`: the stack overflows. -/
def RMachine.dropWithin (m : RMachine α) (L : Nat) (k : Var) : Option (Outcome (RMachine α) α) :=
  match m.refs k with
  | some (.rc r) =>
    if m.guarded k then some .rejected else
    match dropHandleWithin L r m.heap with
    | .ok (some _) h => some (.ok ⟨h, m.env, upd m.refs k none, m.fresh⟩ .unit)
    | .ok none _ => none
    | .err .panic h => some (.panic ⟨h, m.env, upd m.refs k none, m.fresh⟩)
    | .err _ _ => some .bad
  | _ => some .rejected

end Trees
