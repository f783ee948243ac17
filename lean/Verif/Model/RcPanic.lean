import Verif.Model.Rc
import Verif.Model.Crash
/-
Dropping shared nodes when something panics on the way: a destructor of user data, or a conflict with a guard that was
forgotten.
-/
namespace Trees
variable {α β : Type}

/-- The destructor that panics was run between `h` and `h'`: run number `n`, counted from the beginning of the program; or
none of them panics. -/
def panicked (n : Option Nat) (h h' : Heap α) : Bool := match n with
  | none => false
  | some n => decide (h.log.length ≤ n ∧ n < h'.log.length)

/-- Drop of an `Rc` (std), see `rcDrop`. The node is gone even if the destructor panics: the strong count is zero already. -/
def rcDropP (n : Option Nat) (a : Addr) : M α Unit := fun h =>
  (rcDrop a h).bind fun _ h' => if panicked n h h' then .err .panic h' else .ok () h'

/-- `ptr::drop_in_place( &mut node.data )` — rc.rs 146; the same. -/
def dropInPlaceP (n : Option Nat) (a : Addr) : M α Unit := fun h =>
  (dropInPlace a h).bind fun _ h' => if panicked n h h' then .err .panic h' else .ok () h'

mutual
/-- `Drop for RcNode` — rc.rs 125-152. In the scattered case its field, the `Rc`, is dropped even if the body panics; the
fields of `PiledRcNode` have no destructor. -/
def dropRcP (n : Option Nat) : Nat → RcRef → M α Unit
  | 0, _ => M.throw .fuel
  | k+1, .scattered a => do
    let a ← (RcRef.scattered a).slot
    thenFields (do if (← getCount a) = 1 then drainRcP n k (.scattered a)) (rcDropP n a)
  | k+1, .piled v i => do
    let a ← vecNode v i
    if (← decrCount a) = 0 then do
      drainRcP n k (.piled v i)
      dropInPlaceP n a
    decrRef v
/-- `while let Some(_) = self.pop_front() {}` — rc.rs 131, 138: each popped handle is dropped. -/
def drainRcP (n : Option Nat) : Nat → RcRef → M α Unit
  | 0, _ => M.throw .fuel
  | k+1, r => do
    match (← popFrontRc r) with
    | some c => do dropRcP n k c; drainRcP n k r
    | none => pure ()
end

/-- Dropping an `RcNode`. -/
def dropHandleP (n : Option Nat) (r : RcRef) : M α Unit :=
  M.fuelled fun h => dropRcP n (2 * (h.size (r.at h)).descendants + 2) r

/-- Calls in which something unusual happens. -/
inductive PROp (α : Type) where
  | call (op : ROp α)
  /-- `drop(k)` of a handle, in which the `j`-th run of a destructor of user data panics (if there are so many). -/
  | dropPanic (k : Var) (j : Nat)
  /-- `mem::forget(g)` of a guard. -/
  | forgetGuard (g : Var)

/-- One call. (In the states of `rstep` an ordinary drop never panics, so that `rstep` does without the drop of the fields
during unwinding; after a guard was forgotten it may.) -/
def pstep (m : RMachine α) : PROp α → Outcome (RMachine α) α
  | .call (.drop k) => match m.refs k with
      | some (.rc r) => if m.guarded k then .rejected else
          m.run m.env (upd m.refs k none) (dropHandleP none r) fun _ h =>
            .ok ⟨h, m.env, upd m.refs k none, m.fresh⟩ .unit
      | _ => rstep m (.drop k)
  | .call op => rstep m op
  | .dropPanic k j => match m.refs k with
      | some (.rc r) => if m.guarded k then .rejected else
          m.run m.env (upd m.refs k none) (dropHandleP (some (m.heap.log.length + j)) r) fun _ h =>
            .ok ⟨h, m.env, upd m.refs k none, m.fresh⟩ .unit
      | _ => .rejected
  | .forgetGuard g => match m.refs g with
      | some (.guard _ _ _) => .ok ⟨m.heap, m.env, upd m.refs g none, m.fresh⟩ .unit
      | _ => .rejected

end Trees
