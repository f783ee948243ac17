import Verif.Proof.RcCoherent
/-
Concrete histories, evaluated by the kernel: the cases used to show that the theorems about shared nodes are not
vacuous, and the counterexamples.
-/
namespace Trees
variable {α : Type}

namespace RTree
variable [DecidableEq α]
mutual
/-- Equality test. -/
def same : RTree α → RTree α → Bool
  | node x ts, node y us => decide (x = y) && sameL ts us
def sameL : List (RTree α) → List (RTree α) → Bool
  | [], [] => true
  | t :: ts, u :: us => same t u && sameL ts us
  | _, _ => false
end

mutual
theorem eq_of_same : ∀ {t u : RTree α}, same t u = true → t = u
  | node x ts, node y us, h => by
    simp only [same, Bool.and_eq_true, decide_eq_true_eq] at h
    rw [h.1, eq_of_sameL h.2]
theorem eq_of_sameL : ∀ {ts us : List (RTree α)}, sameL ts us = true → ts = us
  | [], [], _ => rfl
  | t :: ts, u :: us, h => by
    simp only [sameL, Bool.and_eq_true] at h
    rw [eq_of_same h.1, eq_of_sameL h.2]
  | [], _ :: _, h => by simp [sameL] at h
  | _ :: _, [], h => by simp [sameL] at h
end
end RTree

/-- Test of what a handle shows. -/
def RMachine.shows [DecidableEq α] (m : RMachine α) (k : Var) (t : RTree (Addr × α)) : Bool :=
  match m.look k with
  | some u => RTree.same u t
  | none => false

theorem RMachine.look_of_shows [DecidableEq α] {m : RMachine α} {k : Var} {t : RTree (Addr × α)} (h : m.shows k t = true) : m.look k = some t := by
  simp only [RMachine.shows] at h
  split at h
  · rename_i u hu; rw [hu, RTree.eq_of_same h]
  · simp at h

/-- A sufficient test for `Safe`. -/
def RMachine.mayRun (m : RMachine α) : ROp α → Bool
  | .clone k => match m.refs k with
    | some (.rc (.piled _ _)) => false
    | _ => true
  | .downgrade k => match m.refs k with
    | some (.rc (.piled _ _)) => false
    | _ => true
  | .iterNext _ => false
  | .intoTree _ => false
  | _ => true

theorem RMachine.safe_of_mayRun {m : RMachine α} {op : ROp α} (h : m.mayRun op = true) : Safe m op := by
  cases op <;> simp only [Safe] <;> first | trivial | (simp [RMachine.mayRun] at h; done) | skip
  all_goals
    intro v i e
    simp [RMachine.mayRun, e] at h

/-- A sequence of calls, all returning normally. -/
def sexec (m : RMachine α) : List (ROp α) → Option (RMachine α)
  | [] => some m
  | op :: ops => if m.mayRun op then
      match rstep m op with
      | .ok m' _ => sexec m' ops
      | _ => none
    else none

theorem sexec_reach : ∀ (ops : List (ROp α)) {m m' : RMachine α}, SReachable m → sexec m ops = some m' → SReachable m'
  | [], m, m', h, e => by simp only [sexec, Option.some.injEq] at e; exact e ▸ h
  | op :: ops, m, m', h, e => by
    simp only [sexec] at e
    split at e
    · rename_i hs
      split at e
      · rename_i m1 o he; exact sexec_reach ops (.ok h (RMachine.safe_of_mayRun hs) he) e
      · simp at e
    · simp at e

theorem rexec_reach : ∀ (ops : List (ROp α)) {m m' : RMachine α}, RReachable m → rexec m ops = some m' → RReachable m'
  | [], m, m', h, e => by simp only [rexec, Option.some.injEq] at e; exact e ▸ h
  | op :: ops, m, m', h, e => by
    simp only [rexec] at e
    split at e
    · rename_i m1 o he; exact rexec_reach ops (.ok h he) e
    · simp at e

/-- The state after a sequence of calls. -/
def sAfter (ops : List (ROp Nat)) : RMachine Nat := (sexec RMachine.empty ops).getD RMachine.empty

theorem sAfter_reach (ops : List (ROp Nat)) : SReachable (sAfter ops) := by
  simp only [sAfter]
  cases h : sexec RMachine.empty ops with
  | none => exact .init
  | some m => exact sexec_reach ops .init h

attribute [irreducible] sAfter

/-- `1(2(3) 4)` shared: variable 4 is a handle to the root, 5 and 6 are handles to node `2` (the second is a clone).
Variable 7 is a tree `9`, variable 8 a forest `[8]`. -/
def sdemoOps : List (ROp Nat) :=
  [.excl (.treeNew 1), .excl (.treeNew 2), .excl (.treeNew 3), .excl (.treeNew 4), .excl (.pushBack 1 [] 2),
   .excl (.pushBack 0 [] 1), .excl (.pushBack 0 [] 3), .fromTree 0, .front 4, .clone 5, .excl (.treeNew 9),
   .excl .forestNew, .excl (.treeNew 8), .excl (.pushBack 8 [] 9)]

def sdemo : RMachine Nat := sAfter sdemoOps

theorem sdemo_reach : SReachable sdemo := sAfter_reach _

theorem sdemo_look4 : sdemo.look 4 = some (.node (0,1) [.node (1,2) [.node (2,3) []], .node (3,4) []]) :=
  RMachine.look_of_shows (by decide +kernel)
theorem sdemo_look5 : sdemo.look 5 = some (.node (1,2) [.node (2,3) []]) := RMachine.look_of_shows (by decide +kernel)
theorem sdemo_look6 : sdemo.look 6 = some (.node (1,2) [.node (2,3) []]) := RMachine.look_of_shows (by decide +kernel)

end Trees
