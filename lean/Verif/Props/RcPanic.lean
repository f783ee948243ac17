import Verif.Proof.RcPanic
import Verif.Props.SharedDefects
/-
C59: panics while a shared node is being dropped.

The full property — whatever panics while a handle is dropped, no later call through the remaining handles makes an
invalid access — is false of the code: `Drop for RcNode` (rc.rs 125-153) takes the children off one after another, and if
this is interrupted by a panic the `Rc` of the node is released nevertheless, while the remaining children still point to
it as their parent. What does hold: the drop itself makes no invalid access, it destroys no item twice, and trees other than
the one that is being dropped are not affected.
-/
namespace Trees
set_option linter.unusedSimpArgs false
set_option linter.unusedVariables false
variable {α : Type}

/-! ### The defect -/

/-- A history; calls that panic are caught. -/
def pexec (m : RMachine α) : List (PROp α) → Option (RMachine α)
  | [] => some m
  | op :: ops => match pstep m op with
    | .ok m' _ => pexec m' ops
    | .panic m' => pexec m' ops
    | _ => none

/-- The last call makes an invalid access. -/
def pbad (ops : List (PROp Nat)) (op : PROp Nat) : Bool := match pexec RMachine.empty ops with
  | some m => match pstep m op with
    | .bad => true
    | _ => false
  | none => false

theorem pbad_spec {ops : List (PROp Nat)} {op : PROp Nat} (h : pbad ops op = true) :
    ∃ m, pexec RMachine.empty ops = some m ∧ pstep m op = .bad := by
  simp only [pbad] at h
  split at h
  · rename_i m hm
    split at h
    · rename_i hb; exact ⟨m, hm, hb⟩
    · simp at h
  · simp at h

/-- `root = RcNode::from( tr(1) /tr(2)/tr(3) ); child = root.back()`: variables 3 and 4. -/
def panicBase : List (ROp Nat) := [.excl (.treeNew 1), .excl (.treeNew 2), .excl (.treeNew 3), .excl (.pushBack 0 [] 1),
  .excl (.pushBack 0 [] 2), .fromTree 0, .back 3]

/-- **C59** (refutation) `drop(root)` with a destructor of item `2` that panics; then `child.parent()`, `child.is_root()` or
`child.detach()` reads the released root. Nothing of this is unsafe code. -/
theorem c59_refuted_destructor : ∀ op ∈ [ROp.parent 4, .isRoot 4, .detach 4],
    ∃ m, pexec RMachine.empty (panicBase.map .call ++ [.dropPanic 3 0]) = some m ∧ pstep m (.call op) = .bad := by
  intro op ho
  simp only [List.mem_cons, List.not_mem_nil, or_false] at ho
  rcases ho with rfl | rfl | rfl <;> exact pbad_spec (by decide +kernel)

/-- **C59** (refutation) the same with `mem::forget( root.data() )` instead of a panicking destructor: the drop of `root`
conflicts with the guard, panics, and releases the root. -/
theorem c59_refuted_forgotten_guard : ∀ op ∈ [ROp.parent 4, .isRoot 4, .detach 4],
    ∃ m, pexec RMachine.empty (panicBase.map .call ++ [.call (.borrow 3), .forgetGuard 5, .call (.drop 3)]) = some m ∧ pstep m (.call op) = .bad := by
  intro op ho
  simp only [List.mem_cons, List.not_mem_nil, or_false] at ho
  rcases ho with rfl | rfl | rfl <;> exact pbad_spec (by decide +kernel)

/-- Before the drop all of that is fine: the calls return. -/
example : (pexec RMachine.empty (panicBase.map .call ++ [.call (.parent 4), .call (.isRoot 4)])).isSome = true := by decide +kernel

/-! ### What holds -/

section
variable {m : RMachine α} (hr : SReachable m)
include hr

/-- **C59** without a panicking destructor and without forgotten guards the calls are those of `rstep`. -/
theorem c59_ordinary (op : ROp α) : pstep m (.call op) = rstep m op := si_pstep hr.si op

/-- **C59** a destructor that would only panic later has no effect. (`doomed`: the items that the drop destroys, in this order.) -/
theorem c59_late {k : Var} {t : RTree (Addr × α)} (hk : m.look k = some t) (hg : m.guarded k = false) {j : Nat}
    (hj : (m.doomed k t).length ≤ j) : pstep m (.dropPanic k j) = rstep m (.drop k) := (si_dropPanic hr.si hk hg j).1 hj

/-- **C59** if the destructor of the `j`-th item panics, so does the drop. The items up to this one have been destroyed, in the usual
order; after this only items that were to be destroyed anyway are destroyed, none of them twice. Exclusive values
are not affected, and neither are the handles to nodes of other trees. (Missing: later calls through handles to nodes of
this tree; see `c59_refuted_destructor`.) -/
theorem c59_panic_partial {k : Var} {t : RTree (Addr × α)} (hk : m.look k = some t) (hg : m.guarded k = false) {j : Nat}
    (hj : j < (m.doomed k t).length) :
    ∃ m' l, pstep m (.dropPanic k j) = .panic m' ∧ m'.refs = upd m.refs k none ∧ m'.look k = none ∧
      m'.heap.log = m.heap.log ++ l ∧ (m.doomed k t).take (j + 1) <+: l ∧ l.Sublist (m.doomed k t) ∧ m'.excl.view = m.excl.view ∧
      ∀ i ti, i ≠ k → m.look i = some ti → ti.data.1 ∉ t.ids → m'.look i = some ti := by
  obtain ⟨m', l, h1, h2, h3, h4, h5, h6, h7, h8, h9⟩ := (si_dropPanic hr.si hk hg j).2 hj
  exact ⟨m', l, h1, h3, by simp [RMachine.look, h3], h5, h7, h6, h8, h9⟩

/-- **C59** forgetting a guard changes nothing but the name (the node stays borrowed). -/
theorem c59_forget {g k : Var} {a : Addr} {w : Bool} (hg : m.refs g = some (.guard k a w)) :
    ∃ m', pstep m (.forgetGuard g) = .ok m' .unit ∧ m'.heap = m.heap ∧ m'.env = m.env ∧ m'.refs = upd m.refs g none ∧ ∀ j, m'.look j = m.look j := by
  refine ⟨⟨m.heap, m.env, upd m.refs g none, m.fresh⟩, by simp [pstep, hg], rfl, rfl, rfl, fun j => ?_⟩
  simp only [RMachine.look]
  by_cases e : j = g
  · subst e; simp [hg]
  · simp [upd_of_ne _ _ e]

end

/-! ### A case -/

/-- The tree of `panicBase` and another tree `7` with a handle (variable 6). -/
def panicDemoOps : List (ROp Nat) := panicBase ++ [.excl (.treeNew 7), .fromTree 5]
def panicDemo : RMachine Nat := sAfter panicDemoOps
theorem panicDemo_reach : SReachable panicDemo := sAfter_reach _

/-- What the handles show, the log, and the outcome of `drop(3)` with the first destructor panicking. -/
def panicDemoCheck : Bool :=
  match sexec RMachine.empty panicDemoOps with
  | some m => (m.look 3).map (fun t => t.map Prod.snd) |>.elim false fun t => decide (t.post = [2, 3, 1]) &&
      !m.guarded 3 && decide (((m.look 6).map fun t => t.post.map Prod.snd) = some [7]) &&
      match pstep m (.dropPanic 3 0) with
      | .panic m' => decide (m'.heap.log = [2, 1]) && decide (((m'.look 6).map fun t => t.post.map Prod.snd) = some [7])
      | _ => false
  | none => false

/-- The root and `7` have handles; only item `2` is destroyed, then the root; `3` has a handle and stays; the handle to `7` is fine. -/
theorem panicDemo_check : panicDemoCheck = true := by decide +kernel

def panicDemoTree : RTree (Addr × Nat) := .node (0, 1) [.node (1, 2) [], .node (2, 3) []]

theorem panicDemo_look : (panicDemo.look 3).map (fun t => t.pre) = some panicDemoTree.pre ∧ (panicDemo.look 3).map (fun t => t.post) = some panicDemoTree.post := by
  decide +kernel
theorem panicDemo_free : panicDemo.guarded 3 = false := by decide +kernel

def dropLog (m : RMachine Nat) (k : Var) : Option (List Nat) := match rstep m (.drop k) with
  | .ok m' _ => some m'.heap.log
  | _ => none
theorem panicDemo_log : panicDemo.heap.log = [] ∧ dropLog panicDemo 3 = some [2, 1] := by decide +kernel
attribute [irreducible] panicDemo

/-- The hypotheses of `c59_panic_partial` hold in a case where a child survives: the drop would destroy `2` and `1`. -/
theorem panicDemo_doomed {t : RTree (Addr × Nat)} (hk : panicDemo.look 3 = some t) : panicDemo.doomed 3 t = [2, 1] := by
  obtain ⟨m', h1, -, -, -, -, h6⟩ := c34_drop panicDemo_reach hk panicDemo_free
  have h7 := panicDemo_log.2
  simp only [dropLog, h1, Option.some.injEq] at h7
  have h8 : m'.heap.log = panicDemo.heap.log ++ panicDemo.doomed 3 t := congrArg (fun s => s.dropped) h6
  rw [h7, panicDemo_log.1] at h8
  simpa using h8.symm

example : ∃ t m' l, panicDemo.look 3 = some t ∧ pstep panicDemo (.dropPanic 3 0) = .panic m' ∧ m'.heap.log = panicDemo.heap.log ++ l ∧
    [2] <+: l ∧ l.Sublist [2, 1] := by
  have := panicDemo_look.1
  cases hk : panicDemo.look 3 with
  | none => rw [hk] at this; simp at this
  | some t =>
    have hd := panicDemo_doomed hk
    obtain ⟨m', l, h1, -, -, h4, h5, h6, -⟩ := c59_panic_partial panicDemo_reach hk panicDemo_free (j := 0) (by rw [hd]; simp)
    rw [hd] at h5 h6
    exact ⟨t, m', l, rfl, h1, h4, h5, h6⟩

end Trees
