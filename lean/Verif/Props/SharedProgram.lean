import Verif.Proof.SharedCalls2
import Verif.Props.Crash
import Verif.Proof.NoBlock
/-
C54: any sequence of calls of the whole API, shared nodes included, behaves like the same sequence on plain values:
rose trees in variables, and a list of rose trees with numbered nodes that handles refer to.
-/
namespace Trees
set_option linter.unusedSimpArgs false
set_option linter.unusedVariables false
variable {α : Type}

/-- The handle in variable `k` refers to a node in a block. -/
def RMachine.inBlock (m : RMachine α) (k : Var) : Bool := match m.refs k with
  | some (.rc (.piled _ _)) => true
  | _ => false

/-- The call is not `clone` or `downgrade` on a handle to a node in a block (for those: C35, C36). -/
def RMachine.boxedCall (m : RMachine α) : ROp α → Bool
  | .clone k => !m.inBlock k
  | .downgrade k => !m.inBlock k
  | _ => true

/-- `clone` and `downgrade` are called on handles to nodes in boxes only. -/
def BoxedCalls (m : RMachine α) : List (ROp α) → Bool
  | [] => true
  | op :: ops => m.boxedCall op && BoxedCalls (match rstep m op with
      | .ok m' _ => m'
      | .panic m' => m'
      | _ => m) ops

/-- No call of the program is excluded by the specification. -/
def Allowed : List (Outcome Unit α) → Prop
  | [] => True
  | .bad :: _ => False
  | _ :: os => Allowed os

/-- Exclusive values, dropped items and the trees that handles show are the same; `φ` tells the node of each identity. -/
structure Described (φ : Nat → Addr) (m : RMachine α) (s : SStore α) : Prop where
  excl : m.excl.store = s.excl
  looks : ∀ k, m.look k = (s.look k).map (RTree.map fun x => (φ x.1, x.2))
  distinct : ∀ k j t u x y, s.look k = some t → s.look j = some u → x ∈ t.ids → y ∈ u.ids → φ x = φ y → x = y

theorem boxedOnly_of {m : RMachine α} {op : ROp α} (h : m.boxedCall op = true) : BoxedOnly m op := by
  cases op <;> first | trivial | skip
  all_goals
    intro v i e
    simp [RMachine.boxedCall, RMachine.inBlock, e] at h

theorem SSim.look_eq {φ : Nat → Addr} {m : RMachine α} {s : SStore α} (S : SSim φ m s) (k : Var) : m.look k = (s.look k).map (RTree.relab φ) := by
  rcases S.cases k with ⟨u, h1, h2, h3, -⟩ | ⟨h1, h2⟩
  · rw [h3]; simp only [SStore.look, h2, S.node_eq h1]; rfl
  · rw [h1]
    cases h : s.refs k with
    | none => simp only [SStore.look, h]; rfl
    | some r =>
      cases r with
      | rc i =>
        obtain ⟨u, -, -, -, h4⟩ := S.handle h
        rw [h4] at h1; simp at h1
      | weak i => simp only [SStore.look, h]; rfl
      | guard j w => simp only [SStore.look, h]; rfl
      | iter c n => simp only [SStore.look, h]; rfl

theorem SSim.described {φ : Nat → Addr} {m : RMachine α} {s : SStore α} (S : SSim φ m s) : Described φ m s := by
  refine ⟨S.excl.symm, S.look_eq, fun k j t u x y h1 h2 hx hy he => ?_⟩
  have key : ∀ k t x, s.look k = some t → x ∈ t.ids → x ∈ RTree.idsL s.roots := by
    intro k t x h hx
    simp only [SStore.look] at h
    split at h
    · rename_i i hi
      exact RTree.subsL_ids (SSim.node_mem h).1 x hx
    · simp at h
  exact S.inj (key k t x h1 hx) (key j u y h2 hy) he

theorem SSim.program {φ : Nat → Addr} : ∀ (ops : List (ROp α)) {m : RMachine α} {s : SStore α}, (∃ φ, SSim φ m s) → BoxedCalls m ops = true → Allowed (runProg sstep s ops).2 →
    (runProg rstep m ops).2 = (runProg sstep s ops).2 ∧ ∃ φ, SSim φ (runProg rstep m ops).1 (runProg sstep s ops).1
  | [], m, s, S, _, _ => ⟨rfl, S⟩
  | op :: ops, m, s, S, h1, h2 => by
    obtain ⟨φ', S⟩ := S
    simp only [BoxedCalls, Bool.and_eq_true] at h1
    have hb : sstep s op ≠ .bad := by
      intro e
      simp only [runProg, e, Allowed] at h2
    have hm := S.call op (boxedOnly_of h1.1) hb
    have h1' := h1.2
    simp only [runProg] at h2 ⊢
    cases hr : rstep m op with
    | ok m' o =>
      cases hs : sstep s op with
      | ok s' o' =>
        rw [hr, hs] at hm
        obtain ⟨rfl, hm⟩ := hm
        rw [hr] at h1'
        rw [hs] at h2
        obtain ⟨g1, g2⟩ := SSim.program (φ := φ) ops hm h1' h2
        exact ⟨by simp only [g1], g2⟩
      | panic s' => rw [hr, hs] at hm; exact hm.elim
      | rejected => rw [hr, hs] at hm; exact hm.elim
      | bad => exact absurd hs hb
    | panic m' =>
      cases hs : sstep s op with
      | panic s' =>
        rw [hr, hs] at hm
        rw [hr] at h1'
        rw [hs] at h2
        obtain ⟨g1, g2⟩ := SSim.program (φ := φ) ops hm h1' h2
        exact ⟨by simp only [g1], g2⟩
      | ok s' o' => rw [hr, hs] at hm; exact hm.elim
      | rejected => rw [hr, hs] at hm; exact hm.elim
      | bad => exact absurd hs hb
    | rejected =>
      cases hs : sstep s op with
      | rejected =>
        rw [hr] at h1'
        rw [hs] at h2
        obtain ⟨g1, g2⟩ := SSim.program (φ := φ) ops ⟨φ', S⟩ h1' h2
        exact ⟨by simp only [g1], g2⟩
      | ok s' o' => rw [hr, hs] at hm; exact hm.elim
      | panic s' => rw [hr, hs] at hm; exact hm.elim
      | bad => exact absurd hs hb
    | bad => rw [hr] at hm; cases hs : sstep s op <;> rw [hs] at hm <;> exact hm.elim

/-- **C54** every program that makes no excluded call, and clones or downgrades no handle to a node in a block, has the
results, panics and rejected calls that the specification says; afterwards, exclusive values, dropped items and the
trees below all handles, with the identities of all nodes, are those of the specification. -/
theorem c54_program (ops : List (ROp α)) (h1 : BoxedCalls RMachine.empty ops = true) (h2 : Allowed (runProg sstep SStore.empty ops).2) :
    (runProg rstep RMachine.empty ops).2 = (runProg sstep SStore.empty ops).2 ∧
      ∃ φ, Described φ (runProg rstep RMachine.empty ops).1 (runProg sstep SStore.empty ops).1 := by
  obtain ⟨g1, φ, g2⟩ := SSim.program (φ := fun _ => 0) ops ⟨_, ssim_empty⟩ h1 h2
  exact ⟨g1, φ, g2.described⟩

/-- The program contains no call of `clone` or `downgrade`. -/
def NoCount : List (ROp α) → Bool
  | [] => true
  | .clone _ :: _ => false
  | .downgrade _ :: _ => false
  | _ :: ops => NoCount ops

theorem boxedCalls_of_noCount : ∀ (ops : List (ROp α)) (m : RMachine α), NoCount ops = true → BoxedCalls m ops = true
  | [], _, _ => rfl
  | op :: ops, m, h => by
    cases op <;> simp only [NoCount, Bool.false_eq_true] at h <;> simp only [BoxedCalls, RMachine.boxedCall, Bool.true_and] <;> exact boxedCalls_of_noCount ops _ h

/-- **C54** without a condition on the memory: programs without `clone` and `downgrade` (new handles still come from
`front`, `back`, `parent`, `iter_rc`, `pop_front`, `pop_back`, `From`). -/
theorem c54_no_count (ops : List (ROp α)) (h1 : NoCount ops = true) (h2 : Allowed (runProg sstep SStore.empty ops).2) :
    (runProg rstep RMachine.empty ops).2 = (runProg sstep SStore.empty ops).2 ∧
      ∃ φ, Described φ (runProg rstep RMachine.empty ops).1 (runProg sstep SStore.empty ops).1 :=
  c54_program ops (boxedCalls_of_noCount ops _ h1) h2

/-- Every call of the program is one that builds no block. -/
def NoBlocks (ops : List (ROp α)) : Bool := ops.all ROp.boxed

theorem boxedCalls_of_noVec {φ : Nat → Addr} : ∀ (ops : List (ROp α)) {m : RMachine α} {s : SStore α}, (∃ φ, SSim φ m s) → NoVec m.heap →
    NoBlocks ops = true → Allowed (runProg sstep s ops).2 → BoxedCalls m ops = true
  | [], m, s, _, _, _, _ => rfl
  | op :: ops, m, s, S, H, h1, h2 => by
    obtain ⟨φ', S⟩ := S
    simp only [NoBlocks, List.all_cons, Bool.and_eq_true] at h1
    have nb : ∀ k, m.inBlock k = false := by
      intro k
      simp only [RMachine.inBlock]
      split
      · rename_i v i hk
        obtain ⟨G, K, T, I, -⟩ := S.reach.si
        obtain ⟨a, -, nv, d, hv, -⟩ := I.rcs k _ hk
        have := H v
        rw [I.heap] at this
        simp [bumpE, bumpZ, Heap.over, bumpVec, hv] at this
      · rfl
    have hbox : m.boxedCall op = true := by cases op <;> simp [RMachine.boxedCall, nb]
    have hb : sstep s op ≠ .bad := by
      intro e
      simp only [runProg, e, Allowed] at h2
    have hm := S.call op (boxedOnly_of hbox) hb
    have hv := rstep_noVec H op h1.1
    simp only [BoxedCalls, hbox, Bool.true_and]
    simp only [runProg] at h2
    cases hr : rstep m op with
    | ok m' o =>
      cases hs : sstep s op with
      | ok s' o' =>
        rw [hr, hs] at hm; rw [hr] at hv; rw [hs] at h2
        exact boxedCalls_of_noVec (φ := φ) ops hm.2 hv h1.2 h2
      | panic s' => rw [hr, hs] at hm; exact hm.elim
      | rejected => rw [hr, hs] at hm; exact hm.elim
      | bad => exact absurd hs hb
    | panic m' =>
      cases hs : sstep s op with
      | panic s' =>
        rw [hr, hs] at hm; rw [hr] at hv; rw [hs] at h2
        exact boxedCalls_of_noVec (φ := φ) ops hm hv h1.2 h2
      | ok s' o' => rw [hr, hs] at hm; exact hm.elim
      | rejected => rw [hr, hs] at hm; exact hm.elim
      | bad => exact absurd hs hb
    | rejected =>
      cases hs : sstep s op with
      | rejected =>
        rw [hs] at h2
        exact boxedCalls_of_noVec (φ := φ) ops ⟨φ', S⟩ H h1.2 h2
      | ok s' o' => rw [hr, hs] at hm; exact hm.elim
      | panic s' => rw [hr, hs] at hm; exact hm.elim
      | bad => exact absurd hs hb
    | bad => rw [hr] at hm; cases hs : sstep s op <;> rw [hs] at hm <;> exact hm.elim

/-- **C54** without a condition on the memory: all programs, `clone` and `downgrade` included, in which no tree or forest is
built from a breadth-first iterator or a tuple, cloned or deep-cloned. -/
theorem c54_no_blocks (ops : List (ROp α)) (h1 : NoBlocks ops = true) (h2 : Allowed (runProg sstep SStore.empty ops).2) :
    (runProg rstep RMachine.empty ops).2 = (runProg sstep SStore.empty ops).2 ∧
      ∃ φ, Described φ (runProg rstep RMachine.empty ops).1 (runProg sstep SStore.empty ops).1 :=
  c54_program ops (boxedCalls_of_noVec (φ := fun _ => 0) ops ⟨_, ssim_empty⟩ (fun _ => rfl) h1 h2) h2

/-! ### The hypotheses are met -/

/-- `1(2(3) 4)` becomes shared; two handles to node `2`; while the item is borrowed, a push (which drops its argument)
and an assignment panic and the handle cannot be dropped; later the item is replaced, a tree is pushed, the children of the root
are visited, node `2` is detached; the root, then node `4`, are released; the last handle is turned into a tree. -/
def progDemo : List (ROp Nat) :=
  [.excl (.treeNew 1), .excl (.treeNew 2), .excl (.treeNew 3), .excl (.treeNew 4), .excl (.pushBack 1 [] 2),
   .excl (.pushBack 0 [] 1), .excl (.pushBack 0 [] 3), .fromTree 0, .front 4, .clone 5, .excl (.treeNew 9),
   .borrow 5, .pushBack 6 7, .setData 6 20, .guardRead 8, .drop 5, .drop 8, .drop 5, .setData 6 20,
   .excl (.treeNew 7), .pushBack 6 9, .iterRc 4, .iterNext 10, .iterNext 10, .iterNext 10, .detach 6, .parent 6, .nodeCount 4,
   .downgrade 12, .drop 12, .upgrade 13, .drop 4, .isRoot 6, .drop 14, .upgrade 13, .data 6, .drop 11, .intoTree 6,
   .excl (.nodeCount 15 [])]

/-- What the specification says about it. -/
def progDemoOut : List (Outcome Unit Nat) :=
  [.ok () (.var 0), .ok () (.var 1), .ok () (.var 2), .ok () (.var 3), .ok () .unit, .ok () .unit, .ok () .unit,
   .ok () (.var 4), .ok () (.var 5), .ok () (.var 6), .ok () (.var 7), .ok () (.var 8), .panic (), .panic (),
   .ok () (.item (some 2)), .rejected, .ok () .unit, .ok () .unit, .ok () .unit, .ok () (.var 9), .ok () .unit,
   .ok () (.var 10), .ok () (.var 11), .ok () (.var 12), .ok () .none, .ok () .unit, .ok () .none, .ok () (.nat 2),
   .ok () (.var 13), .ok () .unit, .ok () (.var 14), .ok () .unit, .ok () (.bool true), .ok () .unit, .ok () .none,
   .ok () (.item (some 20)), .ok () .unit, .ok () (.var 15), .ok () (.nat 3)]

theorem progDemo_boxed : BoxedCalls RMachine.empty progDemo = true := by decide +kernel
theorem progDemo_noBlocks : NoBlocks progDemo = true := by decide +kernel
theorem progDemo_out : (runProg sstep SStore.empty progDemo).2 = progDemoOut := by decide +kernel
theorem progDemo_dropped : (runProg sstep SStore.empty progDemo).1.excl.dropped = [9, 2, 1, 4] := by decide +kernel

example : Allowed (runProg sstep SStore.empty progDemo).2 := by rw [progDemo_out]; simp [progDemoOut, Allowed]

/-- The theorem, used: the code of the crate returns the same and drops the same items. -/
example : (runProg rstep RMachine.empty progDemo).2 = progDemoOut ∧ (runProg rstep RMachine.empty progDemo).1.excl.store.dropped = [9, 2, 1, 4] := by
  obtain ⟨h1, φ, h2⟩ := c54_program progDemo progDemo_boxed (by rw [progDemo_out]; simp [progDemoOut, Allowed])
  exact ⟨h1.trans progDemo_out, by rw [h2.excl, progDemo_dropped]⟩

/-- Without `clone` and `downgrade`: handles from `front`, `back`, `parent`. -/
def progDemo2 : List (ROp Nat) :=
  [.excl (.treeNew 1), .excl (.treeNew 2), .excl (.pushBack 0 [] 1), .fromTree 0, .front 2, .back 2, .parent 3, .popFront 2,
   .drop 2, .degree 5, .drop 5, .data 3]

example : NoCount progDemo2 = true := by decide +kernel
example : (runProg sstep SStore.empty progDemo2).2 =
    [.ok () (.var 0), .ok () (.var 1), .ok () .unit, .ok () (.var 2), .ok () (.var 3), .ok () (.var 4), .ok () (.var 5),
     .ok () (.var 6), .ok () .unit, .ok () (.nat 0), .ok () .unit, .ok () (.item (some 2))] := by decide +kernel

/-- Two iterators over the same children: a copy goes on by itself; `size_hint` counts down even if children are added. -/
def progDemo3 : List (ROp Nat) :=
  [.excl (.treeNew 1), .excl (.treeNew 2), .excl (.treeNew 3), .excl (.pushBack 0 [] 1), .excl (.pushBack 0 [] 2), .fromTree 0,
   .iterRc 3, .iterLen 4, .iterNext 4, .iterClone 4, .iterNext 4, .iterLen 4, .iterNext 4, .iterLen 6,
   .excl (.treeNew 9), .pushBack 3 8, .iterLen 6, .iterNext 6, .data 9, .iterNext 6, .drop 4, .iterClone 4, .iterLen 3]

attribute [irreducible] progDemo3
theorem progDemo3_out : (runProg sstep SStore.empty progDemo3).2 =
    [.ok () (.var 0), .ok () (.var 1), .ok () (.var 2), .ok () .unit, .ok () .unit, .ok () (.var 3),
     .ok () (.var 4), .ok () (.nat 2), .ok () (.var 5), .ok () (.var 6), .ok () (.var 7), .ok () (.nat 0), .ok () .none, .ok () (.nat 1),
     .ok () (.var 8), .ok () .unit, .ok () (.nat 1), .ok () (.var 9), .ok () (.item (some 3)), .ok () .none, .ok () .unit, .rejected, .rejected] := by
  decide +kernel
example : (runProg rstep RMachine.empty progDemo3).2 = (runProg sstep SStore.empty progDemo3).2 :=
  (c54_program progDemo3 (by decide +kernel) (by rw [progDemo3_out]; simp [Allowed])).1

end Trees
