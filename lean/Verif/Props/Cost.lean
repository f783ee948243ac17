import Verif.Proof.CostRun
import Verif.Props.Refinement
/-
C63: how much work the operations do.
-/
namespace Trees
open RTree
variable {α : Type}

namespace Fine
open Proof

/-- Destructors are called one at a time. -/
theorem log_le_cost {β : Type} {A : Alloc} {p : Prog α β} {h h' : Heap α} {b : β} (e : p.run A h = .ok b h') :
    h'.log.length ≤ h.log.length + cost A p h := by
  induction p generalizing h with
  | ret c => cases e; exact Nat.le_add_right _ _
  | fail x => cases e
  | acc a k ih =>
    simp only [Prog.run] at e
    simp only [cost]
    cases e1 : a.run A h with
    | ok x h1 =>
      rw [e1] at e
      have := ih x e
      have h2 : h1.log.length ≤ h.log.length + a.weight := by
        cases a with
        | make d => simp only [Acc.run, makeNodeA] at e1; split at e1 <;> cases e1; exact Nat.le_succ _
        | newVec n => simp only [Acc.run, newVecA] at e1; split at e1 <;> cases e1; exact Nat.le_succ _
        | ptr f b => cases f <;> (obtain ⟨-, -, rfl⟩ := rd_ok e1; exact Nat.le_succ _)
        | size b => obtain ⟨-, -, rfl⟩ := rd_ok e1; exact Nat.le_succ _
        | data b => obtain ⟨-, -, rfl⟩ := rd_ok e1; exact Nat.le_succ _
        | setPtr f b v =>
          cases f with
          | prev => obtain ⟨-, rfl⟩ := wr_ok (f := fun h => { h with prev := upd h.prev b v }) (b := b) e1; exact Nat.le_succ _
          | next => obtain ⟨-, rfl⟩ := wr_ok (f := fun h => { h with next := upd h.next b v }) (b := b) e1; exact Nat.le_succ _
          | head => obtain ⟨-, rfl⟩ := wr_ok (f := fun h => { h with head := upd h.head b v }) (b := b) e1; exact Nat.le_succ _
          | tail => obtain ⟨-, rfl⟩ := wr_ok (f := fun h => { h with tail := upd h.tail b v }) (b := b) e1; exact Nat.le_succ _
          | up => obtain ⟨-, rfl⟩ := wr_ok (f := fun h => { h with up := upd h.up b v }) (b := b) e1; exact Nat.le_succ _
        | setSize b v => obtain ⟨-, rfl⟩ := wr_ok (f := fun h => { h with size := upd h.size b v }) (b := b) e1; exact Nat.le_succ _
        | setData b v => obtain ⟨-, rfl⟩ := wr_ok (f := fun h => { h with data := upd h.data b v }) (b := b) e1; exact Nat.le_succ _
        | vecNode v i =>
          simp only [Acc.run, Trees.vecNode] at e1
          split at e1
          · cases e1
          · split at e1 <;> cases e1; exact Nat.le_succ _
        | getRef v => simp only [Acc.run] at e1; split at e1 <;> cases e1; exact Nat.le_succ _
        | setRef v => simp only [Acc.run] at e1; split at e1 <;> cases e1; exact Nat.le_succ _
        | freeVec v => simp only [Acc.run] at e1; split at e1 <;> cases e1; exact Nat.le_succ _
        | bound => simp only [Acc.run] at e1; cases e1; exact Nat.le_refl _
        | logDrop d => simp only [Acc.run, Trees.logDrop] at e1; cases e1; simp [Acc.weight]
        | rcDrop o =>
          simp only [Acc.run, Trees.rcDrop] at e1
          split at e1
          · split at e1
            · cases e1
              have : (h.data o).val?.toList.length ≤ 1 := by cases (h.data o).val? <;> simp
              simp only [List.length_append, Acc.weight]
              omega
            · split at e1 <;> cases e1; exact Nat.le_succ _
          · cases e1
      simp only []
      omega
    | err x h1 => rw [e1] at e; cases e

theorem counted_step {m : Machine α} {K : Addr → List Addr} (M : MInv m K) (op : Op α) : m.counted op = Trees.step m op := by
  have hr := step_runF m.vars m.heap op
  obtain ⟨q, h', e⟩ := step_complete M op
  rw [e] at hr
  simp only [Machine.counted, e]
  cases q with
  | ok v o => exact hr.symm
  | panic v => exact hr.symm
  | rejected => exact hr.2.symm
  | bad => exact hr.symm

theorem program_cost : ∀ (ops : List (Op α)) (m : Machine α) (K : Addr → List Addr) (S : Store α), MInv m K → Abs m K S →
    m.accessesAll ops ≤ Spec.budgetAll S ops := by
  intro ops
  induction ops with
  | nil => intro m K S M A; exact Nat.zero_le _
  | cons op ops ih =>
    intro m K S M A
    have hc := step_cost M A op
    have hr := step_runF m.vars m.heap op
    have hs := step_refines M A op
    obtain ⟨q, h', e⟩ := step_complete M op
    have hx : ∀ (v : Vars) (h : Heap α) (o : Outcome Unit α), cost .fresh ((exec v ops).bind fun q => .ret (q.1, o :: q.2)) h = cost .fresh (exec v ops) h := by
      intro v h o
      rw [← bind_eq, cost_bind]
      cases (exec v ops).run .fresh h <;> rfl
    simp only [Machine.accessesAll, exec, Spec.budgetAll]
    rw [← bind_eq, cost_bind, e]
    rw [e] at hr
    refine Nat.add_le_add hc ?_
    cases q with
    | ok v o =>
      simp only [SRelF] at hr
      rw [show Trees.step m op = _ from hr] at hs
      cases e2 : specStep S op with
      | ok S' o' =>
        rw [e2] at hs
        obtain ⟨-, K', M', A'⟩ := hs
        simp only [hx]
        exact ih _ K' S' M' A'
      | _ => rw [e2] at hs; exact hs.elim
    | panic v =>
      simp only [SRelF] at hr
      rw [show Trees.step m op = _ from hr] at hs
      cases e2 : specStep S op with
      | panic S' =>
        rw [e2] at hs
        obtain ⟨K', M', A'⟩ := hs
        simp only [hx]
        exact ih _ K' S' M' A'
      | _ => rw [e2] at hs; exact hs.elim
    | rejected =>
      simp only [SRelF] at hr
      obtain ⟨rfl, hr⟩ := hr
      rw [show Trees.step m op = _ from hr] at hs
      cases e2 : specStep S op with
      | rejected =>
        simp only [hx]
        exact ih m K S M A
      | _ => rw [e2] at hs; exact hs.elim
    | bad =>
      simp only [SRelF] at hr
      rw [show Trees.step m op = _ from hr] at hs
      cases e2 : specStep S op <;> (rw [e2] at hs; exact hs.elim)

end Fine

/-- What is counted is the call: with memory that is never reused the counted run has exactly the outcome of the call. -/
theorem c63_counted {m : Machine α} (hr : Reachable m) (op : Op α) : m.counted op = step m op := by
  obtain ⟨K, M⟩ := Proof.reachable_minv hr
  exact Fine.counted_step M op

/-- **C63** in every reachable state every call keeps within its budget, which depends only on the call and on the shape of the
plain trees in the variables. -/
theorem c63_cost {m : Machine α} (hr : Reachable m) (op : Op α) : m.accesses op ≤ Spec.budget m.store op := by
  obtain ⟨K, M⟩ := Proof.reachable_minv hr
  exact Fine.step_cost M M.abs_store op

/-- **C63** for whole programs. -/
theorem c63_program (ops : List (Op α)) : (Machine.empty : Machine α).accessesAll ops ≤ Spec.budgetAll Store.empty ops :=
  Fine.program_cost ops _ _ _ Proof.minv_empty (by
    refine ⟨fun x => ?_, rfl, ?_⟩ <;> simp [Machine.empty, Store.empty, Heap.empty])

/-- The other direction: a call that destroys items makes at least one access for each of them. -/
theorem c63_lower {m m' : Machine α} (hr : Reachable m) {op : Op α} {o : Out α} (e : step m op = .ok m' o) :
    m'.store.dropped.length ≤ m.store.dropped.length + m.accesses op := by
  rw [← c63_counted hr op] at e
  simp only [Machine.counted] at e
  cases e1 : (Fine.step m.vars op).run Alloc.fresh m.heap with
  | err x h => rw [e1] at e; cases e
  | ok q h =>
    rw [e1] at e
    have := Fine.log_le_cost e1
    cases q with
    | ok v o' => cases e; exact this
    | _ => cases e

/-- So the drop of a value is neither cheaper nor dearer than proportional to the number of its nodes. -/
theorem c63_drop_exact {m : Machine α} (hr : Reachable m) {x : Var} {v : Val α} (hx : m.store.vars x = some v) :
    v.count ≤ m.accesses (.drop x) ∧ m.accesses (.drop x) ≤ 19 * v.count + 10 := by
  constructor
  · have hs := c10_step hr (.drop x)
    simp only [specStep, hx] at hs
    cases e : step m (.drop x) with
    | ok m' o =>
      rw [e] at hs
      simp only [Outcome.map, Outcome.ok.injEq] at hs
      have := c63_lower hr e
      rw [hs.1] at this
      simp only [Store.drop, Store.set, List.length_append] at this
      have hp : v.post.length = v.count := by
        cases v with
        | tree t => simp [Val.post, post_length, Val.count]
        | forest t => simp [Val.post, postL_length, Val.count]
        | iter t => simp [Val.post, postL_length, Val.count]
      omega
    | _ => rw [e] at hs; simp [Outcome.map] at hs
  · have := c63_cost hr (.drop x)
    simpa [Spec.budget, Spec.nodes, hx] using this

/-- Calls at the root of a value, at either end of its list of children. -/
def Spec.atEnds : Op α → Prop
  | .treeNew _ | .forestNew | .abandon _ | .intoIter _ | .iterNext _ | .iterLen _ => True
  | .pushFront _ p _ | .pushBack _ p _ | .popFront _ p | .popBack _ p => p = []
  | .degree _ p | .nodeCount _ p | .hasNoChild _ p | .frontData _ p | .backData _ p => p = []
  | .setData _ l _ | .data _ l => l = .root
  | _ => False

/-- A program of such calls works in time linear in the number of its calls, however large its trees become. -/
theorem c63_linear {ops : List (Op α)} (h : ∀ op, op ∈ ops → Spec.atEnds op) :
    (Machine.empty : Machine α).accessesAll ops ≤ 12 * ops.length := by
  refine Nat.le_trans (c63_program ops) ?_
  generalize (Store.empty : Store α) = S
  induction ops generalizing S with
  | nil => exact Nat.zero_le _
  | cons op ops ih =>
    have h1 : Spec.budget S op ≤ 12 := by
      have := h op (List.mem_cons_self ..)
      cases op <;> simp only [Spec.atEnds] at this <;> (try subst this) <;>
        simp [Spec.budget, Spec.walk, Spec.walkTo]
    have h2 : ∀ S, Spec.budgetAll S ops ≤ 12 * ops.length := fun S => ih (fun o ho => h o (List.mem_cons_of_mem _ ho)) S
    simp only [Spec.budgetAll, List.length_cons]
    rw [Nat.mul_add, Nat.add_comm _ (12 * 1)]
    refine Nat.add_le_add h1 ?_
    cases specStep S op <;> exact h2 _

/-! Concrete cases. -/

/-- A tree of four nodes in three levels, a copy, and the drops of both. -/
def costProg : List (Op Nat) :=
  [.treeNew 1, .treeNew 2, .treeNew 3, .treeNew 4, .pushBack 2 [] 3, .pushBack 0 [] 1, .pushFront 0 [] 2,
   .pushBack 0 [0, 0] 9, .mapBfs 0 .root (fun _ d => d), .degree 0 [0, 0], .drop 0, .drop 4]

/-- 205 accesses; the budget is 316. -/
example : Machine.empty.accessesAll costProg = 205 ∧ Spec.budgetAll Store.empty costProg = 316 := by decide +kernel

/-- The first seven calls are calls at the ends: 33 accesses, at most 84. -/
example : (∀ op, op ∈ costProg.take 7 → Spec.atEnds op) ∧ Machine.empty.accessesAll (costProg.take 7) = 33 := by
  refine ⟨?_, by decide +kernel⟩
  simp [costProg, Spec.atEnds]

/-- The same push costs the same with one child and with a thousand, by `c63_cost`; below the root it costs more. -/
example (S : Store Nat) : Spec.budget S (.pushBack 0 [] 1) = 11 ∧ Spec.budget S (.pushBack 0 [2, 0] 1) = 25 := ⟨rfl, rfl⟩

end Trees
