import Verif.Proof.Step
/-
C10: any sequence of calls of the exclusive-ownership API behaves like the same sequence on plain
rose-tree values held in variables.
-/
namespace Trees
set_option linter.unusedSimpArgs false
variable {α : Type}

/-- Change the state in an outcome. -/
def Outcome.map {σ τ : Type} (f : σ → τ) : Outcome σ α → Outcome τ α
  | .ok s o => .ok (f s) o
  | .panic s => .panic (f s)
  | .rejected => .rejected
  | .bad => .bad

/-- Run a program: calls rejected by the compiler are skipped, panics are caught and recorded. -/
def exec {σ : Type} (st : σ → Op α → Outcome σ α) : σ → List (Op α) → σ × List (Outcome Unit α)
  | s, [] => (s, [])
  | s, op :: ops =>
    let r := st s op
    let s' := match r with
      | .ok s' _ => s'
      | .panic s' => s'
      | _ => s
    let (s'', os) := exec st s' ops
    (s'', r.map (fun _ => ()) :: os)

namespace Proof

theorem minv_empty : MInv (Machine.empty : Machine α) (fun _ => []) := by
  refine ⟨⟨⟨?_, ?_, ?_, ?_, ?_, ?_, ?_⟩, ?_, ?_⟩, ⟨?_, ?_, ?_, ?_, ?_, ?_, ?_⟩, ?_, ?_, ?_, ?_, ?_⟩ <;>
    intros <;> simp_all [Machine.empty, Heap.empty, Heap.Used, SzInv, Bnd]

theorem reachable_minv {m : Machine α} (h : Reachable m) : ∃ K, MInv m K := by
  induction h with
  | init => exact ⟨_, minv_empty⟩
  | ok hr e ih =>
    rename_i m m' op o
    obtain ⟨K, M⟩ := ih
    have := step_refines M M.abs_store op
    rw [e] at this
    cases hs : specStep m.store op <;> rw [hs] at this <;> simp only [Sim] at this
    obtain ⟨_, K', M', _⟩ := this
    exact ⟨K', M'⟩
  | panic hr e ih =>
    rename_i m m' op
    obtain ⟨K, M⟩ := ih
    have := step_refines M M.abs_store op
    rw [e] at this
    cases hs : specStep m.store op <;> rw [hs] at this <;> simp only [Sim] at this
    obtain ⟨K', M', _⟩ := this
    exact ⟨K', M'⟩

end Proof

/-- **C10** (one call).  In every reachable state every call has exactly the effect that the
specification gives on the plain values in the variables: same result, same new contents, same
destroyed items, same panics.  In particular it is never `bad` (no access to dead memory, no
unbounded loop, no unexpected panic), since `specStep` never is. -/
theorem c10_step {m : Machine α} (hr : Reachable m) (op : Op α) :
    (step m op).map Machine.store = specStep m.store op := by
  obtain ⟨K, M⟩ := Proof.reachable_minv hr
  have := step_refines M M.abs_store op
  cases h1 : step m op <;> cases h2 : specStep m.store op <;> rw [h1, h2] at this <;> simp only [Sim] at this
  · obtain ⟨e, K', M', A'⟩ := this
    simp [Outcome.map, e, A'.store_eq M']
  · obtain ⟨K', M', A'⟩ := this
    simp [Outcome.map, A'.store_eq M']
  · rfl

/-- No call in a reachable state accesses dead memory, loops forever or panics unexpectedly. -/
theorem c10_never_bad {m : Machine α} (hr : Reachable m) (op : Op α) : step m op ≠ .bad := by
  intro h
  have := c10_step hr op
  rw [h] at this
  have hs : ∀ (S : Store α) (op : Op α), specStep S op ≠ .bad := by
    intro S op
    cases op <;> simp only [specStep, Store.takeTree, Store.takeForest, Store.onKids, Store.onNode] <;>
      (repeat' split) <;> simp
  exact hs _ _ this.symm

/-- **C10** (whole programs).  Running any program from the empty state gives, call by call, the
results of the specification, and the final contents agree. -/
theorem c10_programs (ops : List (Op α)) :
    (exec step (Machine.empty : Machine α) ops).2 = (exec specStep Store.empty ops).2 ∧
    (exec step (Machine.empty : Machine α) ops).1.store = (exec specStep Store.empty ops).1 := by
  have key : ∀ (ops : List (Op α)) (m : Machine α), Reachable m →
      (exec step m ops).2 = (exec specStep m.store ops).2 ∧
      (exec step m ops).1.store = (exec specStep m.store ops).1 := by
    intro ops
    induction ops with
    | nil => intro m _; exact ⟨rfl, rfl⟩
    | cons op ops ih =>
      intro m hr
      have h := c10_step hr op
      cases e : step m op with
      | ok m' o =>
        rw [e] at h
        have := ih m' (.ok hr e)
        simp only [exec, e, ← h, Outcome.map, this]
        simp
      | panic m' =>
        rw [e] at h
        have := ih m' (.panic hr e)
        simp only [exec, e, ← h, Outcome.map, this]
        simp
      | rejected =>
        rw [e] at h
        have := ih m hr
        simp only [exec, e, ← h, Outcome.map, this]
        simp
      | bad =>
        rw [e] at h
        have := ih m hr
        simp only [exec, e, ← h, Outcome.map, this]
        simp
  have h0 : (Machine.empty : Machine α).store = Store.empty := by
    simp only [Machine.store, Store.empty, Machine.empty, Heap.empty]
    congr
  have := key ops Machine.empty .init
  rwa [h0] at this

/-- The state after a successful call is again reachable, with the specified contents. -/
theorem step_ok {m : Machine α} (hr : Reachable m) {op : Op α} {S : Store α} {o : Out α}
    (h : specStep m.store op = .ok S o) : ∃ m', step m op = .ok m' o ∧ m'.store = S ∧ Reachable m' := by
  have := c10_step hr op
  rw [h] at this
  cases e : step m op <;> rw [e] at this <;> simp [Outcome.map] at this
  rename_i m' o'
  obtain ⟨rfl, rfl⟩ := this
  exact ⟨m', rfl, rfl, .ok hr e⟩

/-- The state after a panic is again reachable, with the specified contents. -/
theorem step_panic {m : Machine α} (hr : Reachable m) {op : Op α} {S : Store α}
    (h : specStep m.store op = .panic S) : ∃ m', step m op = .panic m' ∧ m'.store = S ∧ Reachable m' := by
  have := c10_step hr op
  rw [h] at this
  cases e : step m op <;> rw [e] at this <;> simp [Outcome.map] at this
  rename_i m'
  exact ⟨m', rfl, this, .panic hr e⟩

/-- Every program leads to a reachable state. -/
theorem exec_reachable (ops : List (Op α)) : Reachable (exec step (Machine.empty : Machine α) ops).1 := by
  have key : ∀ (ops : List (Op α)) (m : Machine α), Reachable m → Reachable (exec step m ops).1 := by
    intro ops
    induction ops with
    | nil => intro m hr; exact hr
    | cons op ops ih =>
      intro m hr
      simp only [exec]
      cases e : step m op with
      | ok m' o => exact ih m' (.ok hr e)
      | panic m' => exact ih m' (.panic hr e)
      | rejected => exact ih m hr
      | bad => exact ih m hr
  exact key ops _ .init

/-- Example program: `0(1 2)` in variable 0 and a lone `3` in variable 3. -/
def demoOps : List (Op Nat) :=
  [.treeNew 0, .treeNew 1, .treeNew 2, .treeNew 3, .pushBack 0 [] 1, .pushBack 0 [] 2]

/-- The state after the example program, used to show that hypotheses can be met. -/
def demo : Machine Nat := (exec step Machine.empty demoOps).1

theorem demo_reachable : Reachable demo := exec_reachable _

theorem demo_view0 : demo.view 0 = some (.tree (.node 0 [.node 1 [], .node 2 []])) := by rfl
theorem demo_view3 : demo.view 3 = some (.tree (.node 3 [])) := by rfl

/-- The example program runs as specified, without panics. -/
example : (exec step Machine.empty demoOps).2 =
    [.ok () (.var 0), .ok () (.var 1), .ok () (.var 2), .ok () (.var 3), .ok () .unit, .ok () .unit] := by rfl

end Trees
