import Verif.Proof.Ledger
/-
C52: no item is lost, duplicated or destroyed twice, over whole histories.
-/
namespace Trees
set_option linter.unusedSimpArgs false
variable {α : Type}
open RTree

/-- All items that the variables of the program give access to. -/
def Machine.held (m : Machine α) : List α := (List.range m.fresh).flatMap fun x => ((m.view x).map Val.post).getD []

/-- All items destroyed so far. -/
def Machine.destroyed (m : Machine α) : List α := m.heap.log

theorem Machine.held_store (m : Machine α) : m.store.held = m.held := rfl

namespace Ledger

theorem le_subperm {l l' : List α} : (∀ a, cn a l ≤ cn a l') → List.Subperm l l' := by
  classical
  intro h
  rw [List.subperm_ext_iff]
  intro a _
  have := h a
  unfold cn at this
  convert this

theorem eq_perm {l l' : List α} : (∀ a, cn a l = cn a l') → l.Perm l' := by
  classical
  intro h
  rw [List.perm_iff_count]
  intro a
  have := h a
  unfold cn at this
  convert this

theorem creach_fresh {m : Machine α} (hr : CReachable m) : ∀ z, m.store.fresh ≤ z → m.store.vars z = none := by
  obtain ⟨X, l, K, M, A⟩ := Proof.creachable_cinv hr
  intro z hz
  have := M.fr z hz
  show m.view z = none
  simp only at this
  simp [Machine.view, this]

end Ledger
open Ledger

/-! ### One call -/

/-- **C52** One call that returns: what is held and destroyed afterwards, together with what was handed out, is exactly what was
held and destroyed before, together with what was brought in — every item as often as before. -/
theorem c52_step {m m' : Machine α} (hr : Reachable m) {op : Op α} {o : Out α} (h : step m op = .ok m' o) :
    (m'.held ++ m'.destroyed ++ m.store.takes op).Perm (m.held ++ m.destroyed ++ m.store.brings op) := by
  have hb := spec_bal (creach_fresh (reachable_creachable hr)) op
  have e := c10_step hr op
  rw [h] at e
  rw [← e] at hb
  refine eq_perm fun a => ?_
  have := hb a
  simp only [cn_append]
  exact this

/-- **C52** The same for a call that panics by itself (such as inserting a sibling of a root). -/
theorem c52_panic {m m' : Machine α} (hr : Reachable m) {op : Op α} (h : step m op = .panic m') :
    (m'.held ++ m'.destroyed ++ m.store.takes op).Perm (m.held ++ m.destroyed ++ m.store.brings op) := by
  have hb := spec_bal (creach_fresh (reachable_creachable hr)) op
  have e := c10_step hr op
  rw [h] at e
  rw [← e] at hb
  refine eq_perm fun a => ?_
  have := hb a
  simp only [cn_append]
  exact this

/-! ### Programs -/

/-- The items brought in and handed out over the run of a program. -/
def ledger (st : Machine α → COp α → Outcome (Machine α) α) : Machine α → List (COp α) → List α × List α
  | _, [] => ([], [])
  | m, op :: ops =>
    match st m op with
    | .ok m' _ => ((m.store.bringsC op) ++ (ledger st m' ops).1, (m.store.takesC op) ++ (ledger st m' ops).2)
    | .panic m' => ((m.store.bringsC op) ++ (ledger st m' ops).1, (m.store.takesC op) ++ (ledger st m' ops).2)
    | _ => ledger st m ops

theorem ledger_le (ops : List (COp α)) {m : Machine α} (hr : CReachable m) :
    List.Subperm ((execC cstep m ops).1.held ++ (execC cstep m ops).1.destroyed ++ (ledger cstep m ops).2)
      (m.held ++ m.destroyed ++ (ledger cstep m ops).1) := by
  refine le_subperm fun a => ?_
  induction ops generalizing m with
  | nil => simp [execC, ledger]
  | cons op ops ih =>
    have hb := spec_le (creach_fresh hr) op
    have e := c45_step hr op
    cases h : cstep m op with
    | ok m' o =>
      rw [h] at e
      rw [← e] at hb
      have h1 := hb a
      have h2 := ih (.ok hr h)
      have h3 : ch a m'.store = cn a m'.held := rfl
      have h4 : ch a m.store = cn a m.held := rfl
      have h5 : m'.store.dropped = m'.destroyed := rfl
      have h6 : m.store.dropped = m.destroyed := rfl
      rw [h3, h4, h5, h6] at h1
      simp only [execC, ledger, h, cn_append] at h1 h2 ⊢
      omega
    | panic m' =>
      rw [h] at e
      rw [← e] at hb
      have h1 := hb a
      have h2 := ih (.panic hr h)
      have h3 : ch a m'.store = cn a m'.held := rfl
      have h4 : ch a m.store = cn a m.held := rfl
      have h5 : m'.store.dropped = m'.destroyed := rfl
      have h6 : m.store.dropped = m.destroyed := rfl
      rw [h3, h4, h5, h6] at h1
      simp only [execC, ledger, h, cn_append] at h1 h2 ⊢
      omega
    | rejected =>
      have h2 := ih hr
      simp only [execC, ledger, h] at h2 ⊢
      exact h2
    | bad =>
      have h2 := ih hr
      simp only [execC, ledger, h] at h2 ⊢
      exact h2

theorem ledger_eq (ops : List (Op α)) {m : Machine α} (hr : Reachable m) :
    ((execC cstep m (ops.map .call)).1.held ++ (execC cstep m (ops.map .call)).1.destroyed ++ (ledger cstep m (ops.map .call)).2).Perm
      (m.held ++ m.destroyed ++ (ledger cstep m (ops.map .call)).1) := by
  refine eq_perm fun a => ?_
  induction ops generalizing m with
  | nil => simp [execC, ledger]
  | cons op ops ih =>
    have hc : cstep m (.call op) = step m op := rfl
    cases h : step m op with
    | ok m' o =>
      have h1 : ∀ a, cn a _ = cn a _ := fun a => cn_perm a (c52_step hr h)
      have h1 := h1 a
      have h2 := ih (.ok hr h)
      simp only [List.map_cons, execC, ledger, hc, h, cn_append, Store.bringsC, Store.takesC] at h1 h2 ⊢
      omega
    | panic m' =>
      have h1 : ∀ a, cn a _ = cn a _ := fun a => cn_perm a (c52_panic hr h)
      have h1 := h1 a
      have h2 := ih (.panic hr h)
      simp only [List.map_cons, execC, ledger, hc, h, cn_append, Store.bringsC, Store.takesC] at h1 h2 ⊢
      omega
    | rejected =>
      have h2 := ih hr
      simp only [List.map_cons, execC, ledger, hc, h] at h2 ⊢
      exact h2
    | bad =>
      have h2 := ih hr
      simp only [List.map_cons, execC, ledger, hc, h] at h2 ⊢
      exact h2

/-- **C52** Whole programs without panicking user code: at every time, the items that were ever brought in are exactly those held,
those destroyed and those handed out, each as often as it was brought in. -/
theorem c52_programs (ops : List (Op α)) :
    ((execC cstep (Machine.empty : Machine α) (ops.map .call)).1.held ++ (execC cstep Machine.empty (ops.map .call)).1.destroyed ++
      (ledger cstep Machine.empty (ops.map .call)).2).Perm (ledger cstep (Machine.empty : Machine α) (ops.map .call)).1 := by
  have := ledger_eq ops (m := Machine.empty) .init
  simpa [Machine.held, Machine.destroyed, Machine.empty, Heap.empty] using this

/-- **C52** (nothing is lost) a program that has given up all its variables, without panicking user code: every item it brought in
was destroyed or handed out, exactly once. -/
theorem c52_all_destroyed (ops : List (Op α)) (h : ∀ x, (execC cstep (Machine.empty : Machine α) (ops.map .call)).1.view x = none) :
    ((execC cstep (Machine.empty : Machine α) (ops.map .call)).1.destroyed ++ (ledger cstep Machine.empty (ops.map .call)).2).Perm
      (ledger cstep (Machine.empty : Machine α) (ops.map .call)).1 := by
  have := c52_programs ops
  rwa [show (execC cstep (Machine.empty : Machine α) (ops.map .call)).1.held = [] by simp [Machine.held, h], List.nil_append] at this

/-- **C52** Whole programs that catch panics of their own code, forget values, and go on: items may be leaked, but what is held,
destroyed or handed out is never more than what was brought in. -/
theorem c52_never_twice (ops : List (COp α)) :
    List.Subperm ((execC cstep (Machine.empty : Machine α) ops).1.held ++ (execC cstep Machine.empty ops).1.destroyed ++
      (ledger cstep Machine.empty ops).2) (ledger cstep (Machine.empty : Machine α) ops).1 := by
  have := ledger_le ops (m := Machine.empty) .init
  simpa [Machine.held, Machine.destroyed, Machine.empty, Heap.empty] using this

/-- **C52** In particular, if all items brought in are distinct: no item is destroyed twice, none is in two places, none that is
destroyed or handed out is still held — panics or not. -/
theorem c52_distinct (ops : List (COp α)) (h : (ledger cstep (Machine.empty : Machine α) ops).1.Nodup) :
    (execC cstep (Machine.empty : Machine α) ops).1.destroyed.Nodup ∧ (execC cstep (Machine.empty : Machine α) ops).1.held.Nodup ∧
      (∀ d ∈ (execC cstep (Machine.empty : Machine α) ops).1.destroyed, d ∉ (execC cstep (Machine.empty : Machine α) ops).1.held) ∧
      (∀ d ∈ (ledger cstep (Machine.empty : Machine α) ops).2, d ∉ (execC cstep (Machine.empty : Machine α) ops).1.held ∧
        d ∉ (execC cstep (Machine.empty : Machine α) ops).1.destroyed) := by
  have hs := c52_never_twice ops
  obtain ⟨l, h1, h2⟩ := hs
  have h3 := h1.nodup_iff.mp (h2.nodup h)
  rw [List.nodup_append, List.nodup_append] at h3
  obtain ⟨⟨a1, a2, a3⟩, a4, a5⟩ := h3
  refine ⟨a2, a1, fun d hd hh => a3 d hh d hd rfl, fun d hd => ⟨fun hh => ?_, fun hh => ?_⟩⟩
  · exact a5 d (List.mem_append.mpr (.inl hh)) d hd rfl
  · exact a5 d (List.mem_append.mpr (.inr hh)) d hd rfl

/-! ### Concrete cases -/

/-- Build `0(1 2)` and a tree `3`, hand `3` to `2`, copy the tree with `+ 10`, replace `1` by `7`, visit two items of the copy, drop. -/
def ledgerOps : List (Op Nat) := [.treeNew 0, .treeNew 1, .treeNew 2, .pushBack 0 [] 1, .pushBack 0 [] 2, .treeNew 3, .pushBack 0 [1] 3,
  .mapBfs 0 .root (fun _ d => d + 10), .setData 0 (.child [] 0) 7, .intoBfs 4 2]

example : let m := (execC cstep (Machine.empty : Machine Nat) (ledgerOps.map .call)).1
    (m.held, m.destroyed, ledger cstep Machine.empty (ledgerOps.map .call)) =
    ([7, 3, 2, 0], [1, 13, 12], ([0, 1, 2, 3, 10, 11, 12, 13, 7], [10, 11])) := by decide +kernel

example : ((execC cstep (Machine.empty : Machine Nat) (ledgerOps.map .call)).1.held ++
    (execC cstep Machine.empty (ledgerOps.map .call)).1.destroyed ++
      (ledger cstep Machine.empty (ledgerOps.map .call)).2).Perm [0, 1, 2, 3, 10, 11, 12, 13, 7] :=
  (c52_programs ledgerOps).trans (by decide +kernel)

/-- The programs of C45 and C51 that leak: the item `0` is neither held nor destroyed. -/
example : ((execC cstep (Machine.empty : Machine Nat) leftOps).1.held, (execC cstep (Machine.empty : Machine Nat) leftOps).1.destroyed,
    ledger cstep Machine.empty leftOps) = ([], [1], ([0, 1], [])) := by decide +kernel

example : (execC cstep (Machine.empty : Machine Nat) leftOps).1.destroyed.Nodup :=
  (c52_distinct leftOps (by decide +kernel)).1

end Trees
