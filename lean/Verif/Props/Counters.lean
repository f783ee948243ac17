import Verif.Props.Bfs
/-
C46: no counter of the crate can overflow.
-/
namespace Trees
set_option linter.unusedSimpArgs false
variable {α : Type}
open RTree

/-- How many node-sized pieces of memory are allocated. -/
def Machine.allocated (m : Machine α) : Nat := (List.range m.heap.nextAddr).countP m.heap.live

namespace Proof

theorem nodup_le_allocated {m : Machine α} {K : Addr → List Addr} (M : MInv m K) {l : List Addr} (hn : l.Nodup) (hu : ∀ a ∈ l, m.heap.live a = true) :
    l.length ≤ m.allocated := by
  rw [Machine.allocated, List.countP_eq_length_filter]
  refine (List.subperm_of_subset hn fun a ha => ?_).length_le
  rw [List.mem_filter, List.mem_range]
  exact ⟨M.st.liveB a (hu a ha), hu a ha⟩

mutual
theorem count_eq_pre : ∀ t : RTree α, t.pre.length = t.count
  | .node d ks => by simp [pre, count_eq_preL ks]
theorem count_eq_preL : ∀ ts : List (RTree α), (preL ts).length = countL ts
  | [] => rfl
  | t :: ts => by simp [preL, count_eq_pre t, count_eq_preL ts]
end

end Proof

section
variable {m : Machine α} (hr : Reachable m)
include hr

/-- **C46** the two counters of a node: the number of descendants is less than the number of allocated nodes, and the degree
is not more than the number of descendants. -/
theorem c46_sizes {a : Addr} (ha : m.heap.live a = true) (hd : (m.heap.data a).isNone = false) :
    (m.heap.size a).degree ≤ (m.heap.size a).descendants ∧ (m.heap.size a).descendants < m.allocated := by
  obtain ⟨K, M⟩ := Proof.reachable_minv hr
  have hu : m.heap.Used a := ⟨ha, hd⟩
  obtain ⟨As, hA⟩ := M.inv.exists_den (fun a => some a) (fun _ _ _ => rfl) hu
  have hs := M.inv.sz_den hu hA
  rw [hs]
  have hA' : Den (fun a => some a) K a (.node a As) := by rw [Den_node]; exact ⟨rfl, hA⟩
  obtain ⟨h1, h2⟩ := M.inv.nodup_pre hA'
  have := Proof.nodup_le_allocated M h1 fun b hb => (M.inv.reach_used hu (h2 b hb)).1
  rw [Proof.count_eq_pre] at this
  simp only [count] at this
  refine ⟨?_, by simp only; omega⟩
  simp only
  clear * -
  induction As with
  | nil => simp
  | cons t ts ih => cases t; simp [count] at *; omega

/-- **C46** the counter of a contiguous block: not more than its number of slots, nor than the number of allocated nodes. -/
theorem c46_blocks {v : Nat} {nv : NodeVec} (hv : m.heap.vec v = some nv) : nv.refCnt ≤ nv.cap ∧ nv.refCnt ≤ m.allocated := by
  obtain ⟨K, M⟩ := Proof.reachable_minv hr
  have hc := M.st.cnt v nv hv
  rw [Nat.add_zero] at hc
  rw [hc, usedCnt]
  constructor
  · exact Nat.le_trans List.countP_le_length (by simp)
  · rw [List.countP_eq_length_filter]
    refine Proof.nodup_le_allocated M (List.Nodup.filter _ (List.nodup_range' ..)) fun a ha => ?_
    have := (List.mem_filter.mp ha).2
    simp only [Heap.usedB, Bool.and_eq_true] at this
    exact this.1

/-- **C46** no value of the program has more nodes than are allocated. -/
theorem c46_values {x : Var} {v : Val α} (hx : m.view x = some v) : v.count ≤ m.allocated := by
  obtain ⟨K, M⟩ := Proof.reachable_minv hr
  have hA := M.abs_store.vars x
  cases he : m.env x with
  | none => simp [Machine.view, he] at hx
  | some hd =>
    rw [he] at hA
    obtain ⟨w, e, hw⟩ := hA
    have : w = v := by
      have : m.store.vars x = some v := hx
      rw [e] at this; exact Option.some.inj this
    subst this
    have hu := (M.hnd x hd he).used
    have hs := M.inv.sz_den hu hw.kids
    have := (c46_sizes hr hu.1 hu.2).2
    rw [hs] at this
    simp only at this
    cases w with
    | tree t => cases t; simp only [Val.kids, Val.count, kids, count] at *; omega
    | forest ts => simp only [Val.kids, Val.count] at *; omega
    | iter ts => simp only [Val.kids, Val.count] at *; omega

end

/-- Not vacuous: the example state has 4 allocated nodes, a root with two descendants and a lone root. -/
example : demo.allocated = 4 ∧ demo.heap.live 0 = true ∧ (demo.heap.data 0).isNone = false ∧ demo.heap.size 0 = ⟨2, 2⟩ := by
  refine ⟨by decide +kernel, by decide +kernel, by decide +kernel, rfl⟩

end Trees
