import Verif.Props.Observe
/-
C14, C15: destruction, leaks, lifetime of contiguous blocks.
-/
namespace Trees
set_option linter.unusedSimpArgs false
variable {α : Type}

/-- Variable `x` gives access to the node at address `a`. -/
def Machine.Holds (m : Machine α) (x : Var) (a : Addr) : Prop := ∃ p, m.nodeAt x p = some a

/-- The slots of a block. -/
def NodeVec.Has (nv : NodeVec) (a : Addr) : Prop := nv.base ≤ a ∧ a < nv.base + nv.cap

namespace Proof

theorem reach_resolve {K : Addr → List Addr} {a b : Addr} (h : Reach K a b) : ∃ p, resolve K a p = some b := by
  induction h with
  | refl => exact ⟨[], rfl⟩
  | step hm _ ih =>
    obtain ⟨p, hp⟩ := ih
    obtain ⟨i, hi⟩ := List.getElem?_of_mem hm
    exact ⟨i :: p, by simp [resolve, hi, hp]⟩

theorem used_holds {m : Machine α} {K : Addr → List Addr} (M : MInv m K) {a : Addr} (ha : m.heap.Used a) :
    ∃ x, m.Holds x a := by
  obtain ⟨r, h1, h2, h3⟩ := M.inv.exists_root ha
  obtain ⟨x, hd, h4, rfl⟩ := M.all r h1 h2
  obtain ⟨p, hp⟩ := reach_resolve h3
  exact ⟨x, p, by simp [Machine.nodeAt, h4, locate_ok M.inv h1, hp]⟩

theorem holds_used {m : Machine α} {K : Addr → List Addr} (M : MInv m K) {x : Var} {a : Addr} (h : m.Holds x a) :
    m.heap.Used a := by
  obtain ⟨p, hp⟩ := h
  simp only [Machine.nodeAt] at hp
  cases he : m.env x with
  | none => simp [he] at hp
  | some hd =>
    have ho := M.hnd x hd he
    simp only [he, locate_ok M.inv ho.used] at hp
    exact M.inv.reach_used ho.used (resolve_reach hp)

theorem resolve_inj {h : Heap α} {K : Addr → List Addr} (hI : Inv h K) {b : Addr} : ∀ {p q : Path} {a : Addr},
    resolve K a p = some b → resolve K a q = some b → p = q := by
  intro p
  induction p with
  | nil =>
    intro q a h1 h2
    simp only [resolve, Option.some.injEq] at h1
    subst h1
    cases q with
    | nil => rfl
    | cons j q =>
      simp only [resolve] at h2
      cases hj : (K a)[j]? with
      | none => simp [hj] at h2
      | some d =>
        simp only [hj] at h2
        exact absurd (resolve_reach h2) (hI.not_reach_up (List.mem_of_getElem? hj))
  | cons i p ih =>
    intro q a h1 h2
    simp only [resolve] at h1
    cases hi : (K a)[i]? with
    | none => simp [hi] at h1
    | some c =>
      simp only [hi] at h1
      cases q with
      | nil =>
        simp only [resolve, Option.some.injEq] at h2
        subst h2
        exact absurd (resolve_reach h1) (hI.not_reach_up (List.mem_of_getElem? hi))
      | cons j q =>
        simp only [resolve] at h2
        cases hj : (K a)[j]? with
        | none => simp [hj] at h2
        | some d =>
          simp only [hj] at h2
          have hcd : c = d := hI.sib_disjoint (List.mem_of_getElem? hi) (List.mem_of_getElem? hj)
            (resolve_reach h1) (resolve_reach h2)
          subst hcd
          have hij : i = j := by
            have hl := (List.getElem?_eq_some_iff.mp hi).1
            exact (List.getElem?_inj hl (hI.l.nodup a)).mp (hi.trans hj.symm)
          rw [hij, ih h1 h2]

end Proof

section
variable {m : Machine α} (hr : Reachable m)
include hr

/-- **C14** dropping a value runs the destructor of exactly its data items, in post-order, and changes
no other variable. -/
theorem c14_drop {x : Var} {v : Val α} (hx : m.view x = some v) :
    ∃ m', step m (.drop x) = .ok m' .unit ∧ Reachable m' ∧ m'.view x = none ∧
      (∀ z, z ≠ x → m'.view z = m.view z) ∧ m'.store.dropped = m.store.dropped ++ v.post := by
  have hx' : m.store.vars x = some v := hx
  obtain ⟨m', h1, h2, h3⟩ := step_ok hr (op := .drop x) (by simp only [specStep, hx']; rfl)
  have hvw : m'.view = m'.store.vars := rfl
  refine ⟨m', h1, h3, ?_, ?_, ?_⟩
  · rw [hvw, h2]; simp [Store.drop, Store.set]
  · intro z hz; rw [hvw, h2]; simp [Store.drop, Store.set, hz]; rfl
  · rw [h2]; rfl

/-- **C14** (no node is shared) a node belongs to one variable, at one path. -/
theorem c14_no_sharing {x y : Var} {p q : Path} {a : Addr} (h1 : m.nodeAt x p = some a) (h2 : m.nodeAt y q = some a) :
    x = y ∧ p = q := by
  obtain ⟨K, M⟩ := Proof.reachable_minv hr
  simp only [Machine.nodeAt] at h1 h2
  cases hx : m.env x with
  | none => simp [hx] at h1
  | some hd =>
    cases hy : m.env y with
    | none => simp [hy] at h2
    | some hd' =>
      have ho := M.hnd x hd hx
      have ho' := M.hnd y hd' hy
      simp only [hx, locate_ok M.inv ho.used] at h1
      simp only [hy, locate_ok M.inv ho'.used] at h2
      have hxy : x = y := M.dist x y hd hd' hx hy
        (M.inv.root_disjoint ho.root ho'.root (resolve_reach h1) (resolve_reach h2))
      subst hxy
      rw [hx] at hy
      obtain rfl := Option.some.inj hy
      exact ⟨rfl, Proof.resolve_inj M.inv h1 h2⟩

/-- **C14** (no leak) memory in use belongs to some variable: every live node is a node of some
variable's value, or a spare slot of a contiguous block that contains such a node. -/
theorem c14_no_leak {a : Addr} (ha : m.heap.live a = true) :
    (∃ x, m.Holds x a) ∨ ∃ v nv b x, m.heap.vec v = some nv ∧ nv.Has a ∧ nv.Has b ∧ m.Holds x b := by
  obtain ⟨K, M⟩ := Proof.reachable_minv hr
  rcases M.st.tight a ha with h | ⟨v, nv, h1, h2⟩
  · exact .inl (Proof.used_holds M h)
  · right
    have h3 := M.st.cnt v nv h1
    have h4 := M.st.pos v nv h1
    have h5 : 0 < usedCnt m.heap nv := by omega
    obtain ⟨b, hb, hb2⟩ := List.countP_pos_iff.mp h5
    obtain ⟨x, hxb⟩ := Proof.used_holds M (Heap.usedB_iff.mp hb2)
    exact ⟨v, nv, b, x, h1, h2, mem_vec_range.mp hb, hxb⟩

/-- **C14** (no leak) when no variable holds anything any more, all memory has been released. -/
theorem c14_all_released (h : ∀ x, m.view x = none) :
    (∀ a, m.heap.live a = false) ∧ ∀ v, m.heap.vec v = none := by
  obtain ⟨K, M⟩ := Proof.reachable_minv hr
  have hn : ∀ x a, ¬ m.Holds x a := by
    intro x a ⟨p, hp⟩
    have hA := M.abs_store.vars x
    have := h x
    cases he : m.env x with
    | none => simp [Machine.nodeAt, he] at hp
    | some hd =>
      rw [he] at hA
      obtain ⟨w, e, _⟩ := hA
      have h2 : m.store.vars x = none := this
      rw [e] at h2; simp at h2
  constructor
  · intro a
    cases hl : m.heap.live a with
    | false => rfl
    | true =>
      rcases c14_no_leak hr hl with ⟨x, hx⟩ | ⟨_, _, b, x, _, _, _, hx⟩
      · exact absurd hx (hn x a)
      · exact absurd hx (hn x b)
  · intro v
    cases hv : m.heap.vec v with
    | none => rfl
    | some nv =>
      have h3 := M.st.cnt v nv hv
      have h4 := M.st.pos v nv hv
      have h5 : 0 < usedCnt m.heap nv := by omega
      obtain ⟨b, hb, hb2⟩ := List.countP_pos_iff.mp h5
      obtain ⟨x, hxb⟩ := Proof.used_holds M (Heap.usedB_iff.mp hb2)
      exact absurd hxb (hn x b)

/-- **C15** (never too early) a contiguously stored node that is still part of some variable's value lies
in a block that has not been released, at a live slot. -/
theorem c15_not_early {x : Var} {a : Addr} {d : α} {v : Nat} (h : m.Holds x a)
    (hd : m.heap.data a = .piled d v ∨ m.heap.data a = .piledNone v) :
    m.heap.live a = true ∧ ∃ nv, m.heap.vec v = some nv ∧ nv.Has a := by
  obtain ⟨K, M⟩ := Proof.reachable_minv hr
  have hu := Proof.holds_used M h
  refine ⟨hu.1, ?_⟩
  have := M.st.owner a hu
  rcases hd with e | e <;> rw [e] at this <;> exact this.2

/-- **C15** (never leaked) a block that has not been released still contains a node of some variable's
value, and its reference count is the number of such nodes. -/
theorem c15_not_leaked {v : Nat} {nv : NodeVec} (hv : m.heap.vec v = some nv) :
    (∃ x a, m.Holds x a ∧ nv.Has a) ∧
    ∃ held : List Addr, held.Nodup ∧ (∀ a, a ∈ held ↔ nv.Has a ∧ ∃ x, m.Holds x a) ∧ nv.refCnt = held.length := by
  obtain ⟨K, M⟩ := Proof.reachable_minv hr
  have h3 := M.st.cnt v nv hv
  have h4 := M.st.pos v nv hv
  have h5 : 0 < usedCnt m.heap nv := by omega
  refine ⟨?_, (List.range' nv.base nv.cap).filter m.heap.usedB, ?_, ?_, ?_⟩
  · obtain ⟨b, hb, hb2⟩ := List.countP_pos_iff.mp h5
    obtain ⟨x, hxb⟩ := Proof.used_holds M (Heap.usedB_iff.mp hb2)
    exact ⟨x, b, hxb, mem_vec_range.mp hb⟩
  · exact (List.nodup_range').filter _
  · intro a
    rw [List.mem_filter, mem_vec_range, Heap.usedB_iff]
    constructor
    · rintro ⟨h1, h2⟩; exact ⟨h1, Proof.used_holds M h2⟩
    · rintro ⟨h1, x, h2⟩; exact ⟨h1, Proof.holds_used M h2⟩
  · rw [h3, usedCnt, List.countP_eq_length_filter]; rfl

/-- **C15** (never twice, not mixed up) different blocks occupy different memory. -/
theorem c15_disjoint {v w : Nat} {nv nw : NodeVec} {a : Addr} (hv : m.heap.vec v = some nv)
    (hw : m.heap.vec w = some nw) (h1 : nv.Has a) (h2 : nw.Has a) : v = w := by
  obtain ⟨K, M⟩ := Proof.reachable_minv hr
  exact M.st.disj v nv w nw a hv hw h1 h2

end
end Trees
