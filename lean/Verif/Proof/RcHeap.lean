import Verif.Model.Rc
import Verif.Proof.RobustStep
import Verif.Proof.Step
/-
Heaps with handles: the memory is the one of an exclusive program (`G`), except that counts are higher by the number
of additional handles (`e`).
-/
namespace Trees
set_option linter.unusedSimpArgs false
set_option linter.unusedVariables false
variable {α β γ : Type}

/-- Counts and blocks replaced. -/
def Heap.over (h : Heap α) (c : Addr → Nat) (w : Nat → Option NodeVec) : Heap α := { h with count := c, vec := w }

theorem Inv.over {h : Heap α} {K} (hI : Inv h K) (c w) : Inv (h.over c w) K :=
  ⟨⟨hI.l.head, hI.l.tail, hI.l.mem, hI.l.upU, hI.l.links, hI.l.nodup, hI.l.root⟩, hI.s, hI.b⟩

/-- The same, read backwards. -/
theorem Inv.unover {h : Heap α} {K} {c w} (hI : Inv (h.over c w) K) : Inv h K :=
  ⟨⟨hI.l.head, hI.l.tail, hI.l.mem, hI.l.upU, hI.l.links, hI.l.nodup, hI.l.root⟩, hI.s, hI.b⟩

/-- Link surgery on the heap with handles is link surgery on the heap without. -/
theorem same_over {h : Heap α} {c w} {H' : Heap α} (s : Same (h.over c w) H') :
    ∃ h', H' = h'.over c w ∧ Same h h' ∧ h'.up = H'.up ∧ h'.size = H'.size := by
  refine ⟨H'.over h.count h.vec, ?_, ?_, rfl, rfl⟩
  · have h1 := s.count
    have h2 := s.vec
    cases H'
    simp only [Heap.over] at h1 h2 ⊢
    subst h1 h2; rfl
  · exact ⟨s.live, s.data, rfl, s.borrow, rfl, s.nextAddr, s.nextVec, s.log⟩

/-! ### Additional handles -/

/-- Additional handles to the nodes of a block. -/
def esum (e : Addr → Nat) (nv : NodeVec) : Nat := ((List.range' nv.base nv.cap).map e).sum

theorem sum_map_zero {l : List Addr} {e : Addr → Nat} : (l.map e).sum = 0 ↔ ∀ a ∈ l, e a = 0 := by
  induction l with
  | nil => simp
  | cons b l ih => simp [ih]

theorem esum_zero {e : Addr → Nat} {nv : NodeVec} : esum e nv = 0 ↔ ∀ a, InVec nv a → e a = 0 := by
  rw [esum, sum_map_zero]
  exact forall_congr' fun a => by rw [mem_vec_range]

theorem sum_upd_not {l : List Addr} {e : Addr → Nat} {a : Addr} (h : a ∉ l) (n : Nat) :
    (l.map (upd e a n)).sum = (l.map e).sum := by
  congr 1
  apply List.map_congr_left
  intro x hx
  have : x ≠ a := fun e => h (e ▸ hx)
  simp [upd_apply, this]

theorem sum_upd {l : List Addr} (nd : l.Nodup) {e : Addr → Nat} {a : Addr} (h : a ∈ l) (n : Nat) :
    (l.map (upd e a n)).sum + e a = (l.map e).sum + n := by
  induction l with
  | nil => simp at h
  | cons b l ih =>
    have nd' := List.nodup_cons.mp nd
    simp only [List.map_cons, List.sum_cons]
    rcases List.mem_cons.mp h with rfl | h
    · rw [sum_upd_not nd'.1]; simp; omega
    · have hb : b ≠ a := fun x => nd'.1 (x ▸ h)
      have := ih nd'.2 h
      rw [upd_of_ne _ _ hb]; omega

theorem esum_in {e : Addr → Nat} {nv : NodeVec} {a : Addr} (h : InVec nv a) (n : Nat) :
    esum (upd e a n) nv + e a = esum e nv + n := sum_upd (List.nodup_range' (step := 1)) (mem_vec_range.mpr h) n

theorem esum_out {e : Addr → Nat} {nv : NodeVec} {a : Addr} (h : ¬ InVec nv a) (n : Nat) :
    esum (upd e a n) nv = esum e nv := sum_upd_not (fun x => h (mem_vec_range.mp x)) n

theorem esum_pos {e : Addr → Nat} {nv : NodeVec} {a : Addr} (h : InVec nv a) (ha : e a ≠ 0) : 0 < esum e nv := by
  rcases Nat.eq_zero_or_pos (esum e nv) with h1 | h1
  · exact absurd (esum_zero.mp h1 a h) ha
  · exact h1

/-- Blocks with additional handles. -/
def bumpVec (e : Addr → Nat) (w : Nat → Option NodeVec) : Nat → Option NodeVec :=
  fun v => (w v).map fun x => { x with refCnt := x.refCnt + esum e x }

/-- The heap with additional handles `e`; the nodes `Z` are about to be released, their count is zero already. -/
def bumpZ (Z : Addr → Bool) (e : Addr → Nat) (G : Heap α) : Heap α :=
  G.over (fun a => if Z a then 0 else G.count a + e a) (bumpVec e G.vec)

abbrev bumpE (e : Addr → Nat) (G : Heap α) : Heap α := bumpZ (fun _ => false) e G

section
variable (Z : Addr → Bool) (e : Addr → Nat) (G : Heap α)
@[simp] theorem bumpZ_live : (bumpZ Z e G).live = G.live := rfl
@[simp] theorem bumpZ_prev : (bumpZ Z e G).prev = G.prev := rfl
@[simp] theorem bumpZ_next : (bumpZ Z e G).next = G.next := rfl
@[simp] theorem bumpZ_head : (bumpZ Z e G).head = G.head := rfl
@[simp] theorem bumpZ_tail : (bumpZ Z e G).tail = G.tail := rfl
@[simp] theorem bumpZ_up : (bumpZ Z e G).up = G.up := rfl
@[simp] theorem bumpZ_size : (bumpZ Z e G).size = G.size := rfl
@[simp] theorem bumpZ_data : (bumpZ Z e G).data = G.data := rfl
@[simp] theorem bumpZ_borrow : (bumpZ Z e G).borrow = G.borrow := rfl
@[simp] theorem bumpZ_nextAddr : (bumpZ Z e G).nextAddr = G.nextAddr := rfl
@[simp] theorem bumpZ_nextVec : (bumpZ Z e G).nextVec = G.nextVec := rfl
@[simp] theorem bumpZ_log : (bumpZ Z e G).log = G.log := rfl
@[simp] theorem bumpZ_count : (bumpZ Z e G).count = fun a => if Z a then 0 else G.count a + e a := rfl
@[simp] theorem bumpZ_vec : (bumpZ Z e G).vec = bumpVec e G.vec := rfl
end

theorem bumpVec_some {e : Addr → Nat} {w : Nat → Option NodeVec} {v : Nat} {nv : NodeVec} (h : w v = some nv) :
    bumpVec e w v = some { nv with refCnt := nv.refCnt + esum e nv } := by simp [bumpVec, h]

/-- The block a node belongs to. -/
def Data.blk : Data α → Option Nat
  | .piled _ v => some v
  | .piledNone v => some v
  | _ => Option.none

theorem SInvD.inVec {D} {G : Heap α} (hS : SInvD G D) {a : Addr} (ha : G.Used a) {w : Nat} {nw : NodeVec} (hw : G.vec w = some nw) :
    InVec nw a ↔ (G.data a).blk = some w := by
  have := hS.owner a ha
  cases hd : G.data a <;> rw [hd] at this <;> simp only [Owned, Data.blk] at this ⊢
  · simpa using this.2.2 w nw hw
  · simpa using this.2.2 w nw hw
  all_goals
    obtain ⟨-, nv, h1, h2⟩ := this
    constructor
    · intro h; rw [hS.disj _ _ _ _ a h1 hw h2 h]
    · intro h; cases h; rw [h1] at hw; cases hw; exact h2

theorem SInvD.hasBlk {D} {G : Heap α} (hS : SInvD G D) {a : Addr} (ha : G.Used a) {w : Nat} (hw : (G.data a).blk = some w) :
    ∃ nw, G.vec w = some nw ∧ InVec nw a := by
  have := hS.owner a ha
  cases hd : G.data a <;> rw [hd] at this hw <;> simp only [Owned, Data.blk] at this hw <;> cases hw <;> exact this.2

theorem SInvD.count1 {D} {G : Heap α} (hS : SInvD G D) {a : Addr} (ha : G.Used a) : G.count a = 1 := by
  have := hS.owner a ha
  cases hd : G.data a <;> rw [hd] at this <;> simp only [Owned] at this
  · exact this.2.1
  · exact this.2.1
  · exact this.1
  · exact this.1

/-! ### Handles -/

/-- The handle gives access to node `a`. -/
def RcRef.Is (G : Heap α) : RcRef → Addr → Prop
  | .scattered o, a => o = a ∧ ∃ d, G.data a = .scattered d a
  | .piled v i, a => ∃ nv d, G.vec v = some nv ∧ i < nv.cap ∧ a = nv.base + i ∧ G.data a = .piled d v

theorem RcRef.Is.at_eq {G : Heap α} {r : RcRef} {a : Addr} (h : r.Is G a) (Z e) : r.at (bumpZ Z e G) = a := by
  cases r with
  | scattered o => exact h.1
  | piled v i => obtain ⟨nv, d, h1, h2, h3, h4⟩ := h; simp [RcRef.at, bumpVec_some h1, h3]

theorem RcRef.Is.isVal {G : Heap α} {r : RcRef} {a : Addr} (h : r.Is G a) : G.IsVal a := by
  cases r with
  | scattered o => obtain ⟨-, d, h⟩ := h; simp [Heap.IsVal, h, Data.val?]
  | piled v i => obtain ⟨nv, d, h1, h2, h3, h4⟩ := h; simp [Heap.IsVal, h4, Data.val?]

theorem slot_ok {Z e} {G : Heap α} {r : RcRef} {a : Addr} (h : r.Is G a) (hl : G.live a = true) :
    r.slot (bumpZ Z e G) = .ok a (bumpZ Z e G) := by
  cases r with
  | scattered o => obtain ⟨rfl, -⟩ := h; simp [RcRef.slot, hl]
  | piled v i =>
    obtain ⟨nv, d, h1, h2, h3, h4⟩ := h
    simp [RcRef.slot, vecNode, bumpVec_some h1, h2, h3]

theorem SInvD.isVal_cases {D} {G : Heap α} (hS : SInvD G D) {a : Addr} (ha : G.Used a) (hv : G.IsVal a) :
    (∃ d, G.data a = .scattered d a) ∨ ∃ d v nv, G.data a = .piled d v ∧ G.vec v = some nv ∧ InVec nv a := by
  have := hS.owner a ha
  cases hd : G.data a <;> rw [hd] at this <;> simp only [Owned, Heap.IsVal, hd, Data.val?] at this hv
  · simp at hv
  · obtain ⟨rfl, -⟩ := this; exact .inl ⟨_, rfl⟩
  · simp at hv
  · obtain ⟨-, nv, h1, h2⟩ := this; exact .inr ⟨_, _, nv, rfl, h1, h2⟩

/-- The handle `Node::into_rc` makes. -/
theorem intoRc_ok {D Z e} {G : Heap α} (hS : SInvD G D) {a : Addr} (ha : G.Used a) (hv : G.IsVal a) :
    ∃ r, r.Is G a ∧ intoRc a (bumpZ Z e G) = .ok r (bumpZ Z e G) := by
  have hg : getData a (bumpZ Z e G) = .ok (G.data a) (bumpZ Z e G) := getData_ok (h := bumpZ Z e G) ha.1
  rcases hS.isVal_cases ha hv with ⟨d, h1⟩ | ⟨d, v, nv, h1, h2, h3⟩
  · exact ⟨.scattered a, ⟨rfl, d, h1⟩, by simp [intoRc, hg, h1]⟩
  · refine ⟨.piled v (a - nv.base), ⟨nv, d, h2, ?_, ?_, h1⟩, ?_⟩
    · have := h3.1; have := h3.2; exact Nat.sub_lt_left_of_lt_add h3.1 h3.2
    · exact (Nat.add_sub_cancel' h3.1).symm
    · have h3' : nv.base ≤ a ∧ a < nv.base + nv.cap := h3
      simp [intoRc, hg, h1, vecIndex, bumpVec_some h2, h3']

/-- One more handle. -/
theorem bump_more {D Z e} {G : Heap α} (hS : SInvD G D) {a : Addr} (ha : G.Used a) (hz : Z a = false) (n : Nat) :
    (bumpZ Z (upd e a n) G).count = upd (bumpZ Z e G).count a (1 + n) := by
  funext x
  simp only [bumpZ_count, upd_apply]
  by_cases hx : x = a
  · subst hx; simp [hz, hS.count1 ha]
  · simp [hx]

theorem bump_vec_none {D e} {G : Heap α} (hS : SInvD G D) {a : Addr} (ha : G.Used a) (hb : (G.data a).blk = none) (n : Nat) :
    bumpVec (upd e a n) G.vec = bumpVec e G.vec := by
  funext w
  cases hw : G.vec w with
  | none => simp [bumpVec, hw]
  | some nw =>
    have : ¬ InVec nw a := by rw [hS.inVec ha hw, hb]; simp
    simp [bumpVec, hw, esum_out this]

theorem bump_vec_some {D e} {G : Heap α} (hS : SInvD G D) {a : Addr} (ha : G.Used a) {v nv} (hb : (G.data a).blk = some v)
    (hv : G.vec v = some nv) (n : Nat) :
    bumpVec (upd e a n) G.vec = upd (bumpVec e G.vec) v (some { nv with refCnt := nv.refCnt + esum (upd e a n) nv }) := by
  funext w
  by_cases hwv : w = v
  · subst hwv; simp [bumpVec, hv]
  · rw [upd_of_ne _ _ hwv]
    cases hw : G.vec w with
    | none => simp [bumpVec, hw]
    | some nw =>
      have : ¬ InVec nw a := by rw [hS.inVec ha hw, hb]; simp; exact fun x => hwv x.symm
      simp [bumpVec, hw, esum_out this]

theorem heap_ext {h h' : Heap α} (h1 : h.live = h'.live) (h2 : h.prev = h'.prev) (h3 : h.next = h'.next)
    (h4 : h.head = h'.head) (h5 : h.tail = h'.tail) (h6 : h.up = h'.up) (h7 : h.size = h'.size) (h8 : h.data = h'.data)
    (h9 : h.count = h'.count) (h10 : h.borrow = h'.borrow) (h11 : h.vec = h'.vec) (h12 : h.nextAddr = h'.nextAddr)
    (h13 : h.nextVec = h'.nextVec) (h14 : h.log = h'.log) : h = h' := by
  cases h; cases h'; simp_all

/-- `Node::rc`: one more handle. -/
theorem nodeRc_ok {D Z e} {G : Heap α} (hS : SInvD G D) {a : Addr} (ha : G.Used a) (hv : G.IsVal a) (hz : Z a = false) :
    ∃ r, r.Is G a ∧ nodeRc a (bumpZ Z e G) = .ok r (bumpZ Z (upd e a (e a + 1)) G) := by
  have hg : getData a (bumpZ Z e G) = .ok (G.data a) (bumpZ Z e G) := getData_ok (h := bumpZ Z e G) ha.1
  have hc := hS.count1 ha
  rcases hS.isVal_cases ha hv with ⟨d, h1⟩ | ⟨d, v, nv, h1, h2, h3⟩
  · refine ⟨.scattered a, ⟨rfl, d, h1⟩, ?_⟩
    have hs : (RcRef.scattered a).slot (bumpZ Z e G) = .ok a (bumpZ Z e G) := by simp [RcRef.slot, ha.1]
    simp only [nodeRc, M.bind_apply, hg, Res.bind_ok, h1, hs, incrCount, bumpZ_count, hz,
      hc, Bool.false_eq_true, if_false]
    rw [if_neg (by omega)]
    simp only [Res.bind_ok, M.pure_apply, Res.ok.injEq, true_and]
    refine heap_ext rfl rfl rfl rfl rfl rfl rfl rfl ?_ rfl ?_ rfl rfl rfl
    · rw [bump_more hS ha hz]; simp [hz, hc]; try (congr 1; try omega)
    · simp only [bumpZ_vec]; rw [bump_vec_none hS ha (by simp [h1, Data.blk])]
  · have hi : a - nv.base < nv.cap := Nat.sub_lt_left_of_lt_add h3.1 h3.2
    have ha' : nv.base + (a - nv.base) = a := Nat.add_sub_cancel' h3.1
    refine ⟨.piled v (a - nv.base), ⟨nv, d, h2, hi, ha'.symm, h1⟩, ?_⟩
    have hp := hS.pos v nv h2
    have h3' : nv.base ≤ a ∧ a < nv.base + nv.cap := h3
    simp only [nodeRc, M.bind_apply, hg, Res.bind_ok, h1, vecIndex, bumpZ_vec, bumpVec_some h2, incrVec]
    rw [if_pos h3']
    simp only [Res.bind_ok, bumpZ_vec, bumpVec_some h2]
    rw [if_neg (by omega)]
    simp only [Res.bind_ok, vecNode, upd_self, hi, if_true, ha', incrCount, bumpZ_count, hz, hc, Bool.false_eq_true, if_false]
    rw [if_neg (by omega)]
    simp only [Res.bind_ok, M.pure_apply, Res.ok.injEq, true_and]
    refine heap_ext rfl rfl rfl rfl rfl rfl rfl rfl ?_ rfl ?_ rfl rfl rfl
    · rw [bump_more hS ha hz]; simp [hz, hc]; try (congr 1; try omega)
    · simp only [bumpZ_vec]
      rw [bump_vec_some hS ha (by simp [h1, Data.blk]) h2]
      have := esum_in (e := e) h3 (e a + 1)
      congr 2
      simp; omega

/-- Cloning a scattered handle: one more handle. -/
theorem rcClone_ok {D Z e} {G : Heap α} (hS : SInvD G D) {a : Addr} (ha : G.Used a) (hz : Z a = false)
    (hi : (RcRef.scattered a).Is G a) :
    rcClone (.scattered a) (bumpZ Z e G) = .ok (.scattered a) (bumpZ Z (upd e a (e a + 1)) G) := by
  have hc := hS.count1 ha
  obtain ⟨-, d, h1⟩ := hi
  have hs : (RcRef.scattered a).slot (bumpZ Z e G) = .ok a (bumpZ Z e G) := by simp [RcRef.slot, ha.1]
  simp only [rcClone, M.bind_apply, hs, Res.bind_ok, incrCount, bumpZ_count, hz,
      hc, Bool.false_eq_true, if_false]
  rw [if_neg (by omega)]
  simp only [Res.bind_ok, M.pure_apply, Res.ok.injEq, true_and]
  refine heap_ext rfl rfl rfl rfl rfl rfl rfl rfl ?_ rfl ?_ rfl rfl rfl
  · rw [bump_more hS ha hz]; simp [hz, hc]; try (congr 1; try omega)
  · simp only [bumpZ_vec]; rw [bump_vec_none hS ha (by simp [h1, Data.blk])]

/-- Dropping a handle that is not the last owner: one handle less. -/
theorem dropRc_more {D Z e} {G : Heap α} (hS : SInvD G D) {a : Addr} (ha : G.Used a) (hz : Z a = false) {r : RcRef}
    (hr : r.Is G a) (he : e a ≠ 0) (k : Nat) :
    dropRc (k+1) r (bumpZ Z e G) = .ok () (bumpZ Z (upd e a (e a - 1)) G) := by
  have hc := hS.count1 ha
  cases r with
  | scattered o =>
    obtain ⟨rfl, d, h1⟩ := hr
    have e1 : (bumpZ Z e G).count o = 1 + e o := by simp [hz, hc]
    have hs : (RcRef.scattered o).slot (bumpZ Z e G) = .ok o (bumpZ Z e G) := by simp [RcRef.slot, ha.1]
    simp only [dropRc, M.bind_apply, hs, Res.bind_ok, getCount, e1]
    rw [if_neg (by omega)]
    simp only [M.pure_apply, Res.bind_ok, rcDrop, bumpZ_live, ha.1, if_true, e1]
    rw [if_neg (by omega), if_neg (by omega)]
    simp only [Res.ok.injEq, true_and]
    refine heap_ext rfl rfl rfl rfl rfl rfl rfl rfl ?_ rfl ?_ rfl rfl rfl
    · rw [bump_more hS ha hz]; simp only; congr 1; omega
    · simp only [bumpZ_vec]; rw [bump_vec_none hS ha (by simp [h1, Data.blk])]
  | piled v i =>
    obtain ⟨nv, d, h1, h2, h3, h4⟩ := hr
    have hin : InVec nv a := (hS.inVec ha h1).mpr (by simp [h4, Data.blk])
    have hp := hS.pos v nv h1
    have hs := esum_pos hin he
    have e1 : (bumpZ Z e G).count a = 1 + e a := by simp [hz, hc]
    simp only [dropRc, M.bind_apply, vecNode, bumpZ_vec, bumpVec_some h1, h2, if_true, Res.bind_ok, ← h3, decrCount, e1]
    rw [if_neg (by omega)]
    simp only [Res.bind_ok]
    rw [if_neg (by omega)]
    simp only [M.pure_apply, Res.bind_ok, decrRef, bumpVec_some h1]
    rw [if_neg (by omega), if_neg (by omega)]
    simp only [Res.ok.injEq, true_and]
    refine heap_ext rfl rfl rfl rfl rfl rfl rfl rfl ?_ rfl ?_ rfl rfl rfl
    · rw [bump_more hS ha hz]; simp only; congr 1; omega
    · simp only [bumpZ_vec]
      rw [bump_vec_some hS ha (by simp [h4, Data.blk]) h1]
      have := esum_in (e := e) hin (e a - 1)
      congr 3
      omega

end Trees
