import Verif.Proof.FineExec
import Verif.Proof.RcRestrict
/-
Dividing the values of a machine among threads.
-/
namespace Trees
set_option linter.unusedSimpArgs false
set_option linter.unusedVariables false
variable {α β γ : Type}
open Classical

theorem Inv.setLog {H : Heap α} {K : Addr → List Addr} (h : Inv H K) (l : List α) : Inv { H with log := l } K :=
  by
  obtain ⟨⟨h1, h2, h3, h4, h5, h6, h7⟩, hs, hb⟩ := h
  exact ⟨⟨h1, h2, h3, h4, h5, h6, h7⟩, hs, hb⟩

theorem SInv.setLog {H : Heap α} (h : SInv H) (l : List α) : SInv { H with log := l } :=
  ⟨h.liveB, h.vecB, h.cnt, h.pos, h.disj, fun a ha => by
    have := h.owner a ha
    show Owned _ a (H.data a)
    cases hd : H.data a <;> rw [hd] at this <;> exact this, h.tight⟩

namespace Fine
variable {n : Nat}

section
variable {m : Machine α} {K : Addr → List Addr} {own : Var → Fin n}

/-- The nodes of the other threads. -/
noncomputable def theirs (m : Machine α) (K : Addr → List Addr) (own : Var → Fin n) (i : Fin n) (a : Addr) : Bool :=
  decide (∃ x hd, m.env x = some hd ∧ own x ≠ i ∧ Reach K hd.addr a)

/-- A node of thread `i`. -/
def Mine (m : Machine α) (K : Addr → List Addr) (own : Var → Fin n) (i : Fin n) (a : Addr) : Prop :=
  ∃ x hd, m.env x = some hd ∧ own x = i ∧ Reach K hd.addr a

/-- The machine of thread `i`. -/
noncomputable def partM (m : Machine α) (K : Addr → List Addr) (own : Var → Fin n) (i : Fin n) : Machine α :=
  ⟨{ cut (theirs m K own i) m.heap with log := [] }, fun x => if own x = i then m.env x else none, m.fresh⟩

variable (M : MInv m K)
include M

theorem reach_used {a b : Addr} (ha : m.heap.Used a) (h : Reach K a b) : m.heap.Used b := by
  induction h with
  | refl => exact ha
  | step hm _ ih => exact ih (M.inv.mem_iff.mp hm).1

theorem mine_used {i : Fin n} {a : Addr} (h : Mine m K own i a) : m.heap.Used a := by
  obtain ⟨x, hd, h1, -, h2⟩ := h
  exact reach_used M (M.hnd x hd h1).used h2

theorem used_mine {a : Addr} (h : m.heap.Used a) : ∃ i, Mine m K own i a := by
  obtain ⟨r, h1, h2, h3⟩ := M.inv.exists_root h
  obtain ⟨x, hd, h4, rfl⟩ := M.all r h1 h2
  exact ⟨own x, x, hd, h4, rfl, h3⟩

theorem mine_unique {i j : Fin n} {a : Addr} (h1 : Mine m K own i a) (h2 : Mine m K own j a) : i = j := by
  obtain ⟨x, hd, e1, rfl, r1⟩ := h1
  obtain ⟨y, hd', e2, rfl, r2⟩ := h2
  have := M.inv.root_disjoint (M.hnd x hd e1).root (M.hnd y hd' e2).root r1 r2
  rw [M.dist x y hd hd' e1 e2 this]

theorem theirs_iff {i : Fin n} {a : Addr} (h : m.heap.Used a) : theirs m K own i a = false ↔ Mine m K own i a := by
  simp only [theirs, decide_eq_false_iff_not]
  constructor
  · intro hn
    obtain ⟨j, x, hd, e, rfl, r⟩ := used_mine (own := own) M h
    by_cases hj : own x = i
    · exact ⟨x, hd, e, hj, r⟩
    · exact absurd ⟨x, hd, e, hj, r⟩ hn
  · rintro h1 ⟨x, hd, e, hj, r⟩
    exact hj (mine_unique M ⟨x, hd, e, rfl, r⟩ h1)

theorem theirs_whole (i : Fin n) : Whole (theirs m K own i) K := by
  intro a c hc
  have ua := M.inv.used_parent hc
  have uc := (M.inv.mem_iff.mp hc).1
  rw [Bool.eq_iff_iff, ← not_iff_not, Bool.not_eq_true, Bool.not_eq_true, theirs_iff M uc, theirs_iff M ua]
  constructor
  · intro h
    obtain ⟨j, hj⟩ := used_mine (own := own) M ua
    have : Mine m K own j c := by
      obtain ⟨x, hd, e, e2, r⟩ := hj
      exact ⟨x, hd, e, e2, r.trans (.step hc (.refl _))⟩
    rw [mine_unique M h this]; exact hj
  · rintro ⟨x, hd, e, e2, r⟩
    exact ⟨x, hd, e, e2, r.trans (.step hc (.refl _))⟩

theorem partM_used {i : Fin n} {a : Addr} : (partM m K own i).heap.Used a ↔ Mine m K own i a := by
  show (cut (theirs m K own i) m.heap).Used a ↔ _
  rw [cut_used]
  constructor
  · rintro ⟨h1, h2⟩; exact (theirs_iff M h1).mp h2
  · intro h; exact ⟨mine_used M h, (theirs_iff M (mine_used M h)).mpr h⟩

theorem partM_minv (i : Fin n) : MInv (partM m K own i) (cutK (theirs m K own i) K) := by
  have env : ∀ {x hd}, (partM m K own i).env x = some hd → own x = i ∧ m.env x = some hd := by
    intro x hd h
    simp only [partM] at h
    split at h
    · exact ⟨by assumption, h⟩
    · cases h
  refine ⟨(cut_inv M.inv (theirs_whole M i)).setLog [], SInv.setLog (cut_sinv M.st) [], ?_, ?_, ?_, ?_, ?_⟩
  · intro a c hc
    simp only [cutK] at hc
    split at hc
    · cases hc
    · exact M.kv a c hc
  · intro x hd h
    obtain ⟨h1, h2⟩ := env h
    have ho := M.hnd x hd h2
    refine ⟨(partM_used M).mpr ⟨x, hd, h2, h1, .refl _⟩, ho.root, ?_⟩
    have := ho.kind
    cases hd <;> exact this
  · intro x y hx hy h1 h2
    exact M.dist x y hx hy (env h1).2 (env h2).2
  · intro a ha hu
    obtain ⟨x, hd, e, e2, r⟩ := (partM_used M).mp ha
    have hu' : m.heap.up a = none := hu
    have : hd.addr = a := M.inv.root_disjoint (M.hnd x hd e).root hu' r (.refl a)
    refine ⟨x, hd, ?_, this⟩
    simp only [partM, if_pos e2, e]
  · intro x hx
    simp only [partM]
    split
    · exact M.fr x hx
    · rfl

/-- What thread `i` starts with. -/
def _root_.Trees.Machine.part (m : Machine α) (own : Var → Fin n) (i : Fin n) : Store α :=
  ⟨fun x => if own x = i then m.view x else none, m.fresh, []⟩

theorem partM_store (i : Fin n) : (partM m K own i).store = m.part own i := by
  refine Abs.store_eq (partM_minv M i) ⟨?_, rfl, rfl⟩
  intro x
  by_cases hx : own x = i
  · have hA := M.abs_store.vars x
    simp only [partM, Machine.part, if_pos hx]
    cases he : m.env x with
    | none => rw [he] at hA; exact hA
    | some hd =>
      rw [he] at hA
      obtain ⟨v, e1, hv⟩ := hA
      refine ⟨v, e1, ?_⟩
      have same : ∀ b, Reach K hd.addr b → cutK (theirs m K own i) K b = K b ∧ ({ cut (theirs m K own i) m.heap with log := [] } : Heap α).val b = m.heap.val b := by
        intro b hb
        have hm : Mine m K own i b := ⟨x, hd, he, hx, hb⟩
        refine ⟨?_, rfl⟩
        simp [cutK, (theirs_iff M (mine_used M hm)).mpr hm]
      cases hd <;> cases v <;> simp only [HDen] at hv ⊢
      · exact hv.congr same
      · have e := (same _ (.refl _)).1; simp only [Handle.addr] at e; rw [e]; exact hv.congr fun c hc b hb => same b (.step hc hb)
      · have e := (same _ (.refl _)).1; simp only [Handle.addr] at e; rw [e]; exact hv.congr fun c hc b hb => same b (.step hc hb)
  · simp only [partM, Machine.part, if_neg hx]

/-- No block contains nodes of two threads. -/
def Apart1 (m : Machine α) (K : Addr → List Addr) (own : Var → Fin n) : Prop :=
  ∀ i j a b v nv, i ≠ j → Mine m K own i a → Mine m K own j b → m.heap.vec v = some nv → InVec nv a → ¬ InVec nv b

section
variable (hs : Apart1 m K own)
include hs

theorem partM_vec {i : Fin n} {v : Nat} {nv : NodeVec} : (partM m K own i).heap.vec v = some nv ↔
    m.heap.vec v = some nv ∧ ∃ a, Mine m K own i a ∧ InVec nv a := by
  have key : ∀ n0, m.heap.vec v = some n0 → (∃ a, Mine m K own i a ∧ InVec n0 a) → slots (outP (theirs m K own i) m.heap) n0 = n0.refCnt := by
    rintro n0 e ⟨a, h1, h2⟩
    have h3 := slots_add (P := theirs m K own i) (G := m.heap) (nv := n0)
    have h4 := M.st.cnt v n0 e
    have h5 : slots (inP (theirs m K own i) m.heap) n0 = 0 := by
      by_contra hne
      obtain ⟨b, hb, hq⟩ := slots_pos.mp hne
      simp only [inP, Bool.and_eq_true, Heap.usedB_iff] at hq
      obtain ⟨j, hj⟩ := used_mine (own := own) M hq.1
      by_cases hij : i = j
      · subst hij; rw [← theirs_iff M hq.1, hq.2] at hj; cases hj
      · exact hs i j a b v n0 hij h1 hj e h2 hb
    simp only [Nat.add_zero] at h4
    omega
  show partVec (outP (theirs m K own i) m.heap) (m.heap.vec v) = some nv ↔ _
  constructor
  · intro h
    obtain ⟨n0, h1, h2, rfl⟩ := partVec_some h
    obtain ⟨a, ha, hq⟩ := slots_pos.mp h2
    simp only [outP, Bool.and_eq_true, Heap.usedB_iff, Bool.not_eq_true'] at hq
    have hm := (theirs_iff M hq.1).mp hq.2
    rw [key n0 h1 ⟨a, hm, ha⟩]
    exact ⟨h1, a, hm, ha⟩
  · rintro ⟨h1, a, h2, h3⟩
    have hu := mine_used M h2
    rw [partVec_of h1 h3 (by simp [outP, Heap.usedB_iff.mpr hu, (theirs_iff M hu).mpr h2]), key nv h1 ⟨a, h2, h3⟩]

/-- The places of thread `i`: its nodes and the slots of its blocks. -/
theorem partM_here {i : Fin n} {a : Addr} (h : (partM m K own i).heap.Here a) :
    Mine m K own i a ∨ ∃ v nv b, m.heap.vec v = some nv ∧ InVec nv a ∧ Mine m K own i b ∧ InVec nv b := by
  have vec : ∀ v nv, (partM m K own i).heap.vec v = some nv → InVec nv a → Mine m K own i a ∨ ∃ v nv b, m.heap.vec v = some nv ∧ InVec nv a ∧ Mine m K own i b ∧ InVec nv b := by
    intro v nv h1 h2
    obtain ⟨h3, b, h4, h5⟩ := (partM_vec M hs).mp h1
    exact .inr ⟨v, nv, b, h3, h2, h4, h5⟩
  rcases h with h | ⟨v, nv, h1, h2⟩
  · rcases (partM_minv M i).st.tight a h with h | ⟨v, nv, h1, h2⟩
    · exact .inl ((partM_used M).mp h)
    · exact vec v nv h1 h2
  · exact vec v nv h1 h2

theorem partM_disj {i j : Fin n} (hij : i ≠ j) {a : Addr} (h1 : (partM m K own i).heap.Here a) (h2 : (partM m K own j).heap.Here a) : False := by
  rcases partM_here M hs h1 with h1 | ⟨v, nv, b, h3, h4, h5, h6⟩
  · rcases partM_here M hs h2 with h2 | ⟨w, nw, c, g3, g4, g5, g6⟩
    · exact hij (mine_unique M h1 h2)
    · exact hs i j a c w nw hij h1 g5 g3 g4 g6
  · rcases partM_here M hs h2 with h2 | ⟨w, nw, c, g3, g4, g5, g6⟩
    · exact hs i j b a v nv hij h5 h2 h3 h6 h4
    · have := M.st.disj v nv w nw a h3 g3 h4 g4
      subst this
      rw [h3] at g3; cases g3
      exact hs i j b c v nv hij h5 g5 h3 h6 g6

theorem partM_vdisj {i j : Fin n} (hij : i ≠ j) {v : Nat} {nv nw : NodeVec} (h1 : (partM m K own i).heap.vec v = some nv)
    (h2 : (partM m K own j).heap.vec v = some nw) : False := by
  obtain ⟨h3, b, h5, h6⟩ := (partM_vec M hs).mp h1
  obtain ⟨g3, c, g5, g6⟩ := (partM_vec M hs).mp h2
  rw [h3] at g3; cases g3
  exact hs i j b c v nv hij h5 g5 h3 h6 g6

theorem partM_vcover {v : Nat} {nv : NodeVec} (h : m.heap.vec v = some nv) : ∃ i, (partM m K own i).heap.vec v = some nv := by
  have h3 := M.st.cnt v nv h
  have h4 := M.st.pos v nv h
  have h5 : 0 < usedCnt m.heap nv := by omega
  obtain ⟨b, hb, hb2⟩ := List.countP_pos_iff.mp h5
  obtain ⟨i, hi⟩ := used_mine (own := own) M (Heap.usedB_iff.mp hb2)
  exact ⟨i, (partM_vec M hs).mpr ⟨h, b, hi, mem_vec_range.mp hb⟩⟩

theorem partM_cover {a : Addr} (h : m.heap.live a = true) : ∃ i, (partM m K own i).heap.live a = true := by
  have used : m.heap.Used a → ∃ i, (partM m K own i).heap.live a = true := by
    intro h
    obtain ⟨i, hi⟩ := used_mine (own := own) M h
    exact ⟨i, ((partM_used M).mpr hi).1⟩
  rcases M.st.tight a h with h1 | ⟨v, nv, h1, h2⟩
  · exact used h1
  · by_cases hu : m.heap.Used a
    · exact used hu
    · obtain ⟨i, hi⟩ := partM_vcover M hs h1
      refine ⟨i, ?_⟩
      have ht : theirs m K own i a = false := by
        simp only [theirs, decide_eq_false_iff_not]
        rintro ⟨x, hd, e, -, r⟩
        exact hu (reach_used M (M.hnd x hd e).used r)
      show (cut (theirs m K own i) m.heap).live a = true
      simp only [cut, h, ht, Bool.not_false, Bool.true_and, Bool.or_eq_true, decide_eq_true_eq]
      exact .inr ⟨v, nv, hi, h2⟩

omit hs in
theorem partM_live {i : Fin n} {a : Addr} (h : (partM m K own i).heap.live a = true) : m.heap.live a = true := (cut_live h).1

theorem partM_hereM {i : Fin n} {a : Addr} (h : (partM m K own i).heap.Here a) : m.heap.Here a := by
  rcases h with h | ⟨v, nv, h1, h2⟩
  · exact .inl (partM_live M h)
  · exact .inr ⟨v, nv, ((partM_vec M hs).mp h1).1, h2⟩

end
end

/-! ### With an allocator -/

/-- The memory of thread `i` at the addresses that the allocator has chosen. -/
noncomputable def partL (A : Alloc) (G : Heap α) (H : Heap α) : Heap α :=
  { G with
    live := fun x => decide (∃ a, H.live a = true ∧ A.addr a = x)
    vec := fun w => if ∃ v nv, H.vec v = some nv ∧ A.vec v = w then G.vec w else none
    log := [] }

section
variable {m m' : Machine α} {K : Addr → List Addr} {own : Var → Fin n} {A : Alloc} (r : AMRel A m m') (M : MInv m' K) (hs : Apart1 m' K own)
include r M hs

theorem partL_vec {i : Fin n} {w : Nat} {nw : NodeVec} : (partL A m.heap (partM m' K own i).heap).vec w = some nw ↔
    ∃ v nv, (partM m' K own i).heap.vec v = some nv ∧ A.vec v = w ∧ nw = ⟨A.addr nv.base, nv.cap, nv.refCnt⟩ := by
  simp only [partL]
  constructor
  · intro h
    split at h
    · rename_i h1
      obtain ⟨v, nv, h1, rfl⟩ := h1
      rw [r.heap.vec v nv ((partM_vec M hs).mp h1).1] at h
      exact ⟨v, nv, h1, rfl, (Option.some.inj h).symm⟩
    · cases h
  · rintro ⟨v, nv, h1, rfl, rfl⟩
    rw [if_pos ⟨v, nv, h1, rfl⟩]
    exact r.heap.vec v nv ((partM_vec M hs).mp h1).1

theorem partL_arel (i : Fin n) : ARel A (partL A m.heap (partM m' K own i).heap) (partM m' K own i).heap := by
  have up : ∀ {a}, (partM m' K own i).heap.Here a → m'.heap.Here a := fun h => partM_hereM M hs h
  have vec : ∀ {v nv}, (partM m' K own i).heap.vec v = some nv → m'.heap.vec v = some nv := fun h => ((partM_vec M hs).mp h).1
  have R := r.heap
  refine ⟨?_, ?_, ?_, ?_, ?_, ?_, ?_, ?_, ?_, ?_, ?_, ?_, ?_, ?_, ?_, ?_, ?_, ?_, ?_, ?_, ?_, ?_, ?_⟩
  · intro a h; simp only [partL, decide_eq_true_eq]; exact ⟨a, h, rfl⟩
  · intro x h; simpa only [partL, decide_eq_true_eq] using h
  · intro a b ha hb; exact R.inj a b (up ha) (up hb)
  · intro a ha; exact R.prev a (up ha)
  · intro a ha; exact R.next a (up ha)
  · intro a ha; exact R.head a (up ha)
  · intro a ha; exact R.tail a (up ha)
  · intro a ha; exact R.up a (up ha)
  · intro a ha; exact R.size a (up ha)
  · intro a ha; exact R.data a (up ha)
  · intro a ha; exact R.count a (up ha)
  · intro a ha; exact R.borrow a (up ha)
  · intro v nv h; exact (partL_vec r M hs).mpr ⟨v, nv, h, rfl, rfl⟩
  · intro w nw h
    obtain ⟨v, nv, h1, h2, -⟩ := (partL_vec r M hs).mp h
    exact ⟨v, nv, h1, h2⟩
  · intro v w nv nw h1 h2; exact R.vinj v w nv nw (vec h1) (vec h2)
  · intro v nv h; exact R.slots v nv (vec h)
  · intro v nv h a ha; exact R.sep v nv (vec h) a (up ha)
  · intro v nv h; exact R.known v nv (vec h)
  · intro a h; exact R.lbnd a (partM_live M h)
  · intro v nv h; exact R.vbnd v nv (vec h)
  · exact R.nextAddr
  · exact R.nextVec
  · rfl

theorem partL_here {i : Fin n} {x : Addr} (h : (partL A m.heap (partM m' K own i).heap).Here x) : ∃ a, (partM m' K own i).heap.Here a ∧ A.addr a = x := by
  rcases h with h | ⟨w, nw, h1, h2⟩
  · obtain ⟨a, h1, h2⟩ := (partL_arel r M hs i).onto x h; exact ⟨a, .inl h1, h2⟩
  · obtain ⟨v, nv, h3, -, rfl⟩ := (partL_vec r M hs).mp h1
    have := (partL_arel r M hs i).slots v nv h3 (x - A.addr nv.base) (by dsimp only at h2; allomega)
    dsimp only at h2
    refine ⟨nv.base + (x - A.addr nv.base), .inr ⟨v, nv, h3, Nat.le_add_right _ _, ?_⟩, ?_⟩
    · allomega
    · rw [this]; allomega

theorem partL_sub (i : Fin n) : Sub (partL A m.heap (partM m' K own i).heap) m.heap := by
  refine ⟨?_, fun _ _ => rfl, fun _ _ => rfl, fun _ _ => rfl, fun _ _ => rfl, fun _ _ => rfl, fun _ _ => rfl, fun _ _ => rfl, fun _ _ => rfl, fun _ _ => rfl, ?_⟩
  · intro x h
    obtain ⟨a, h1, rfl⟩ := (partL_arel r M hs i).onto x h
    exact r.heap.live a (partM_live M h1)
  · intro w nw h
    obtain ⟨v, nv, h1, rfl, rfl⟩ := (partL_vec r M hs).mp h
    exact r.heap.vec v nv ((partM_vec M hs).mp h1).1

theorem partL_amrel (i : Fin n) : AMRel A ⟨partL A m.heap (partM m' K own i).heap, fun x => if own x = i then m.env x else none, m.fresh⟩ (partM m' K own i) := by
  refine ⟨partL_arel r M hs i, ?_, r.fresh⟩
  funext x
  simp only [partM, renEnv]
  rw [r.env]
  split
  · rfl
  · rfl

end

section
variable {m m' : Machine α} {K : Addr → List Addr} {own : Var → Fin n} {As : Fin n → Alloc} {A0 : Alloc} (r0 : AMRel A0 m m')
  (ag : ∀ i, Agree A0 (As i) m.heap) (r : ∀ i, AMRel (As i) m m') (M : MInv m' K) (hs : Apart1 m' K own)
include r0 ag r M hs

theorem start_rel (ops : Fin n → List (Op α)) :
    Rel As (start m own ops) (fun i => partL (As i) m.heap (partM m' K own i).heap) := by
  have addr : ∀ i a, m'.heap.Here a → (As i).addr a = A0.addr a := by
    intro i a h
    refine (ag i).addr a ?_
    rw [r0.heap.nextAddr]
    rcases h with h | ⟨v, nv, h1, h2⟩
    · exact r0.heap.lbnd a h
    · exact Nat.lt_of_lt_of_le h2.2 (r0.heap.vbnd v nv h1)
  have vec : ∀ i v nv, m'.heap.vec v = some nv → (As i).vec v = A0.vec v := by
    intro i v nv h
    refine (ag i).vec v ?_
    rw [r0.heap.nextVec]
    exact r0.heap.known v nv h
  refine ⟨fun i => partL_sub (r i) M hs i, fun i => ⟨rfl, rfl, rfl⟩, ?_, ?_, ?_, ?_⟩
  · intro i j hij
    refine ⟨?_, ?_⟩
    · intro x h1 h2
      obtain ⟨a, ha, ea⟩ := partL_here (r i) M hs h1
      obtain ⟨b, hb, eb⟩ := partL_here (r j) M hs h2
      have ha' := partM_hereM M hs ha
      have hb' := partM_hereM M hs hb
      rw [addr i a ha'] at ea
      rw [addr j b hb'] at eb
      have := r0.heap.inj a b ha' hb' (ea.trans eb.symm)
      subst this
      exact partM_disj M hs hij ha hb
    · intro w nw h1
      obtain ⟨v, nv, e1, e2, -⟩ := (partL_vec (r i) M hs).mp h1
      cases h2 : (partL (As j) m.heap (partM m' K own j).heap).vec w with
      | none => rfl
      | some nx =>
        exfalso
        obtain ⟨u, nu, f1, f2, -⟩ := (partL_vec (r j) M hs).mp h2
        have g1 := ((partM_vec M hs).mp e1).1
        have g2 := ((partM_vec M hs).mp f1).1
        rw [vec i v nv g1] at e2
        rw [vec j u nu g2] at f2
        have := r0.heap.vinj v u nv nu g1 g2 (e2.trans f2.symm)
        subst this
        exact partM_vdisj M hs hij e1 f1
  · intro i w nw h
    obtain ⟨v, nv, h1, h2, -⟩ := (partL_vec (r i) M hs).mp h
    exact ⟨v, by show v < m.heap.nextVec; rw [r0.heap.nextVec]; exact r0.heap.known v nv ((partM_vec M hs).mp h1).1, h2⟩
  · intro x h
    obtain ⟨a, h1, rfl⟩ := r0.heap.onto x h
    obtain ⟨i, hi⟩ := partM_cover M hs (own := own) h1
    refine ⟨i, ?_⟩
    rw [← addr i a (.inl h1)]
    exact (partL_arel (r i) M hs i).live a hi
  · intro w nw h
    obtain ⟨v, nv, h1, rfl⟩ := r0.heap.vonto w nw h
    obtain ⟨i, hi⟩ := partM_vcover M hs (own := own) h1
    refine ⟨i, (partL_vec (r i) M hs).mpr ⟨v, nv, hi, vec i v nv h1, ?_⟩⟩
    have : m.heap.vec (A0.vec v) = some nw := h
    rw [← vec i v nv h1, (r i).heap.vec v nv h1] at this
    exact (Option.some.inj this).symm

end
end Fine
end Trees
