import Verif.Proof.RcLift
/-
The part of a heap that some of its nodes make up.
-/
namespace Trees
set_option linter.unusedSimpArgs false
set_option linter.unusedVariables false
variable {α β γ : Type}
open Classical

/-- Number of slots with a property. -/
def slots (q : Addr → Bool) (nv : NodeVec) : Nat := (List.range' nv.base nv.cap).countP q

/-- A block, owned by some nodes only. -/
def partVec (q : Addr → Bool) : Option NodeVec → Option NodeVec
  | some nv => if slots q nv = 0 then none else some { nv with refCnt := slots q nv }
  | none => none

theorem partVec_some {q : Addr → Bool} {o : Option NodeVec} {b : NodeVec} (h : partVec q o = some b) :
    ∃ nv, o = some nv ∧ slots q nv ≠ 0 ∧ b = { nv with refCnt := slots q nv } := by
  cases o with
  | none => simp [partVec] at h
  | some nv =>
    simp only [partVec] at h
    split at h
    · simp at h
    · exact ⟨nv, rfl, by assumption, (Option.some.inj h).symm⟩

theorem slots_pos {q : Addr → Bool} {nv : NodeVec} : slots q nv ≠ 0 ↔ ∃ a, InVec nv a ∧ q a = true := by
  rw [← Nat.pos_iff_ne_zero, slots, List.countP_pos_iff]
  simp only [mem_vec_range]

theorem partVec_of {q : Addr → Bool} {o : Option NodeVec} {nv : NodeVec} (h : o = some nv) {a : Addr} (ha : InVec nv a) (hq : q a = true) :
    partVec q o = some { nv with refCnt := slots q nv } := by
  subst h
  simp only [partVec]
  rw [if_neg (slots_pos.mpr ⟨a, ha, hq⟩)]

/-- The nodes that are left. -/
def outP (P : Addr → Bool) (G : Heap α) (a : Addr) : Bool := G.usedB a && !P a
/-- The nodes that are taken away. -/
def inP (P : Addr → Bool) (G : Heap α) (a : Addr) : Bool := G.usedB a && P a

theorem slots_add {P : Addr → Bool} {G : Heap α} {nv : NodeVec} : slots (outP P G) nv + slots (inP P G) nv = usedCnt G nv := by
  simp only [slots, usedCnt]
  induction List.range' nv.base nv.cap with
  | nil => rfl
  | cons a l ih =>
    simp only [List.countP_cons, outP, inP]
    by_cases h1 : G.usedB a = true <;> by_cases h2 : P a = true <;> simp [h1, h2] <;> omega

/-- The heap without the nodes `P`. -/
noncomputable def cut (P : Addr → Bool) (G : Heap α) : Heap α :=
  { G with
    live := fun a => G.live a && !P a && (G.usedB a || decide (∃ v nv, partVec (outP P G) (G.vec v) = some nv ∧ InVec nv a))
    vec := fun v => partVec (outP P G) (G.vec v) }

/-- What was taken away, as an extension of the rest. -/
def cutCtx (P : Addr → Bool) (G : Heap α) : Ctx α := ⟨P, G, fun _ => 0, fun v => partVec (inP P G) (G.vec v)⟩

def cutK (P : Addr → Bool) (K : Addr → List Addr) : Addr → List Addr := fun a => if P a then [] else K a

section
variable {P : Addr → Bool} {G : Heap α} {K : Addr → List Addr}

theorem cut_live {a : Addr} (h : (cut P G).live a = true) : G.live a = true ∧ P a = false := by
  simp only [cut, Bool.and_eq_true, Bool.not_eq_true'] at h
  exact h.1

theorem cut_used {a : Addr} : (cut P G).Used a ↔ G.Used a ∧ P a = false := by
  constructor
  · intro h
    exact ⟨⟨(cut_live h.1).1, h.2⟩, (cut_live h.1).2⟩
  · rintro ⟨h1, h2⟩
    refine ⟨?_, h1.2⟩
    simp [cut, h1.1, h2, Heap.usedB_iff.mpr h1]

theorem cut_usedB (a : Addr) : (cut P G).usedB a = outP P G a := by
  rw [Bool.eq_iff_iff, Heap.usedB_iff, cut_used]
  simp [outP, Heap.usedB_iff]

/-- `P` is a union of whole trees. -/
def Whole (P : Addr → Bool) (K : Addr → List Addr) : Prop := ∀ a c, c ∈ K a → P c = P a

theorem Whole.reach (hW : Whole P K) {a b : Addr} (h : Reach K a b) : P b = P a := by
  induction h with
  | refl => rfl
  | step hm _ ih => rw [ih, hW _ _ hm]

theorem cut_inv (hI : Inv G K) (hW : Whole P K) : Inv (cut P G) (cutK P K) := by
  have hk : ∀ a, (cut P G).Used a → cutK P K a = K a := fun a ha => by simp [cutK, (cut_used.mp ha).2]
  refine ⟨⟨?_, ?_, ?_, ?_, ?_, ?_, ?_⟩, ?_, ?_⟩
  · intro a ha; rw [hk a ha]; exact hI.l.head a (cut_used.mp ha).1
  · intro a ha; rw [hk a ha]; exact hI.l.tail a (cut_used.mp ha).1
  · intro a c
    simp only [cutK, cut_used, List.not_mem_nil, not_false_iff, true_and]
    constructor
    · intro h
      split at h
      · simp at h
      · rename_i hp
        have h1 := hI.mem_iff.mp h
        exact ⟨⟨h1.1, by rw [hW a c h]; simpa using hp⟩, h1.2⟩
    · rintro ⟨⟨h1, h2⟩, h3⟩
      have h4 : c ∈ K a := hI.mem_iff.mpr ⟨h1, h3⟩
      rw [hW a c h4] at h2
      simp [h2, h4]
  · intro a c hc _ hu
    have h1 := cut_used.mp hc
    have h4 : c ∈ K a := hI.mem_iff.mpr ⟨h1.1, hu⟩
    exact cut_used.mpr ⟨hI.used_parent h4, by rw [← hW a c h4]; exact h1.2⟩
  · intro a ha; rw [hk a ha]; exact hI.l.links a (cut_used.mp ha).1
  · intro a; simp only [cutK]; split
    · simp
    · exact hI.l.nodup a
  · intro c hc _ hu; exact hI.l.root c (cut_used.mp hc).1 (by simp) hu
  · intro a ha; rw [hk a ha]; exact hI.s a (cut_used.mp ha).1
  · intro a ha; exact hI.b a (cut_used.mp ha).1

theorem cut_sinv (hS : SInv G) : SInv (cut P G) := by
  refine ⟨?_, ?_, ?_, ?_, ?_, ?_, ?_⟩
  · intro a ha; exact hS.liveB a (cut_live ha).1
  · intro v nv hv
    obtain ⟨n0, h1, h2, rfl⟩ := partVec_some hv
    exact hS.vecB v n0 h1
  · intro v nv hv
    obtain ⟨n0, h1, h2, rfl⟩ := partVec_some hv
    simp only [usedCnt, slots, Nat.add_zero]
    exact List.countP_congr fun x _ => by rw [cut_usedB]
  · intro v nv hv
    obtain ⟨n0, h1, h2, rfl⟩ := partVec_some hv
    exact Nat.pos_of_ne_zero h2
  · intro v nv w nw a hv hw ha hb
    obtain ⟨n0, h1, h2, rfl⟩ := partVec_some hv
    obtain ⟨n1, g1, g2, rfl⟩ := partVec_some hw
    exact hS.disj v n0 w n1 a h1 g1 ha hb
  · intro a ha
    have hu := cut_used.mp ha
    have := hS.owner a hu.1
    show Owned _ a (G.data a)
    cases hd : G.data a <;> rw [hd] at this <;> simp only [Owned] at this ⊢
    · exact ⟨this.1, this.2.1, fun v nv hv => by
        obtain ⟨n0, h1, h2, rfl⟩ := partVec_some hv
        exact this.2.2 v n0 h1⟩
    · exact ⟨this.1, this.2.1, fun v nv hv => by
        obtain ⟨n0, h1, h2, rfl⟩ := partVec_some hv
        exact this.2.2 v n0 h1⟩
    all_goals
      obtain ⟨h0, nv, h1, h2⟩ := this
      exact ⟨h0, _, partVec_of h1 h2 (by simp [outP, Heap.usedB_iff.mpr hu.1, hu.2]), h2⟩
  · intro a ha
    by_cases hb : G.usedB a = true
    · exact .inl (cut_used.mpr ⟨Heap.usedB_iff.mp hb, (cut_live ha).2⟩)
    · right
      simp only [cut, Bool.and_eq_true, hb, Bool.false_or, decide_eq_true_eq] at ha
      exact ha.2

theorem cut_rel (hS : SInv G) (hP : ∀ a, P a = true → G.Used a) : HRel (cutCtx P G) (cut P G) G := by
  have hpk : ∀ {β : Type} (a : Addr) (x : β), x = pick (P a) x x := by intro β a x; cases P a <;> rfl
  refine ⟨fun a => hpk a _, fun a => hpk a _, fun a => hpk a _, fun a => hpk a _, fun a => hpk a _, fun a => hpk a _, fun a => hpk a _,
    fun a => hpk a _, fun a => hpk a _, ?_, rfl, rfl, rfl, fun _ _ => rfl, fun a h => (cut_live h).1, ?_, ?_, ?_, ?_, ?_, ?_, ?_⟩
  · intro v
    show G.vec v = addVec (partVec (outP P G) (G.vec v)) (partVec (inP P G) (G.vec v))
    cases hv : G.vec v with
    | none => rfl
    | some nv =>
      have h1 := hS.cnt v nv hv
      have h2 := hS.pos v nv hv
      have h3 := slots_add (P := P) (G := G) (nv := nv)
      simp only [Nat.add_zero] at h1
      cases nv with
      | mk base cap rc =>
      simp only at h1 h2
      simp only [partVec]
      split <;> split
      · omega
      · simp only [addVec, Option.some.injEq, NodeVec.mk.injEq, true_and]; omega
      · simp only [addVec, Option.some.injEq, NodeVec.mk.injEq, true_and]; omega
      · simp only [addVec, Option.some.injEq, NodeVec.mk.injEq, true_and]; omega
  · intro a hp hl
    by_cases hb : G.usedB a = true
    · left
      simp only [cutCtx] at hp
      simp [cut, hl, hp, hb]
    · rcases hS.tight a hl with h | ⟨v, nv, h1, h2⟩
      · exact absurd (Heap.usedB_iff.mpr h) hb
      · by_cases h3 : ∃ w nw, partVec (outP P G) (G.vec w) = some nw ∧ InVec nw a
        · left
          simp only [cutCtx] at hp
          simp only [cut, hl, hp, hb, Bool.not_false, Bool.true_and, Bool.false_or, decide_eq_true_eq]
          exact h3
        · right
          have hx : (cut P G).vec v = none := by
            cases hc : (cut P G).vec v with
            | none => rfl
            | some b =>
              exfalso
              obtain ⟨n0, g1, g2, g3⟩ := partVec_some hc
              rw [h1] at g1; cases g1
              exact h3 ⟨v, b, hc, by rw [g3]; exact h2⟩
          have hz : slots (outP P G) nv = 0 := by
            by_contra hne
            have : (cut P G).vec v = some { nv with refCnt := slots (outP P G) nv } := by
              simp only [cut, h1, partVec, if_neg hne]
            rw [this] at hx; simp at hx
          have h4 := hS.cnt v nv h1
          have h5 := hS.pos v nv h1
          have h6 := slots_add (P := P) (G := G) (nv := nv)
          simp only [Nat.add_zero] at h4
          refine ⟨v, { nv with refCnt := slots (inP P G) nv }, ?_, hx, h2⟩
          simp only [cutCtx, h1, partVec]
          rw [if_neg (by omega)]
  · intro a hp
    simp only [cutCtx] at hp
    simp [cut, hp]
  · intro a hp; exact hS.liveB a (hP a hp).1
  · intro a h; simp [cutCtx] at h
  · intro v b hb
    obtain ⟨n0, h1, h2, rfl⟩ := partVec_some hb
    exact ⟨(hS.vecB v n0 h1).1, Nat.pos_of_ne_zero h2⟩
  · intro v x y hx hy
    obtain ⟨n0, h1, h2, rfl⟩ := partVec_some hx
    obtain ⟨n1, g1, g2, rfl⟩ := partVec_some hy
    rw [h1] at g1; cases g1
    exact ⟨rfl, rfl, Nat.pos_of_ne_zero h2⟩
  · intro v x hx hy a ha
    obtain ⟨n0, h1, h2, rfl⟩ := partVec_some hx
    show P a = false
    cases hp : P a with
    | false => rfl
    | true =>
      exfalso
      have : partVec (inP P G) (G.vec v) = _ := partVec_of h1 ha (by simp [inP, Heap.usedB_iff.mpr (hP a hp), hp])
      have hy' : partVec (inP P G) (G.vec v) = none := hy
      rw [this] at hy'; simp at hy'

end

/-- The children of a node are determined by the links. -/
theorem links_unique {pv nx : Addr → Option Addr} : ∀ {l : List Addr} {l' : List Addr} {p p' : Option Addr},
    Links pv nx p l none → Links pv nx p' l' none → l.head? = l'.head? → l = l'
  | [], [], _, _, _, _, _ => rfl
  | [], b :: l', _, _, _, _, h => by simp at h
  | a :: l, [], _, _, _, _, h => by simp at h
  | a :: l, b :: l', _, _, h1, h2, h => by
    simp only [List.head?_cons, Option.some.injEq] at h
    subst h
    have e1 := h1.2.1
    have e2 := h2.2.1
    have : l.head? = l'.head? := by
      cases l with
      | nil =>
        cases l' with
        | nil => rfl
        | cons b' l' => simp at e1 e2; rw [e1] at e2; simp at e2
      | cons a' l =>
        cases l' with
        | nil => simp at e1 e2; rw [e1] at e2; simp at e2
        | cons b' l' => simp at e1 e2; rw [e1] at e2; simpa using e2
    rw [links_unique h1.2.2 h2.2.2 this]

theorem kids_unique {G G' : Heap α} {K K' : Addr → List Addr} (hI : Inv G K) (hI' : Inv G' K') {a : Addr} (hu : G.Used a) (hu' : G'.Used a)
    (hh : G'.head a = G.head a) (hn : ∀ c ∈ K a, G'.next c = G.next c ∧ G'.prev c = G.prev c) : K' a = K a := by
  have h1 := hI.l.links a hu
  have h2 := hI'.l.links a hu'
  have h3 : Links G'.prev G'.next none (K a) none := h1.congr fun c hc => ⟨(hn c hc).2, (hn c hc).1⟩
  refine links_unique h2 h3 ?_
  rw [← hI.l.head a hu, ← hI'.l.head a hu', hh]

end Trees
