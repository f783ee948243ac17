import Verif.Proof.RcHeap
/-
Exclusive code in a heap with additional handles.
-/
namespace Trees
set_option linter.unusedSimpArgs false
set_option linter.unusedVariables false
variable {α β γ : Type}

/-- The additional handles to the nodes of a block, as owners of the block. -/
def extVec (e : Addr → Nat) : Option NodeVec → Option NodeVec
  | some nv => if esum e nv = 0 then none else some { nv with refCnt := esum e nv }
  | none => none

/-- Additional handles as an extension of the heap. -/
def extCtx (e : Addr → Nat) (G : Heap α) : Ctx α := ⟨fun _ => false, G, e, fun v => extVec e (G.vec v)⟩

theorem extVec_some {e : Addr → Nat} {o : Option NodeVec} {b : NodeVec} (h : extVec e o = some b) :
    ∃ nv, o = some nv ∧ esum e nv ≠ 0 ∧ b = { nv with refCnt := esum e nv } := by
  cases o with
  | none => simp [extVec] at h
  | some nv =>
    simp only [extVec] at h
    split at h
    · simp at h
    · exact ⟨nv, rfl, by assumption, (Option.some.inj h).symm⟩

theorem extVec_none {e : Addr → Nat} {nv : NodeVec} (h : extVec e (some nv) = none) : esum e nv = 0 := by
  simp only [extVec] at h
  split at h
  · assumption
  · simp at h

/-- A heap with additional handles extends the heap without. -/
theorem hrel_bump {e : Addr → Nat} {G : Heap α} {D} (hS : SInvD G D) (hE : ∀ x, e x ≠ 0 → x < G.nextAddr) :
    HRel (extCtx e G) G (bumpE e G) := by
  refine ⟨fun _ => rfl, fun _ => rfl, fun _ => rfl, fun _ => rfl, fun _ => rfl, fun _ => rfl, fun _ => rfl, fun _ => rfl, fun a => by simp [extCtx], ?_,
    rfl, rfl, rfl, by simp [extCtx], fun _ h => h, fun _ _ h => .inl h, by simp [extCtx], by simp [extCtx], hE, ?_, ?_, by simp [extCtx]⟩
  · intro v
    simp only [bumpZ_vec, bumpVec, extCtx]
    cases hv : G.vec v with
    | none => simp [extVec, addVec]
    | some nv =>
      simp only [extVec, Option.map_some]
      split
      · rename_i h; simp [h]
      · simp [addVec]
  · intro v b hb
    obtain ⟨nv, h1, h2, h3⟩ := extVec_some hb
    exact ⟨(hS.vecB v nv h1).1, by rw [h3]; exact Nat.pos_of_ne_zero h2⟩
  · intro v x y hx hy
    obtain ⟨nv, h1, h2, h3⟩ := extVec_some hy
    rw [hx] at h1; cases h1
    exact ⟨by rw [h3], by rw [h3], hS.pos v x hx⟩

/-- The handles are still accounted for. -/
structure Keeps (e : Addr → Nat) (G G' : Heap α) : Prop where
  used : ∀ x, e x ≠ 0 → G'.Used x
  blk : ∀ x, e x ≠ 0 → (G'.data x).blk = (G.data x).blk

theorem hrel_unbump {e : Addr → Nat} {G G' H' : Heap α} {D D'} (hS : SInvD G D) (hS' : SInvD G' D') (hE : ∀ x, e x ≠ 0 → G.Used x)
    (hK : Keeps e G G') (A : HRel (extCtx e G) G' H') : H' = bumpE e G' := by
  refine heap_ext ?_ (funext fun a => A.prev a) (funext fun a => A.next a) (funext fun a => A.head a) (funext fun a => A.tail a)
    (funext fun a => A.up a) (funext fun a => A.size a) (funext fun a => A.data a) ?_ (funext fun a => A.borrow a) ?_ A.nextAddr A.nextVec A.log
  · funext a
    show H'.live a = G'.live a
    cases hl : G'.live a with
    | true => exact A.liveX a hl
    | false =>
      cases hh : H'.live a with
      | false => rfl
      | true =>
        exfalso
        rcases A.liveH a rfl hh with h | ⟨v, b, h1, h2, h3⟩
        · rw [hl] at h; simp at h
        · obtain ⟨nv, f1, f2, f3⟩ := extVec_some h1
          have : ¬ ∀ x, InVec nv x → e x = 0 := fun h => f2 (esum_zero.mpr h)
          push Not at this
          obtain ⟨x, g1, g2⟩ := this
          have g3 := (hS.inVec (hE x g2) f1).mp g1
          rw [← hK.blk x g2] at g3
          obtain ⟨nw, g4, -⟩ := hS'.hasBlk (hK.used x g2) g3
          rw [h2] at g4; simp at g4
  · funext a
    rw [A.count]; simp [extCtx]
  · funext v
    rw [A.vec]
    show addVec (G'.vec v) (extVec e (G.vec v)) = bumpVec e G'.vec v
    cases hv : G'.vec v with
    | none =>
      cases hr : extVec e (G.vec v) with
      | none => simp [bumpVec, hv]
      | some b =>
        exfalso
        obtain ⟨nv, f1, f2, f3⟩ := extVec_some hr
        have : ¬ ∀ x, InVec nv x → e x = 0 := fun h => f2 (esum_zero.mpr h)
        push Not at this
        obtain ⟨x, g1, g2⟩ := this
        have g3 := (hS.inVec (hE x g2) f1).mp g1
        rw [← hK.blk x g2] at g3
        obtain ⟨nw, g4, -⟩ := hS'.hasBlk (hK.used x g2) g3
        rw [hv] at g4; simp at g4
    | some x =>
      rw [bumpVec_some hv]
      cases hr : extVec e (G.vec v) with
      | none =>
        have : esum e x = 0 := by
          rw [esum_zero]
          intro y hy
          rcases Nat.eq_zero_or_pos (e y) with h | h
          · exact h
          · exfalso
            have hy0 : e y ≠ 0 := by omega
            have g3 := (hS'.inVec (hK.used y hy0) hv).mp hy
            rw [hK.blk y hy0] at g3
            obtain ⟨nw, g4, g5⟩ := hS.hasBlk (hE y hy0) g3
            rw [g4] at hr
            exact hy0 (esum_zero.mp (extVec_none hr) y g5)
        simp [this]
      | some y =>
        have hs := A.same v x y hv hr
        obtain ⟨nv, f1, f2, f3⟩ := extVec_some hr
        have : esum e x = esum e nv := by
          have h1 := hs.1; have h2 := hs.2.1
          rw [f3] at h1 h2
          simp only at h1 h2
          simp only [esum, h1, h2]
        simp [addVec, this, f3]

/-- Exclusive code does the same with additional handles around. -/
theorem lift_ok {c : M α β} (hc : Robust c) {e : Addr → Nat} {G G' : Heap α} {b : β} {D D'} (hS : SInvD G D) (hE : ∀ x, e x ≠ 0 → G.Used x)
    (h : c G = .ok b G') (hS' : SInvD G' D') (hK : Keeps e G G') : c (bumpE e G) = .ok b (bumpE e G') := by
  obtain ⟨-, r⟩ := hc _ _ _ (hrel_bump hS fun x hx => hS.liveB x (hE x hx).1)
  rw [h] at r
  obtain ⟨H', e1, A⟩ := r fun a _ ha => (hK.used a ha).1
  rw [e1, hrel_unbump hS hS' hE hK A]

theorem lift_panic {c : M α β} (hc : Robust c) {e : Addr → Nat} {G G' : Heap α} {D D'} (hS : SInvD G D) (hE : ∀ x, e x ≠ 0 → G.Used x)
    (h : c G = .err .panic G') (hS' : SInvD G' D') (hK : Keeps e G G') : c (bumpE e G) = .err .panic (bumpE e G') := by
  obtain ⟨-, r⟩ := hc _ _ _ (hrel_bump hS fun x hx => hS.liveB x (hE x hx).1)
  rw [h] at r
  obtain ⟨H', e1, A⟩ := r fun a _ ha => (hK.used a ha).1
  rw [e1, hrel_unbump hS hS' hE hK A]

end Trees
