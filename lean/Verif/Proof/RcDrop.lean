import Verif.Proof.RcHeap
import Verif.Spec.Shared
/-
Releasing shared nodes.
-/
namespace Trees
set_option linter.unusedSimpArgs false
set_option linter.unusedVariables false
variable {α β γ : Type}

/-! ### Borrow flags -/

/-- Another borrow flag. -/
def Heap.bor (h : Heap α) (a : Addr) (b : Int) : Heap α := { h with borrow := upd h.borrow a b }

theorem Inv.bor {h : Heap α} {K} (hI : Inv h K) (a b) : Inv (h.bor a b) K :=
  ⟨⟨hI.l.head, hI.l.tail, hI.l.mem, hI.l.upU, hI.l.links, hI.l.nodup, hI.l.root⟩, hI.s, hI.b⟩

theorem Inv.unbor {h : Heap α} {K a b} (hI : Inv (h.bor a b) K) : Inv h K :=
  ⟨⟨hI.l.head, hI.l.tail, hI.l.mem, hI.l.upU, hI.l.links, hI.l.nodup, hI.l.root⟩, hI.s, hI.b⟩

theorem upd_upd {β : Type} (f : Addr → β) (a : Addr) (x y : β) : upd (upd f a x) a y = upd f a y := by
  funext z; simp only [upd_apply]; split <;> rfl

theorem upd_id {β : Type} {f : Addr → β} {a : Addr} {x : β} (h : f a = x) : upd f a x = f := by
  funext z; simp only [upd_apply]; split
  · rename_i e; rw [e, h]
  · rfl

theorem bor_bor {h : Heap α} {a : Addr} {b c : Int} : (h.bor a b).bor a c = h.bor a c := by
  simp [Heap.bor, upd_upd]

theorem bor_self {h : Heap α} {a : Addr} {b : Int} (hb : h.borrow a = b) : h.bor a b = h := by
  simp only [Heap.bor, upd_id hb]

theorem setBorrow_ok {h : Heap α} {a : Addr} {b : Int} (hl : h.live a = true) : setBorrow a b h = .ok () (h.bor a b) := by
  simp only [setBorrow, wr, hl, if_true]; rfl

theorem bump_bor {Z e} {G : Heap α} {a : Addr} {b : Int} : (bumpZ Z e G).bor a b = bumpZ Z e (G.bor a b) := rfl

theorem rdBorrow_ok {h : Heap α} {a : Addr} (hl : h.live a = true) : rd (fun h => h.borrow) a h = .ok (h.borrow a) h := by
  simp only [rd, hl, if_true]

/-- Mutable borrow, no conflict. -/
theorem borrowMut_ok {Z e} {G : Heap α} {r : RcRef} {a : Addr} (hr : r.Is G a) (hu : G.Used a) (hb : G.borrow a = 0) :
    borrowMut r (bumpZ Z e G) = .ok a (bumpZ Z e (G.bor a (-1))) := by
  have hd : (G.data a).isNone = false := hu.2
  have g : getData a (bumpZ Z e (G.bor a (-1))) = .ok (G.data a) (bumpZ Z e (G.bor a (-1))) := getData_ok (h := bumpZ Z e (G.bor a (-1))) hu.1
  simp only [borrowMut, M.bind_apply, slot_ok hr hu.1, Res.bind_ok, rdBorrow_ok (h := bumpZ Z e G) hu.1, bumpZ_borrow, hb, if_true]
  simp only [M.bind_apply, setBorrow_ok (h := bumpZ Z e G) hu.1, bump_bor, Res.bind_ok, g, hd, Bool.false_eq_true, if_false, M.pure_apply]

theorem borrowMut_conflict {Z e} {G : Heap α} {r : RcRef} {a : Addr} (hr : r.Is G a) (hu : G.Used a) (hb : G.borrow a ≠ 0) :
    borrowMut r (bumpZ Z e G) = .err .panic (bumpZ Z e G) := by
  simp only [borrowMut, M.bind_apply, slot_ok hr hu.1, Res.bind_ok, rd, bumpZ_live, hu.1, if_true, bumpZ_borrow, hb, if_false,
    M.throw]

/-- Shared borrow, no conflict. -/
theorem borrowShared_ok {Z e} {G : Heap α} {r : RcRef} {a : Addr} (hr : r.Is G a) (hu : G.Used a) (hb : 0 ≤ G.borrow a) :
    borrowShared r (bumpZ Z e G) = .ok a (bumpZ Z e (G.bor a (G.borrow a + 1))) := by
  have hd : (G.data a).isNone = false := hu.2
  have g : getData a (bumpZ Z e (G.bor a (G.borrow a + 1))) = .ok (G.data a) (bumpZ Z e (G.bor a (G.borrow a + 1))) := getData_ok (h := bumpZ Z e (G.bor a (G.borrow a + 1))) hu.1
  simp only [borrowShared, M.bind_apply, slot_ok hr hu.1, Res.bind_ok, rdBorrow_ok (h := bumpZ Z e G) hu.1, bumpZ_borrow, hb, if_true]
  simp only [M.bind_apply, setBorrow_ok (h := bumpZ Z e G) hu.1, bump_bor, Res.bind_ok, g, hd, Bool.false_eq_true, if_false, M.pure_apply]

theorem borrowShared_conflict {Z e} {G : Heap α} {r : RcRef} {a : Addr} (hr : r.Is G a) (hu : G.Used a) (hb : ¬ 0 ≤ G.borrow a) :
    borrowShared r (bumpZ Z e G) = .err .panic (bumpZ Z e G) := by
  simp only [borrowShared, M.bind_apply, slot_ok hr hu.1, Res.bind_ok, rd, bumpZ_live, hu.1, if_true, bumpZ_borrow, hb, if_false,
    M.throw]

theorem releaseMut_ok {h : Heap α} {a : Addr} (hl : h.live a = true) : releaseMut a h = .ok () (h.bor a 0) := by
  simp only [releaseMut, setBorrow, wr, hl, if_true]; rfl

theorem releaseShared_ok {h : Heap α} {a : Addr} (hl : h.live a = true) : releaseShared a h = .ok () (h.bor a (h.borrow a - 1)) := by
  simp only [releaseShared, M.bind_apply, rd, hl, if_true, Res.bind_ok, setBorrow, wr]; rfl

/-- An exclusive access. -/
theorem withMut_ok {Z e} {G : Heap α} {r : RcRef} {a : Addr} (hr : r.Is G a) (hu : G.Used a) (hb : G.borrow a = 0)
    {f : Addr → M α β} {b : β} {H' : Heap α} (hf : f a (bumpZ Z e (G.bor a (-1))) = .ok b H') (hl : H'.live a = true) :
    withMut r f (bumpZ Z e G) = .ok b (H'.bor a 0) := by
  simp only [withMut, M.bind_apply, borrowMut_ok hr hu hb, Res.bind_ok, finally_, hf, releaseMut_ok hl]

theorem withMut_panic {Z e} {G : Heap α} {r : RcRef} {a : Addr} (hr : r.Is G a) (hu : G.Used a) (hb : G.borrow a = 0)
    {f : Addr → M α β} {H' : Heap α} (hf : f a (bumpZ Z e (G.bor a (-1))) = .err .panic H') (hl : H'.live a = true) :
    withMut r f (bumpZ Z e G) = .err .panic (H'.bor a 0) := by
  simp only [withMut, M.bind_apply, borrowMut_ok hr hu hb, Res.bind_ok, finally_, hf, releaseMut_ok hl]

/-- A shared access. -/
theorem withShared_ok {Z e} {G : Heap α} {r : RcRef} {a : Addr} (hr : r.Is G a) (hu : G.Used a) (hb : 0 ≤ G.borrow a)
    {f : Addr → M α β} {b : β} {H' : Heap α} (hf : f a (bumpZ Z e (G.bor a (G.borrow a + 1))) = .ok b H') (hl : H'.live a = true) :
    withShared r f (bumpZ Z e G) = .ok b (H'.bor a (H'.borrow a - 1)) := by
  simp only [withShared, M.bind_apply, borrowShared_ok hr hu hb, Res.bind_ok, finally_, hf, releaseShared_ok hl]

/-! ### Removing a child through a handle -/

theorem Same.bor {h h' : Heap α} (s : Same h h') (a b) : Same (h.bor a b) (h'.bor a b) :=
  ⟨s.live, s.data, s.count, by simp [Heap.bor, s.borrow], s.vec, s.nextAddr, s.nextVec, s.log⟩

theorem RcRef.Is.same {G G' : Heap α} (s : Same G G') {r : RcRef} {a : Addr} (h : r.Is G a) : r.Is G' a := by
  cases r <;> simpa [RcRef.Is, s.data, s.vec] using h

/-- Link surgery under an exclusive borrow, seen in the heap without handles. -/
theorem link_bor {Z e} {G H' : Heap α} {a : Addr} {b : Int} (hb : G.borrow a = 0) (s : Same (bumpZ Z e (G.bor a b)) H') :
    ∃ G', H'.bor a 0 = bumpZ Z e G' ∧ Same G G' ∧ G'.up = H'.up ∧ (∀ K, Inv H' K → Inv G' K) := by
  obtain ⟨h', e1, s1, e2, e3⟩ := same_over s
  refine ⟨h'.bor a 0, ?_, ?_, e2, ?_⟩
  · subst e1
    refine heap_ext rfl rfl rfl rfl rfl rfl rfl rfl ?_ rfl ?_ rfl rfl rfl
    · funext x; simp [bumpZ, Heap.over, Heap.bor, s1.count]
    · simp only [bumpZ, Heap.over, Heap.bor, s1.vec]
  · have h2 := s1.bor a 0
    rw [bor_bor, bor_self hb] at h2
    exact h2
  · intro K hK
    subst e1
    exact hK.unover.bor a 0

theorem Removed.of_link {Z e} {G H' : Heap α} {K} {a c : Addr} {b : Int} {u : Addr} {ks} (hb : G.borrow a = 0)
    (R : Removed (bumpZ Z e (G.bor a b)) H' K u c ks) : ∃ G', H'.bor a 0 = bumpZ Z e G' ∧ Removed G G' K u c ks := by
  obtain ⟨s, h1, h2⟩ := R
  obtain ⟨G', e1, e2, e3, e4⟩ := link_bor hb s
  exact ⟨G', e1, e2, by rw [e3, h1]; rfl, e4 _ h2⟩

theorem popRc_ok {pop : Addr → M α (Option Addr)} {D Z e} {G : Heap α} {K} (hI : Inv G K) (hS : SInvD G D) {r : RcRef} {a c : Addr} {ks : List Addr}
    (hr : r.Is G a) (hb : G.borrow a = 0) (hc : c ∈ K a) (hv : G.IsVal c)
    (hp : ∃ H', pop a (bumpZ Z e (G.bor a (-1))) = .ok (some c) H' ∧ Removed (bumpZ Z e (G.bor a (-1))) H' K a c ks) :
    ∃ q G', withMut r (fun a => do
        match (← pop a) with
        | some c => do return some (← intoRc c)
        | none => return none) (bumpZ Z e G) = .ok (some q) (bumpZ Z e G') ∧ q.Is G' c ∧ Removed G G' K a c ks := by
  have hu := hI.used_parent hc
  obtain ⟨H', e1, R⟩ := hp
  obtain ⟨G', e2, R'⟩ := R.of_link hb
  have hS' := hS.same R'.1
  have hu' := (R'.1.used c).mpr (hI.used_of_mem hc)
  have hv' : G'.IsVal c := by unfold Heap.IsVal at hv ⊢; rw [R'.1.data]; exact hv
  -- the handle is made while the borrow is alive
  obtain ⟨h', f1, f2, f3, f4⟩ := same_over R.1
  have f5 : H' = bumpZ Z e h' := by
    subst f1
    refine heap_ext rfl rfl rfl rfl rfl rfl rfl rfl ?_ rfl ?_ rfl rfl rfl
    · funext x; simp [bumpZ, Heap.over, f2.count]
    · simp only [bumpZ, Heap.over, f2.vec]
  have hSb : SInvD h' D := by
    have : SInvD (G.bor a (-1)) D := ⟨hS.liveB, hS.vecB, hS.cnt, hS.pos, hS.disj, fun x hx => by
      have := hS.owner x hx
      show Owned (G.bor a (-1)) x (G.data x)
      cases hdx : G.data x <;> rw [hdx] at this <;> exact this, hS.tight⟩
    exact this.same f2
  have huc : h'.Used c := (f2.used c).mpr (hI.used_of_mem hc)
  have hvc : h'.IsVal c := by unfold Heap.IsVal at hv ⊢; rw [f2.data]; exact hv
  obtain ⟨q, hq, e3⟩ := intoRc_ok (Z := Z) (e := e) hSb huc hvc
  refine ⟨q, G', ?_, ?_, R'⟩
  · rw [← e2]
    refine withMut_ok hr hu hb ?_ ?_
    · simp only [M.bind_apply, e1, Res.bind_ok]
      rw [f5] at *
      simp only [M.bind_apply, e3, Res.bind_ok, M.pure_apply]
    · rw [f5]; exact ((f2.used a).mpr hu).1
  · have s : Same (h'.bor a 0) G' := by
      have h2 := f2.bor a 0
      rw [bor_bor, bor_self hb] at h2
      have h3 := R'.1
      exact ⟨h3.live.trans h2.live.symm, h3.data.trans h2.data.symm, h3.count.trans h2.count.symm, h3.borrow.trans h2.borrow.symm, h3.vec.trans h2.vec.symm,
        h3.nextAddr.trans h2.nextAddr.symm, h3.nextVec.trans h2.nextVec.symm, h3.log.trans h2.log.symm⟩
    refine RcRef.Is.same s ?_
    cases q <;> exact hq

theorem popFrontRc_ok {D Z e} {G : Heap α} {K} (hI : Inv G K) (hS : SInvD G D) {r : RcRef} {a c : Addr} {ks : List Addr}
    (hr : r.Is G a) (hb : G.borrow a = 0) (hK : K a = c :: ks) (hv : G.IsVal c) :
    ∃ q G', popFrontRc r (bumpZ Z e G) = .ok (some q) (bumpZ Z e G') ∧ q.Is G' c ∧ Removed G G' K a c ks :=
  popRc_ok hI hS hr hb (by rw [hK]; simp) hv (popFront_ok ((hI.bor a (-1)).over _ _) hK)

theorem popBackRc_ok {D Z e} {G : Heap α} {K} (hI : Inv G K) (hS : SInvD G D) {r : RcRef} {a c : Addr} {ks : List Addr}
    (hr : r.Is G a) (hb : G.borrow a = 0) (hK : K a = ks ++ [c]) (hv : G.IsVal c) :
    ∃ q G', popBackRc r (bumpZ Z e G) = .ok (some q) (bumpZ Z e G') ∧ q.Is G' c ∧ Removed G G' K a c ks :=
  popRc_ok hI hS hr hb (by rw [hK]; simp) hv (popBack_ok ((hI.bor a (-1)).over _ _) hK)

theorem popFrontRc_nil {Z e} {G : Heap α} {K} (hI : Inv G K) {r : RcRef} {a : Addr} (hr : r.Is G a) (hu : G.Used a)
    (hb : G.borrow a = 0) (hK : K a = []) : popFrontRc r (bumpZ Z e G) = .ok none (bumpZ Z e G) := by
  have h1 : popFront a (bumpZ Z e (G.bor a (-1))) = .ok none (bumpZ Z e (G.bor a (-1))) :=
    popFront_nil (h := bumpZ Z e (G.bor a (-1))) ((hI.bor a (-1)).over _ _) hu hK
  have h2 : (bumpZ Z e (G.bor a (-1))).bor a 0 = bumpZ Z e G := by
    show bumpZ Z e ((G.bor a (-1)).bor a 0) = _
    rw [bor_bor, bor_self hb]
  refine (withMut_ok (H' := bumpZ Z e (G.bor a (-1))) hr hu hb ?_ hu.1).trans (by rw [h2])
  simp only [M.bind_apply, h1, Res.bind_ok, M.pure_apply]

theorem popBackRc_nil {Z e} {G : Heap α} {K} (hI : Inv G K) {r : RcRef} {a : Addr} (hr : r.Is G a) (hu : G.Used a)
    (hb : G.borrow a = 0) (hK : K a = []) : popBackRc r (bumpZ Z e G) = .ok none (bumpZ Z e G) := by
  have h1 : popBack a (bumpZ Z e (G.bor a (-1))) = .ok none (bumpZ Z e (G.bor a (-1))) :=
    popBack_nil (h := bumpZ Z e (G.bor a (-1))) ((hI.bor a (-1)).over _ _) hu hK
  have h2 : (bumpZ Z e (G.bor a (-1))).bor a 0 = bumpZ Z e G := by
    show bumpZ Z e ((G.bor a (-1)).bor a 0) = _
    rw [bor_bor, bor_self hb]
  refine (withMut_ok (H' := bumpZ Z e (G.bor a (-1))) hr hu hb ?_ hu.1).trans (by rw [h2])
  simp only [M.bind_apply, h1, Res.bind_ok, M.pure_apply]

/-! ### Releasing one node -/

/-- Blocks keep their place. -/
def VecSub (G' G : Heap α) : Prop :=
  ∀ v nv', G'.vec v = some nv' → ∃ nv, G.vec v = some nv ∧ nv'.base = nv.base ∧ nv'.cap = nv.cap

theorem VecSub.refl (G : Heap α) : VecSub G G := fun v nv h => ⟨nv, h, rfl, rfl⟩
theorem VecSub.trans {G G' G'' : Heap α} (h : VecSub G'' G') (h' : VecSub G' G) : VecSub G'' G := fun v nv hv => by
  obtain ⟨n1, a1, a2, a3⟩ := h v nv hv
  obtain ⟨n2, b1, b2, b3⟩ := h' v n1 a1
  exact ⟨n2, b1, a2.trans b2, a3.trans b3⟩

/-- What an unused address holds does not matter. -/
theorem SInvD.bury {D} {h : Heap α} (hS : SInvD h D) {a : Addr} (ha : ¬ h.Used a) (d : Data α) (n : Nat) :
    SInvD { h with live := upd h.live a false, data := upd h.data a d, count := upd h.count a n } D := by
  have hB : ∀ x, ({ h with live := upd h.live a false, data := upd h.data a d, count := upd h.count a n } : Heap α).usedB x = h.usedB x := by
    intro x
    by_cases hx : x = a
    · subst hx
      have : h.usedB x = false := by
        cases hb : h.usedB x with
        | false => rfl
        | true => exact absurd (Heap.usedB_iff.mp hb) ha
      simp [Heap.usedB] at this ⊢
      exact this
    · simp [Heap.usedB, upd_apply, hx]
  have hU : ∀ x, ({ h with live := upd h.live a false, data := upd h.data a d, count := upd h.count a n } : Heap α).Used x ↔ h.Used x :=
    fun x => by rw [← Heap.usedB_iff, hB, Heap.usedB_iff]
  refine ⟨?_, hS.vecB, ?_, hS.pos, hS.disj, ?_, ?_⟩
  · intro x hx
    simp only [upd_apply] at hx
    split at hx
    · simp at hx
    · exact hS.liveB x hx
  · intro v nv hv
    rw [hS.cnt v nv hv]
    congr 1
    exact List.countP_congr fun x _ => by rw [hB]
  · intro x hx
    have hx' := (hU x).mp hx
    have hxa : x ≠ a := by rintro rfl; exact ha hx'
    have := hS.owner x hx'
    show Owned _ x (upd h.data a d x)
    rw [upd_of_ne _ _ hxa]
    cases hdx : h.data x <;> rw [hdx] at this <;> simp only [Owned, upd_of_ne _ _ hxa] at this ⊢ <;> exact this
  · intro x hx
    have hx' : h.live x = true := by
      simp only [upd_apply] at hx
      split at hx
      · simp at hx
      · exact hx
    exact (hS.tight x hx').imp (hU x).mpr id

/-- The last owner of a scattered node without children goes. -/
theorem free_scattered {D} {Z : Addr → Bool} {e : Addr → Nat} {G : Heap α} (hS : SInvD G D) {a : Addr} {d : α} (ha : G.Used a) (hz : Z a = false) (he : e a = 0)
    (hd : G.data a = .scattered d a) :
    ∃ G', rcDrop a (bumpZ Z e G) = .ok () (bumpZ Z e G') ∧ Freed G G' a [d] ∧ SInvD G' D ∧ VecSub G' G ∧
      (∀ x, G'.live x = true → G.live x = true ∧ x ≠ a) := by
  have hc := hS.count1 ha
  have ho := hS.owner a ha
  rw [hd] at ho
  have F := rcDrop_freed hS ha hc ho.2.2 [d] (G.data a)
  refine ⟨_, ?_, F.1, F.2, ?_, ?_⟩
  · have e1 : (bumpZ Z e G).count a = 1 := by simp [hz, hc, he]
    simp only [rcDrop, bumpZ_live, ha.1, if_true, e1, bumpZ_data, hd, Data.val?, Option.toList]
    congr 1
    refine heap_ext rfl rfl rfl rfl rfl rfl rfl ?_ ?_ rfl rfl rfl rfl rfl
    · simp only [bumpZ_data]; rw [upd_id hd]
    · funext x
      simp only [bumpZ_count, upd_apply]
      by_cases hx : x = a
      · simp [hx, he]
      · simp [hx]
  · exact fun v nv h => ⟨nv, h, rfl, rfl⟩
  · intro x hx
    simp only [upd_apply] at hx
    split at hx
    · simp at hx
    · exact ⟨hx, by assumption⟩

theorem dropInPlace_ok {h : Heap α} {a : Addr} (hl : h.live a = true) :
    dropInPlace a h = .ok () { h with live := upd h.live a false, log := h.log ++ (h.data a).val?.toList } := by
  show (getData a h).bind _ = _
  rw [getData_ok hl]; rfl

/-- The last owner of a contiguous node without children goes. -/
theorem free_piled {D} {Z : Addr → Bool} {e : Addr → Nat} {G : Heap α} (hS : SInvD G D) (hD : ∀ v, D v = 0) {a : Addr} {d : α} {v : Nat} (ha : G.Used a) (hz : Z a = false)
    (he : e a = 0) (hE : ∀ x, e x ≠ 0 → G.Used x) (hd : G.data a = .piled d v) :
    ∃ G', (do dropInPlace a; decrRef v) (bumpZ (fun x => Z x || decide (x = a)) e G) = .ok () (bumpZ Z e G') ∧
      Freed G G' a [d] ∧ SInvD G' D ∧ VecSub G' G ∧ (∀ x, G'.live x = true → G.live x = true ∧ x ≠ a) := by
  obtain ⟨nv, hv, hin⟩ := hS.hasBlk ha (w := v) (by simp [hd, Data.blk])
  obtain ⟨h', e1, F, S'⟩ := decrRef_freed hS ha hv hin [d]
  have hpos := hS.pos v nv hv
  have hcnt := hS.cnt v nv hv
  have hnu : ¬ ({ h' with log := h'.log ++ [d] } : Heap α).Used a := fun h => ((F.used a).mp h).2 rfl
  have S'' := S'.bury hnu (G.data a) 0
  -- the heap after `drop_in_place`
  have e2 : dropInPlace a (bumpZ (fun x => Z x || decide (x = a)) e G) =
      .ok () { (bumpZ (fun x => Z x || decide (x = a)) e G) with live := upd G.live a false, log := G.log ++ [d] } := by
    rw [dropInPlace_ok (h := bumpZ (fun x => Z x || decide (x = a)) e G) ha.1]
    simp [hd, Data.val?]
  have hF : Freed G { h' with log := h'.log ++ [d], live := upd h'.live a false, data := upd h'.data a (G.data a), count := upd h'.count a 0 } a [d] := by
    refine ⟨?_, F.prev, F.next, F.head, F.tail, F.up, F.size, ?_, ?_, F.borrow, F.nextAddr, F.nextVec, F.log⟩
    · intro x
      rw [← F.used x]
      by_cases hx : x = a
      · subst hx
        constructor
        · intro h; simp [Heap.Used] at h
        · intro h; exact absurd h hnu
      · simp [Heap.Used, upd_apply, hx]
    · intro x hx; simp only [upd_of_ne _ _ hx]; exact F.data x hx
    · intro x hx; simp only [upd_of_ne _ _ hx]; exact F.count x hx
  have hcZ : ∀ x, (if (Z x || decide (x = a)) = true then 0 else G.count x + e x) = (if Z x = true then 0 else upd G.count a 0 x + e x) := by
    intro x
    by_cases hx : x = a
    · subst hx; simp [hz, he]
    · simp [hx, upd_apply]
  refine ⟨_, ?_, hF, S'', ?_, ?_⟩
  · simp only [M.bind_apply, e2, Res.bind_ok]
    by_cases h1 : nv.refCnt - 1 = 0
    · have hz' : esum e nv = 0 := by
        rw [esum_zero]
        intro x hx
        rcases Nat.eq_zero_or_pos (e x) with h | h
        · exact h
        · have hxu := hE x (by omega)
          have h3 : usedCnt G nv = 1 := by have := hD v; omega
          by_cases hxa : x = a
          · rw [hxa]; exact he
          · exfalso
            have h4 := countP_split (p := G.usedB) (q := fun y => G.usedB y && decide (y ≠ a)) (List.nodup_range' (step := 1)) (mem_vec_range.mpr hin)
              (Heap.usedB_iff.mpr ha) (by simp) (by intro y hy; simp [hy])
            have h5 : (List.range' nv.base nv.cap).countP (fun y => G.usedB y && decide (y ≠ a)) = 0 := by
              simp only [usedCnt] at h3; omega
            have h6 := List.countP_eq_zero.mp h5 x (mem_vec_range.mpr hx)
            exact h6 (by simp [Heap.usedB_iff.mpr hxu, hxa])
      have hne : ¬ nv.refCnt = 0 := by omega
      simp only [decrRef, hv, hne, h1, if_true, if_false, Res.ok.injEq, true_and] at e1
      subst e1
      have g1 : nv.refCnt + esum e nv - 1 = 0 := by omega
      have g0 : ¬ nv.refCnt + esum e nv = 0 := by omega
      simp only [decrRef, bumpZ_vec, bumpVec_some hv, g0, g1, if_true, if_false]
      congr 1
      refine heap_ext ?_ rfl rfl rfl rfl rfl rfl ?_ ?_ rfl ?_ rfl rfl rfl
      · funext x
        simp only [killRange, upd_apply, bumpZ_live]
        by_cases hx : x = a
        · simp [hx]
        · simp [hx]
      · simp only [bumpZ_data, upd_upd]; rw [upd_id rfl]
      · funext x; exact hcZ x
      · funext w
        simp only [bumpZ_vec, bumpVec, upd_apply]
        by_cases hw : w = v <;> simp [hw]
    · have hne : ¬ nv.refCnt = 0 := by omega
      simp only [decrRef, hv, hne, h1, if_false, Res.ok.injEq, true_and] at e1
      subst e1
      have g1 : ¬ nv.refCnt + esum e nv - 1 = 0 := by omega
      have g0 : ¬ nv.refCnt + esum e nv = 0 := by omega
      simp only [decrRef, bumpZ_vec, bumpVec_some hv, g0, g1, if_false]
      congr 1
      refine heap_ext rfl rfl rfl rfl rfl rfl rfl ?_ ?_ rfl ?_ rfl rfl rfl
      · simp only [bumpZ_data, upd_upd]; rw [upd_id rfl]
      · funext x; exact hcZ x
      · funext w
        simp only [bumpZ_vec, bumpVec, upd_apply]
        by_cases hw : w = v
        · simp [hw, esum]; omega
        · simp [hw]
  · intro w nw hw
    have hne : ¬ nv.refCnt = 0 := by omega
    by_cases h1 : nv.refCnt - 1 = 0
    · simp only [decrRef, hv, hne, h1, if_true, if_false, Res.ok.injEq, true_and] at e1
      subst e1
      simp only [upd_apply] at hw
      split at hw
      · simp at hw
      · exact ⟨nw, hw, rfl, rfl⟩
    · simp only [decrRef, hv, hne, h1, if_false, Res.ok.injEq, true_and] at e1
      subst e1
      simp only [upd_apply] at hw
      split at hw
      · rename_i hx
        cases hw; exact ⟨nv, by rw [hx]; exact hv, rfl, rfl⟩
      · exact ⟨nw, hw, rfl, rfl⟩
  · intro x hx
    have hxa : x ≠ a := by rintro rfl; simp at hx
    refine ⟨?_, hxa⟩
    simp only [upd_of_ne _ _ hxa] at hx
    have hne : ¬ nv.refCnt = 0 := by omega
    by_cases h1 : nv.refCnt - 1 = 0
    · simp only [decrRef, hv, hne, h1, if_true, if_false, Res.ok.injEq, true_and] at e1
      subst e1
      simp only [killRange] at hx
      split at hx
      · simp at hx
      · exact hx
    · simp only [decrRef, hv, hne, h1, if_false, Res.ok.injEq, true_and] at e1
      subst e1
      exact hx

end Trees
