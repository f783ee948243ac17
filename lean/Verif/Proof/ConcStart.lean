import Verif.Proof.ConcSys
import Verif.Props.Conc
/-
Threads with values of their own and shared references: what each of them can see when it starts.
-/
namespace Trees
set_option linter.unusedSimpArgs false
set_option linter.unusedVariables false
variable {α β γ : Type} {n : Nat}
open Classical
namespace Fine

/-- What thread `i` can see (0) and cannot see (1). -/
def sees (own : Var → Fin (n + 1)) (i : Fin n) (x : Var) : Fin 2 := if own x = 0 ∨ own x = i.succ then 0 else 1

theorem sees_zero {own : Var → Fin (n + 1)} {i : Fin n} {x : Var} : sees own i x = 0 ↔ own x = 0 ∨ own x = i.succ := by
  simp only [sees]; split
  · simp [*]
  · simp [*]

section
variable {m : Machine α} {K : Addr → List Addr} {own : Var → Fin (n + 1)}

theorem sees_mine {i : Fin n} {a : Addr} : Mine m K (sees own i) 0 a ↔ Mine m K own 0 a ∨ Mine m K own i.succ a := by
  constructor
  · rintro ⟨x, hd, h1, h2, h3⟩
    rcases sees_zero.mp h2 with h | h
    · exact .inl ⟨x, hd, h1, h, h3⟩
    · exact .inr ⟨x, hd, h1, h, h3⟩
  · rintro (⟨x, hd, h1, h2, h3⟩ | ⟨x, hd, h1, h2, h3⟩)
    · exact ⟨x, hd, h1, sees_zero.mpr (.inl h2), h3⟩
    · exact ⟨x, hd, h1, sees_zero.mpr (.inr h2), h3⟩

theorem sees_apart (hs : Apart1 m K own) (i : Fin n) : Apart1 m K (sees own i) := by
  rintro j k a b v nv hjk ⟨x, hd, e1, rfl, r1⟩ ⟨y, hd', e2, rfl, r2⟩ hv ha hb
  exact hs (own x) (own y) a b v nv (fun e => hjk (by simp only [sees, e])) ⟨x, hd, e1, rfl, r1⟩ ⟨y, hd', e2, rfl, r2⟩ hv ha hb

variable (M : MInv m K)
include M

theorem partM_live_iff {k : Nat} {own : Var → Fin k} (hs : Apart1 m K own) {i : Fin k} {a : Addr} : (partM m K own i).heap.live a = true ↔
    m.heap.live a = true ∧ (Mine m K own i a ∨ ∃ v nv b, m.heap.vec v = some nv ∧ InVec nv a ∧ Mine m K own i b ∧ InVec nv b) := by
  constructor
  · intro h; exact ⟨partM_live M h, partM_here M hs (.inl h)⟩
  · rintro ⟨h0, h | ⟨v, nv, b, h1, h2, h3, h4⟩⟩
    · exact ((partM_used M).mpr h).1
    · by_cases hu : m.heap.Used a
      · obtain ⟨j, hj⟩ := used_mine (own := own) M hu
        by_cases hij : i = j
        · subst hij; exact ((partM_used M).mpr hj).1
        · exact absurd h2 (hs i j b a v nv hij h3 hj h1 h4)
      · have ht : theirs m K own i a = false := by
          simp only [theirs, decide_eq_false_iff_not]
          rintro ⟨x, hd, e, -, r⟩
          exact hu (reach_used M (M.hnd x hd e).used r)
        show (cut (theirs m K own i) m.heap).live a = true
        simp only [cut, h0, ht, Bool.not_false, Bool.true_and, Bool.or_eq_true, decide_eq_true_eq]
        exact .inr ⟨v, nv, (partM_vec M hs).mpr ⟨h1, b, h3, h4⟩, h2⟩

variable (hs : Apart1 m K own)
include hs

theorem sees_vec {i : Fin n} {v : Nat} {nv : NodeVec} : (partM m K (sees own i) 0).heap.vec v = some nv ↔
    (partM m K own 0).heap.vec v = some nv ∨ (partM m K own i.succ).heap.vec v = some nv := by
  rw [partM_vec M (sees_apart hs i), partM_vec M hs, partM_vec M hs]
  constructor
  · rintro ⟨h1, a, h2, h3⟩
    rcases sees_mine.mp h2 with h | h
    · exact .inl ⟨h1, a, h, h3⟩
    · exact .inr ⟨h1, a, h, h3⟩
  · rintro (⟨h1, a, h2, h3⟩ | ⟨h1, a, h2, h3⟩)
    · exact ⟨h1, a, sees_mine.mpr (.inl h2), h3⟩
    · exact ⟨h1, a, sees_mine.mpr (.inr h2), h3⟩

theorem sees_live {i : Fin n} {a : Addr} : (partM m K (sees own i) 0).heap.live a = true ↔
    (partM m K own 0).heap.live a = true ∨ (partM m K own i.succ).heap.live a = true := by
  rw [partM_live_iff M (sees_apart hs i), partM_live_iff M hs, partM_live_iff M hs]
  constructor
  · rintro ⟨h0, h | ⟨v, nv, b, h1, h2, h3, h4⟩⟩
    · rcases sees_mine.mp h with h | h
      · exact .inl ⟨h0, .inl h⟩
      · exact .inr ⟨h0, .inl h⟩
    · rcases sees_mine.mp h3 with h | h
      · exact .inl ⟨h0, .inr ⟨v, nv, b, h1, h2, h, h4⟩⟩
      · exact .inr ⟨h0, .inr ⟨v, nv, b, h1, h2, h, h4⟩⟩
  · rintro (⟨h0, h | ⟨v, nv, b, h1, h2, h3, h4⟩⟩ | ⟨h0, h | ⟨v, nv, b, h1, h2, h3, h4⟩⟩)
    · exact ⟨h0, .inl (sees_mine.mpr (.inl h))⟩
    · exact ⟨h0, .inr ⟨v, nv, b, h1, h2, sees_mine.mpr (.inl h3), h4⟩⟩
    · exact ⟨h0, .inl (sees_mine.mpr (.inr h))⟩
    · exact ⟨h0, .inr ⟨v, nv, b, h1, h2, sees_mine.mpr (.inr h3), h4⟩⟩

end

theorem partL_mono {A : Alloc} {G H H' : Heap α} (h1 : ∀ a, H.live a = true → H'.live a = true) (h2 : ∀ v nv, H.vec v = some nv → H'.vec v = some nv) :
    Sub (partL A G H) (partL A G H') := by
  refine Sub.mk9 ?_ (fun a _ => by simp only [partL, Eq9, and_self]) ?_
  · intro x h
    simp only [partL, decide_eq_true_eq] at h ⊢
    obtain ⟨a, h3, h4⟩ := h
    exact ⟨a, h1 a h3, h4⟩
  · intro w nw h
    simp only [partL] at h ⊢
    split at h
    · rename_i h3
      obtain ⟨v, nv, h3, h4⟩ := h3
      rw [if_pos ⟨v, nv, h2 v nv h3, h4⟩]; exact h
    · cases h

theorem partL_agree {A A' : Alloc} {G H : Heap α} (h1 : ∀ a, H.live a = true → A.addr a = A'.addr a) (h2 : ∀ v nv, H.vec v = some nv → A.vec v = A'.vec v) :
    partL A G H = partL A' G H := by
  have e1 : (fun x => decide (∃ a, H.live a = true ∧ A.addr a = x)) = fun x => decide (∃ a, H.live a = true ∧ A'.addr a = x) := by
    funext x
    refine decide_eq_decide.mpr ⟨?_, ?_⟩
    · rintro ⟨a, h, e⟩; exact ⟨a, h, (h1 a h).symm.trans e⟩
    · rintro ⟨a, h, e⟩; exact ⟨a, h, (h1 a h).trans e⟩
  have e2 : (fun w => if ∃ v nv, H.vec v = some nv ∧ A.vec v = w then G.vec w else none) = fun w => if ∃ v nv, H.vec v = some nv ∧ A'.vec v = w then G.vec w else none := by
    funext w
    have : (∃ v nv, H.vec v = some nv ∧ A.vec v = w) ↔ ∃ v nv, H.vec v = some nv ∧ A'.vec v = w := by
      constructor
      · rintro ⟨v, nv, h, e⟩; exact ⟨v, nv, h, (h2 v nv h).symm.trans e⟩
      · rintro ⟨v, nv, h, e⟩; exact ⟨v, nv, h, (h2 v nv h).trans e⟩
    simp only [this]
  simp only [partL]
  rw [e1, e2]

section
variable {m m' : Machine α} {K : Addr → List Addr} {A : Alloc} (r : AMRel A m m') (M : MInv m' K)
include r M

theorem partL_disj {k : Nat} {own : Var → Fin k} (hs : Apart1 m' K own) {i j : Fin k} (hij : i ≠ j) :
    Disj (partL A m.heap (partM m' K own i).heap) (partL A m.heap (partM m' K own j).heap) := by
  refine ⟨?_, ?_⟩
  · intro x h1 h2
    obtain ⟨a, ha, ea⟩ := partL_here r M hs h1
    obtain ⟨b, hb, eb⟩ := partL_here r M hs h2
    have := r.heap.inj a b (partM_hereM M hs ha) (partM_hereM M hs hb) (ea.trans eb.symm)
    subst this
    exact partM_disj M hs hij ha hb
  · intro w nw h1
    obtain ⟨v, nv, e1, e2, -⟩ := (partL_vec r M hs).mp h1
    cases h2 : (partL A m.heap (partM m' K own j).heap).vec w with
    | none => rfl
    | some nx =>
      exfalso
      obtain ⟨u, nu, f1, f2, -⟩ := (partL_vec r M hs).mp h2
      have := r.heap.vinj v u nv nu ((partM_vec M hs).mp e1).1 ((partM_vec M hs).mp f1).1 (e2.trans f2.symm)
      subst this
      exact partM_vdisj M hs hij e1 f1

end

section
variable {m m' : Machine α} {K : Addr → List Addr} {own : Var → Fin (n + 1)} {As : Fin n → Alloc} {A0 : Alloc} (r0 : AMRel A0 m m')
  (ag : ∀ i, Agree A0 (As i) m.heap) (r : ∀ i, AMRel (As i) m m') (M : MInv m' K) (hs : Apart1 m' K own)
include r0 ag r M hs

theorem agree_partL {k : Nat} {oj : Var → Fin k} (hj : Apart1 m' K oj) (i : Fin n) (j : Fin k) :
    partL (As i) m.heap (partM m' K oj j).heap = partL A0 m.heap (partM m' K oj j).heap := by
  refine partL_agree (fun a h => (ag i).addr a ?_) fun v nv h => (ag i).vec v ?_
  · rw [r0.heap.nextAddr]; exact r0.heap.lbnd a (partM_live M h)
  · rw [r0.heap.nextVec]; exact r0.heap.known v nv ((partM_vec M hj).mp h).1

theorem start_mrel (ops : Fin n → List (Op α)) :
    MRel As (mixed m own ops) (partL A0 m.heap (partM m' K own 0).heap) (fun i => partL A0 m.heap (partM m' K own i.succ).heap)
      (fun i => partL A0 m.heap (partM m' K (sees own i) 0).heap) := by
  have hv := fun i => sees_apart hs i
  refine ⟨?_, ?_, ?_, ?_, ?_, ?_, ?_, ?_, ?_, ?_, ?_, ?_⟩
  · intro i; exact partL_sub r0 M (hv i) 0
  · intro i; exact partL_mono (fun a h => (sees_live M hs).mpr (.inr h)) fun v nv h => (sees_vec M hs).mpr (.inr h)
  · intro i; exact partL_mono (fun a h => (sees_live M hs).mpr (.inl h)) fun v nv h => (sees_vec M hs).mpr (.inl h)
  · intro i; exact ⟨rfl, rfl, rfl⟩
  · intro i; exact ⟨rfl, rfl, rfl⟩
  · intro i; exact partL_disj r0 M hs (Fin.succ_ne_zero i)
  · intro i j hij; exact partL_disj r0 M hs fun e => hij (Fin.succ_inj.mp e)
  · intro i w nw h
    have h' := h
    rw [← agree_partL r0 ag r M hs (hv i) i 0] at h'
    obtain ⟨v, nv, h1, h2, -⟩ := (partL_vec (r i) M (hv i)).mp h'
    exact ⟨v, by show v < m.heap.nextVec; rw [r0.heap.nextVec]; exact r0.heap.known v nv ((partM_vec M (hv i)).mp h1).1, h2⟩
  · intro i x h
    simp only [partL, decide_eq_true_eq] at h ⊢
    obtain ⟨a, h1, h2⟩ := h
    rcases (sees_live M hs).mp h1 with h | h
    · exact .inr ⟨a, h, h2⟩
    · exact .inl ⟨a, h, h2⟩
  · intro i w nw h
    obtain ⟨v, nv, h1, h2, h3⟩ := (partL_vec r0 M (hv i)).mp h
    rcases (sees_vec M hs).mp h1 with h | h
    · exact .inr ((partL_vec r0 M hs).mpr ⟨v, nv, h, h2, h3⟩)
    · exact .inl ((partL_vec r0 M hs).mpr ⟨v, nv, h, h2, h3⟩)
  · intro x h
    obtain ⟨a, h1, rfl⟩ := r0.heap.onto x h
    obtain ⟨j, hj⟩ := partM_cover M hs (own := own) h1
    rcases Fin.eq_zero_or_eq_succ j with rfl | ⟨i, rfl⟩
    · exact .inl ((partL_arel r0 M hs 0).live a hj)
    · exact .inr ⟨i, (partL_arel r0 M hs i.succ).live a hj⟩
  · intro w nw h
    obtain ⟨v, nv, h1, rfl⟩ := r0.heap.vonto w nw h
    obtain ⟨j, hj⟩ := partM_vcover M hs (own := own) h1
    have e : nw = ⟨A0.addr nv.base, nv.cap, nv.refCnt⟩ := by
      have h' : m.heap.vec (A0.vec v) = some nw := h
      rw [r0.heap.vec v nv h1] at h'; exact (Option.some.inj h').symm
    rcases Fin.eq_zero_or_eq_succ j with rfl | ⟨i, rfl⟩
    · exact .inl ((partL_vec r0 M hs).mpr ⟨v, nv, hj, rfl, e⟩)
    · exact .inr ⟨i, (partL_vec r0 M hs).mpr ⟨v, nv, hj, rfl, e⟩⟩

end
end Fine

open Fine

/-- What thread `i` can see when it starts: its own values and the shared ones. -/
def Machine.seen (m : Machine α) (own : Var → Fin (n + 1)) (i : Fin n) : Store α :=
  ⟨fun x => if own x = 0 ∨ own x = i.succ then m.view x else none, m.fresh, []⟩

namespace Proof

/-- The parts of memory of such threads when they start. -/
structure MParts (A : Fin n → Alloc) (m : Machine α) (own : Var → Fin (n + 1)) (ops : Fin n → List (Op α)) (S : Heap α) (Q V : Fin n → Heap α)
    (m' : Fin n → Machine α) (K : Fin n → Addr → List Addr) (mS : Machine α) (KS : Addr → List Addr) : Prop where
  rel : MRel A (mixed m own ops) S Q V
  am : ∀ i, AMRel (A i) (Vars.at ⟨fun x => if own x = 0 ∨ own x = i.succ then m.env x else none, m.fresh⟩ (V i)) (m' i)
  inv : ∀ i, MInv (m' i) (K i)
  store : ∀ i, (m' i).store = m.seen own i
  ne : ∀ i, NE S (A i) (fun x => own x = 0 ∧ x < m.fresh) m.env ((mixed m own ops).th i).prog (V i)
  shared : ∃ A0, AMRel A0 (Vars.at ⟨fun x => if own x = 0 then m.env x else none, m.fresh⟩ S) mS
  sinv : MInv mS KS
  sstore : mS.store = m.part own 0
  snode : ∀ a, S.live a = true → (∃ x p, own x = 0 ∧ m.nodeAt x p = some a) ∨
    ∃ v nv x p, S.vec v = some nv ∧ nv.base ≤ a ∧ a < nv.base + nv.cap ∧ own x = 0 ∧ m.blockAt x p = some v
  sblock : ∀ v nv, S.vec v = some nv → ∃ x p, own x = 0 ∧ m.blockAt x p = some v
  ssub : Sub S m.heap
  scount : S.nextAddr = m.heap.nextAddr ∧ S.nextVec = m.heap.nextVec ∧ S.log = []

theorem mparts {A0 : Alloc} {ops0 : List (Op α)} {m : Machine α} {A : Fin n → Alloc} (h : Spawned A0 ops0 m A) {own : Var → Fin (n + 1)}
    (sep : m.Separate own) {ops : Fin n → List (Op α)} (hp : ∀ i, Polite m own (ops i)) : ∃ S Q V m' K mS KS, MParts A m own ops S Q V m' K mS KS := by
  obtain ⟨os, e0⟩ := spawned_run h
  have ag : ∀ i, Agree A0 (A i) m.heap := fun i => ⟨h.addr i, h.vec i⟩
  have r0 := amrel_agree e0 ⟨fun _ _ => rfl, fun _ _ => rfl⟩
  have r : ∀ i, AMRel (A i) m (Trees.exec Trees.step Machine.empty ops0).1 := fun i => amrel_agree e0 (ag i)
  have hr : Reachable (Trees.exec Trees.step (Machine.empty : Machine α) ops0).1 := by
    have := execA_sim A0 ops0 _ _ (amrel_empty A0) .init
    rw [e0] at this
    exact this.2.2
  generalize (Trees.exec Trees.step (Machine.empty : Machine α) ops0).1 = mm at *
  obtain ⟨K, M⟩ := reachable_minv hr
  have hs := separate_apart r0 hr M sep
  have R := start_mrel r0 ag r M hs ops
  have hview : m.view = mm.view := amrel_view r0 hr
  have none' : ∀ x, m.fresh ≤ x → m.env x = none := by
    intro x hx
    have e1 : m.env x = (mm.env x).map (Handle.ren A0) := r0.at x
    rw [e1, M.fr x (by have := r0.fresh; aomega)]; rfl
  refine ⟨_, _, _, fun i => partM mm K (sees own i) 0, _, partM mm K own 0, _, ⟨R, fun i => ?_, fun i => partM_minv M 0, fun i => ?_, fun i => ?_,
    ⟨A0, partL_amrel r0 M hs 0⟩, partM_minv M 0, ?_, ?_, ?_, partL_sub r0 M hs 0, rfl, rfl, rfl⟩⟩
  · have := partL_amrel (r i) M (sees_apart hs i) 0
    rw [agree_partL r0 ag r M hs (sees_apart hs i) i 0] at this
    simp only [sees_zero] at this
    exact this
  · rw [partM_store M 0]
    simp only [Machine.part, Machine.seen, sees_zero]
    rw [hview, r0.fresh]
  · have rS := partL_arel (r i) M hs 0
    rw [agree_partL r0 ag r M hs hs i 0] at rS
    have rQ := partL_amrel (r i) M hs i.succ
    rw [agree_partL r0 ag r M hs hs i i.succ] at rQ
    refine nw_exec (sh := fun x => own x = 0 ∧ x < m.fresh) (w := m.env) rS (partM_minv M 0) (fun x hx => ?_) (ops i) _
      ⟨fun x => if own x = i.succ then m.env x else none, m.fresh⟩ _ _ _ _ (hp i) ?_ rQ (partM_minv M i.succ) ?_
    · show m.env x = Option.map _ (if own x = 0 then mm.env x else none)
      rw [if_pos hx.1]; exact (r i).at x
    · refine ⟨rfl, fun x hx => hx.2, fun x hx => ?_, fun x hx => ?_, fun x hx => ?_⟩
      · show (if own x = 0 ∨ own x = i.succ then m.env x else none) = if own x = i.succ then m.env x else none
        by_cases h1 : own x = 0
        · have : m.fresh ≤ x := by by_contra h2; exact hx ⟨h1, Nat.lt_of_not_le h2⟩
          rw [none' x this]; simp
        · simp [h1]
      · show (if own x = 0 ∨ own x = i.succ then m.env x else none) = m.env x
        rw [if_pos (.inl hx.1)]
      · show (if own x = i.succ then m.env x else none) = none
        rw [if_neg (by rw [hx.1]; exact (Fin.succ_ne_zero i).symm)]
    · refine ⟨R.qsub i, R.qsame i, R.qs i, R.ssub i, fun v nv hv => ?_, R.vlive i, R.vvec i⟩
      obtain ⟨w, h1, h2⟩ := R.known i v nv ((R.ssub i).vec v nv hv)
      exact ⟨w, h1, h2⟩
  · rw [partM_store M 0]
    simp only [Machine.part]
    rw [hview, r0.fresh]
  · intro x0 hx
    obtain ⟨a, ha, rfl⟩ := (partL_arel r0 M hs 0).onto x0 hx
    have inv := (partM_minv (own := own) M 0).st.tight a ha
    rcases inv with h1 | ⟨v, nv, h1, h2⟩
    · obtain ⟨x, hd, e1, e2, hR⟩ := (partM_used M).mp h1
      obtain ⟨p, hp⟩ := reach_resolve hR
      have hn : mm.nodeAt x p = some a := by simp [Machine.nodeAt, e1, locate_ok M.inv (M.hnd x hd e1).used, hp]
      exact .inl ⟨x, p, e2, by rw [amrel_nodeAt r0 hr, hn]; rfl⟩
    · obtain ⟨h3, b, ⟨x, hd, e1, e2, hR⟩, h5⟩ := (partM_vec M hs).mp h1
      obtain ⟨p, hp⟩ := mine_block r0 hr M x hd b v nv e1 hR h3 h5
      have hsl := (partL_arel r0 M hs 0).slots v nv h1 (a - nv.base) (by have := h2.1; have := h2.2; allomega)
      have ea : nv.base + (a - nv.base) = a := by have := h2.1; allomega
      rw [ea] at hsl
      refine .inr ⟨A0.vec v, ⟨A0.addr nv.base, nv.cap, nv.refCnt⟩, x, p, (partL_vec r0 M hs).mpr ⟨v, nv, h1, rfl, rfl⟩, ?_, ?_, e2, hp⟩
      · rw [hsl]; exact Nat.le_add_right _ _
      · rw [hsl]; show _ < A0.addr nv.base + nv.cap; have := h2.1; have := h2.2; allomega
  · intro w nw h
    obtain ⟨v, nv, h1, rfl, -⟩ := (partL_vec r0 M hs).mp h
    obtain ⟨h3, b, ⟨x, hd, e1, e2, hR⟩, h5⟩ := (partM_vec M hs).mp h1
    obtain ⟨p, hp⟩ := mine_block r0 hr M x hd b v nv e1 hR h3 h5
    exact ⟨x, p, e2, hp⟩

theorem mparts_good {A : Fin n → Alloc} {m : Machine α} {own : Var → Fin (n + 1)} {ops : Fin n → List (Op α)} {S : Heap α} {Q V : Fin n → Heap α}
    {m' : Fin n → Machine α} {K : Fin n → Addr → List Addr} {mS : Machine α} {KS : Addr → List Addr} (P : MParts A m own ops S Q V m' K mS KS) (i : Fin n) :
    Good (A i) (V i, ((mixed m own ops).th i).prog) := by
  intro e h' hr
  have := exec_run (ops i) _ (V i) (m' i) (K i) (P.am i) (P.inv i)
  rw [show (Fine.exec ⟨fun x => if own x = 0 ∨ own x = i.succ then m.env x else none, m.fresh⟩ (ops i)).run (A i) (V i) = .err e h' from hr] at this
  exact this.1

theorem mfull_run {A : Fin n → Alloc} {S : Heap α} {s s' : Sys n α β} {Q V : Fin n → Heap α} (R : MRel A s S Q V) (g : ∀ i, Good (A i) (V i, (s.th i).prog))
    (nw : ∀ i, NW S (A i) (s.th i).prog (V i)) (f : ∀ j, Full (s.th j).prog) {sched : List (Fin n)} (e : s.run A sched = some s') (j : Fin n) :
    Full (s'.th j).prog := by
  induction sched generalizing s Q V with
  | nil => simp only [Sys.run, Option.some.injEq] at e; subst e; exact f j
  | cons i is ih =>
    simp only [Sys.run] at e
    cases e1 : s.step A i with
    | none => rw [e1] at e; cases e
    | some s1 =>
      rw [e1] at e
      obtain ⟨Q1, V1, R1, nw1, h1⟩ := mrel_step R g nw e1
      have g1 : ∀ j, Good (A j) (V1 j, (s1.th j).prog) := by
        intro j
        rw [h1 j]
        split
        · rename_i h; subst h; exact (g j).alone
        · exact g j
      refine ih R1 g1 nw1 (fun j => ?_) e
      rcases full_sys f e1 j with h | ⟨x, hx, h⟩
      · exact h
      · have := g1 j x (V1 j) (by rw [h]; rfl)
        exact absurd this hx

/-- What is shared is in memory, at every moment. -/
theorem mshared {A : Fin n → Alloc} {m : Machine α} {own : Var → Fin (n + 1)} {ops : Fin n → List (Op α)} {S : Heap α} {Q V : Fin n → Heap α}
    {m' : Fin n → Machine α} {K : Fin n → Addr → List Addr} {mS : Machine α} {KS : Addr → List Addr} (P : MParts A m own ops S Q V m' K mS KS)
    {sched : List (Fin n)} {s} (e : (mixed m own ops).run A sched = some s) : Sub S s.mem := by
  obtain ⟨Q1, V1, R1, g1, nw1, h1⟩ := mrel_run P.rel (mparts_good P) (fun i => (P.ne i).1) e
  cases n with
  | zero =>
    cases sched with
    | nil => simp only [Sys.run, Option.some.injEq] at e; subst e; exact P.ssub
    | cons i is => exact i.elim0
  | succ n => exact (R1.ssub 0).trans (R1.vsub 0)

end Proof
end Trees
