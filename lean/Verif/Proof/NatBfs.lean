import Verif.Proof.NatOps
import Mathlib.Data.List.Forall2
/-
Naturality of breadth-first iteration, of construction from it and from tuples.
-/
namespace Trees
set_option linter.unusedSimpArgs false
set_option linter.unusedVariables false
variable {α β γ δ δ' κ σ σ' ι : Type} {C : NCtx β α}

/-- The heap after the root item of `t` has been taken out by way of a new node. -/
def Heap.taken (h : Heap α) (t : Addr) (rest : Data α) : Heap α :=
  { h with
    live := upd (upd h.live h.nextAddr true) h.nextAddr false
    prev := upd h.prev h.nextAddr none
    next := upd h.next h.nextAddr none
    head := upd h.head h.nextAddr none
    tail := upd h.tail h.nextAddr none
    up := upd h.up h.nextAddr none
    size := upd h.size h.nextAddr .default
    data := upd (upd h.data t rest) h.nextAddr .none
    count := upd (upd h.count h.nextAddr 1) h.nextAddr 0
    borrow := upd h.borrow h.nextAddr 0
    nextAddr := h.nextAddr + 1 }

theorem upd_upd {γ : Type} (f : Addr → γ) (a : Addr) (x y : γ) : upd (upd f a x) a y = upd f a y := by
  funext z; simp only [upd_apply]; split <;> rfl

theorem abandon_intoData {t : Addr} {h : Heap α} {rest : Data α} {d : α} (hl : h.live t = true)
    (ht : (h.data t).take = some (rest, d)) {k : α → Addr → γ} :
    (do let q ← abandon t; let d ← intoData q.1; return k d q.2 : M α γ) h = .ok (k d t) (h.taken t rest) := by
  simp [abandon, intoData, getData, setData, hl, ht, makeNode, rcDrop, Data.setOwner, Heap.taken, Data.val?, upd_upd]

theorem Data.mapD_take (g : β → α) (d : Data β) : (d.mapD g).take = d.take.map fun q => (q.1.mapD g, g q.2) := by
  cases d <;> rfl
theorem Data.take_val {d rest : Data β} {b : β} (h : d.take = some (rest, b)) : rest.val? = Option.none := by
  cases d <;> simp only [Data.take, reduceCtorEq, Option.some.injEq, Prod.mk.injEq] at h <;> rw [← h.1] <;> rfl

theorem nat_split (t : Addr) : LSim C (fun q q' => C.g q.1 = q'.1 ∧ q.2 = q'.2) (ownSrc.split t) (ownSrc.split t) := by
  unfold ownSrc
  refine (nat_getSize t).bindEq fun s => ?_
  intro L H r
  have hd := r.data t
  by_cases hl : H.live t = true
  · have hl' : L.live t = true := by rw [r.live]; exact hl
    have ht : (H.data t).take = (L.data t).take.map fun q => (q.1.mapD C.g, C.g q.2) := by rw [← hd, Data.mapD_take]
    cases hx : (L.data t).take with
    | none =>
      have hx' : (H.data t).take = none := by rw [ht, hx]; rfl
      simp [abandon, getData, hl, hl', hx, hx', LRes, r]
    | some q =>
      obtain ⟨rest, d⟩ := q
      have hx' : (H.data t).take = some (rest.mapD C.g, C.g d) := by rw [ht, hx]; rfl
      have hr : rest.val? = none := Data.take_val hx
      have e1 := abandon_intoData hl' hx (k := fun d f => (d, f, s.descendants))
      have e2 := abandon_intoData hl hx' (k := fun d f => (d, f, s.descendants))
      show LRes C _ ((do let q ← abandon t; let d ← intoData q.1; return (d, q.2, s.descendants) : M β _) L)
        ((do let q ← abandon t; let d ← intoData q.1; return (d, q.2, s.descendants) : M α _) H)
      rw [e1, e2]
      refine ⟨⟨rfl, rfl⟩, ?_⟩
      have e := r.nextAddr
      constructor
      case data =>
        intro a
        simp only [Heap.taken, upd_apply]
        rw [← e]
        split
        · rfl
        · split
          · rfl
          · exact r.data a
      case lab =>
        intro a b
        simp only [Heap.taken, upd_apply]
        split
        · simp [Data.val?]
        · split
          · simp [hr]
          · exact r.lab a b
      case hi => exact Nat.le_succ_of_le r.hi
      case hv => exact r.hv
      case blk => exact r.blk
      case log => exact r.log
      all_goals simp only [Heap.taken, e, r.live, r.prev, r.next, r.head, r.tail, r.up, r.size, r.count, r.borrow, r.vec, r.nextVec]
  · have hl' : ¬ L.live t = true := by rw [r.live]; exact hl
    simp [abandon, getData, rd, hl, hl', LRes, r]

/-- Related sources of breadth-first iteration. -/
structure Src.Nat (C : NCtx β α) (D : δ → δ' → Prop) (S : Src β ι κ δ) (S' : Src α ι κ δ') : Prop where
  next : ∀ i, LSim C Eq (S.next i) (S'.next i)
  len : ∀ i, LSim C Eq (S.len i) (S'.len i)
  drop : ∀ i, LSim C Eq (S.drop i) (S'.drop i)
  split : ∀ k, LSim C (fun q q' => D q.1 q'.1 ∧ q.2 = q'.2) (S.split k) (S'.split k)

/-- The items correspond. -/
def GRel (C : NCtx β α) (d : β) (d' : α) : Prop := C.g d = d'

theorem nat_refSrc : Src.Nat C (GRel C) refSrc refSrc where
  next i := by unfold refSrc; nat
  len i := by unfold refSrc; nat
  drop i := by unfold refSrc; nat
  split a := by
    unfold refSrc
    refine (nat_dataRef a).bind fun d d' h => (nat_iter a).bindEq fun it => (nat_getSize a).bindEq fun s => ?_
    exact .pure ⟨h.1, rfl⟩
theorem nat_mutSrc : Src.Nat C Eq mutSrc mutSrc where
  next i := by unfold mutSrc; nat
  len i := by unfold mutSrc; nat
  drop i := by unfold mutSrc; nat
  split a := by
    unfold mutSrc
    refine (nat_getSize a).bindEq fun s => (nat_dataRef a).bind fun d d' h => (nat_iter a).bindEq fun it => ?_
    exact .pure ⟨rfl, rfl⟩
theorem nat_ownSrc : Src.Nat C (GRel C) ownSrc ownSrc where
  next i := by unfold ownSrc; nat
  len i := by unfold ownSrc; nat
  drop i := by unfold ownSrc; nat
  split a := nat_split a

/-- Related visits. -/
def VisRel (D : δ → δ' → Prop) : Option (δ × Size) → Option (δ' × Size) → Prop
  | some v, some v' => D v.1 v'.1 ∧ v.2 = v'.2
  | none, none => True
  | _, _ => False

/-- Related results of `next()`. -/
def NRel (D : δ → δ' → Prop) (R : σ → σ' → Prop) (q : Option (δ × Size) × σ) (q' : Option (δ' × Size) × σ') : Prop :=
  VisRel D q.1 q'.1 ∧ R q.2 q'.2

section
variable {D : δ → δ' → Prop} {S : Src β ι κ δ} {S' : Src α ι κ δ'}

theorem Src.Nat.splittedNext (hS : Src.Nat C D S S') : ∀ q, LSim C (NRel D Eq) (splittedNext S q) (splittedNext S' q) := by
  intro q
  induction q with
  | nil => unfold Trees.splittedNext; exact .pure ⟨trivial, rfl⟩
  | cons it rest ih =>
    unfold Trees.splittedNext
    refine (hS.next it).bindEq fun o => ?_
    obtain ⟨o, it'⟩ := o
    cases o with
    | none => exact (hS.drop _).bindEq fun _ => ih
    | some k =>
      refine (hS.split _).bind fun q q' hq => ?_
      obtain ⟨d, ch, n⟩ := q
      obtain ⟨d', ch', n'⟩ := q'
      obtain ⟨h1, h2⟩ := hq
      simp only [Prod.mk.injEq] at h1 h2
      obtain ⟨rfl, rfl⟩ := h2
      exact (hS.len _).bindEq fun m => .pure ⟨⟨h1, rfl⟩, rfl⟩

theorem Src.Nat.dropIters (hS : Src.Nat C D S S') : ∀ q, LSim C Eq (dropIters S q) (dropIters S' q) := by
  intro q
  induction q with
  | nil => exact .pureEq _
  | cons it rest ih => exact (hS.drop it).bindEq fun _ => ih
end

/-- Items supplied by the client. -/
def CRel (C : NCtx β α) (d : β) (d' : α) : Prop := C.g d = d' ∧ C.V d

section
variable {D : δ → δ' → Prop} {R : σ → σ' → Prop}
  {nxt : σ → M β (Option (δ × Size) × σ)} {nxt' : σ' → M α (Option (δ' × Size) × σ')}

theorem nat_mapNext {κ' : Type} {D2 : κ → κ' → Prop} {f : Nat → δ → κ} {f' : Nat → δ' → κ'}
    (hf : ∀ i d d', D d d' → D2 (f i d) (f' i d')) (hn : ∀ s s', R s s' → LSim C (NRel D R) (nxt s) (nxt' s'))
    {s : σ × Nat} {s' : σ' × Nat} (h : R s.1 s'.1 ∧ s.2 = s'.2) :
    LSim C (NRel D2 fun s s' => R s.1 s'.1 ∧ s.2 = s'.2) (mapNext f nxt s) (mapNext f' nxt' s') := by
  unfold mapNext
  obtain ⟨s, i⟩ := s
  obtain ⟨s', i'⟩ := s'
  obtain ⟨h1, h2⟩ := h
  simp only at h1 h2
  subst h2
  refine (hn s s' h1).bind fun q q' hq => ?_
  obtain ⟨o, t⟩ := q
  obtain ⟨o', t'⟩ := q'
  obtain ⟨h3, h4⟩ := hq
  cases o <;> cases o' <;> simp only [VisRel] at h3
  · exact .pure ⟨trivial, h4, rfl⟩
  · exact .pure ⟨⟨hf _ _ _ h3.1, h3.2⟩, h4, rfl⟩

theorem nat_driveVisits (hn : ∀ s s', R s s' → LSim C (NRel D R) (nxt s) (nxt' s')) : ∀ (k : Nat) {s : σ} {s' : σ'}, R s s' →
    LSim C (fun q q' => List.Forall₂ (VisRel D) q.1 q'.1 ∧ R q.2 q'.2) (driveVisits nxt k s) (driveVisits nxt' k s') := by
  intro k
  induction k with
  | zero => intro s s' h; exact .pure ⟨.nil, h⟩
  | succ k ih =>
    intro s s' h
    unfold driveVisits
    exact (hn _ _ h).bind fun q q' hq => (ih hq.2).bind fun p p' hp => .pure ⟨.cons hq.1 hp.1, hp.2⟩
end

theorem nat_fillInner (v : Nat) : ∀ (k par child : Nat), LSim C Eq (fillInner v k par child) (fillInner v k par child) := by
  intro k
  induction k with
  | zero => intro a b; unfold fillInner; nat
  | succ k ih => intro a b; unfold fillInner; nat; exact ih _ _

section
variable {R : σ → σ' → Prop} {nxt : σ → M β (Option (β × Size) × σ)} {nxt' : σ' → M α (Option (α × Size) × σ')}

theorem nat_fillLoop (hn : ∀ s s', R s s' → LSim C (NRel (CRel C) R) (nxt s) (nxt' s')) {v : Nat} (hv : C.v0 ≤ v) :
    ∀ (k : Nat) {s : σ} {s' : σ'} (par child remains : Nat), R s s' →
      LSim C R (fillLoop nxt v k s par child remains) (fillLoop nxt' v k s' par child remains) := by
  intro k
  induction k with
  | zero => intro s s' a b c h; unfold fillLoop; exact .throw _
  | succ k ih =>
    intro s s' a b c h
    unfold fillLoop
    refine (hn _ _ h).bind fun q q' hq => ?_
    obtain ⟨o, t⟩ := q
    obtain ⟨o', t'⟩ := q'
    obtain ⟨h3, h4⟩ := hq
    cases o <;> cases o' <;> simp only [VisRel] at h3
    · exact .pure h4
    · rename_i w w'
      obtain ⟨d, sz⟩ := w
      obtain ⟨d', sz'⟩ := w'
      obtain ⟨h5, h6⟩ := h3
      simp only at h6
      subst h6
      dsimp only
      refine (nat_appendChild hv _ _ h5 _).bindEq fun _ => ?_
      split
      · exact .throw _
      · split
        · exact (nat_fillInner _ _ _ _).bindEq fun _ => ih _ _ _ h4
        · exact ih _ _ _ h4

variable {drp : σ → M β Unit} {drp' : σ' → M α Unit}

theorem nat_treeFromBfs (hn : ∀ s s', R s s' → LSim C (NRel (CRel C) R) (nxt s) (nxt' s'))
    (hd : ∀ s s', R s s' → LSim C Eq (drp s) (drp' s')) {s : σ} {s' : σ'} (h : R s s') :
    LSim C Eq (treeFromBfs nxt drp s) (treeFromBfs nxt' drp' s') := by
  unfold treeFromBfs
  refine (hn _ _ h).bind fun q q' hq => ?_
  obtain ⟨o, t⟩ := q
  obtain ⟨o', t'⟩ := q'
  obtain ⟨h3, h4⟩ := hq
  cases o <;> cases o' <;> simp only [VisRel] at h3
  · exact LSim.bind (R := fun _ _ => False) (.throw _) fun _ _ h => h.elim
  · rename_i w w'
    obtain ⟨d, sz⟩ := w
    obtain ⟨d', sz'⟩ := w'
    obtain ⟨h5, h6⟩ := h3
    simp only at h6
    subst h6
    refine LSim.bind (R := fun q q' => q = (d, sz) ∧ q' = (d', sz)) (.pure ⟨rfl, rfl⟩) fun _ _ h => ?_
    obtain ⟨rfl, rfl⟩ := h
    refine (nat_newVec _).bind fun v v' hv => ?_
    obtain ⟨rfl, hv⟩ := hv
    refine (nat_makePiledNode hv _ _ h5 _).bindEq fun _ => (nat_fillLoop hn hv _ _ _ _ h4).bind fun s2 s2' h7 => ?_
    exact (nat_vecNodeEq _ _).bindEq fun _ => (nat_treeFromNode _).bindEq fun _ => (hd _ _ h7).bindEq fun _ => .pureEq _

theorem nat_forestFromBfs (hn : ∀ s s', R s s' → LSim C (NRel (CRel C) R) (nxt s) (nxt' s'))
    (hd : ∀ s s', R s s' → LSim C Eq (drp s) (drp' s')) {s : σ} {s' : σ'} (h : R s s') (sz : Size) :
    LSim C Eq (forestFromBfs nxt drp s sz) (forestFromBfs nxt' drp' s' sz) := by
  unfold forestFromBfs
  refine (nat_newVec _).bind fun v v' hv => ?_
  obtain ⟨rfl, hv⟩ := hv
  refine (nat_vecMakeNode hv _ _ (d := .piledNone v) ⟨rfl, by simp [Data.val?]⟩ _).bindEq fun _ =>
    (nat_fillLoop hn hv _ _ _ _ h).bind fun s2 s2' h7 => ?_
  exact (nat_vecNodeEq _ _).bindEq fun _ => (hd _ _ h7).bindEq fun _ => .pureEq _
end

/-- Related closures that make new items. -/
def FRel (C : NCtx β α) (f : Nat → β → β) (f' : Nat → α → α) : Prop := ∀ i b, CRel C (f i b) (f' i (C.g b))

theorem FRel.map {f : Nat → β → β} {f' : Nat → α → α} (h : FRel C f f') : ∀ i d d', GRel C d d' → CRel C (f i d) (f' i d') := by
  rintro i d _ rfl; exact h i d

theorem nat_bfsChildrenStart (a : Addr) : LSim C Eq (bfsChildrenStart a) (bfsChildrenStart a) := by unfold bfsChildrenStart; nat
macro_rules | `(tactic| nat1) => `(tactic| with_reducible exact nat_bfsChildrenStart _)

section
variable {f : Nat → β → β} {f' : Nat → α → α}

theorem Src.Nat.next_eq {D : δ → δ' → Prop} {S : Src β ι κ δ} {S' : Src α ι κ δ'} (hS : Src.Nat C D S S') :
    ∀ s s', s = s' → LSim C (NRel D Eq) (Trees.splittedNext S s) (Trees.splittedNext S' s') := by
  rintro s _ rfl; exact hS.splittedNext s

theorem nat_mapBfs (hf : FRel C f f') (a : Addr) : LSim C Eq (mapBfs f a) (mapBfs f' a) := by
  refine nat_treeFromBfs (R := fun s s' => s.1 = s'.1 ∧ s.2 = s'.2) (fun s s' h => nat_mapNext hf.map nat_refSrc.next_eq h) ?_ ⟨rfl, rfl⟩
  rintro s s' ⟨h, _⟩; rw [h]; exact nat_refSrc.dropIters _
theorem nat_mapBfsForest (hf : FRel C f f') (a : Addr) : LSim C Eq (mapBfsForest f a) (mapBfsForest f' a) := by
  unfold mapBfsForest
  refine (nat_bfsChildrenStart a).bindEq fun _ => (nat_getSize a).bindEq fun _ => ?_
  refine nat_forestFromBfs (R := fun s s' => s.1 = s'.1 ∧ s.2 = s'.2) (fun s s' h => nat_mapNext hf.map nat_refSrc.next_eq h) ?_ ⟨rfl, rfl⟩ _
  rintro s s' ⟨h, _⟩; rw [h]; exact nat_refSrc.dropIters _
theorem nat_rebuildTree (hf : FRel C f f') (a : Addr) : LSim C Eq (rebuildTree f a) (rebuildTree f' a) := by
  unfold rebuildTree
  refine (nat_treeIntoIter a).bindEq fun _ => ?_
  refine nat_treeFromBfs (R := fun s s' => s.1 = s'.1 ∧ s.2 = s'.2) (fun s s' h => nat_mapNext hf.map nat_ownSrc.next_eq h) ?_ ⟨rfl, rfl⟩
  rintro s s' ⟨h, _⟩; rw [h]; exact nat_ownSrc.dropIters _
theorem nat_rebuildForest (hf : FRel C f f') (a : Addr) : LSim C Eq (rebuildForest f a) (rebuildForest f' a) := by
  unfold rebuildForest
  refine (nat_getSize a).bindEq fun _ => ?_
  refine nat_forestFromBfs (R := fun s s' => s.1 = s'.1 ∧ s.2 = s'.2) (fun s s' h => nat_mapNext hf.map nat_ownSrc.next_eq h) ?_ ⟨rfl, rfl⟩ _
  rintro s s' ⟨h, _⟩; rw [h]; exact nat_ownSrc.dropIters _
end

/-- Related lists of visits. -/
def VisL (C : NCtx β α) := List.Forall₂ (VisRel (GRel C))

theorem nat_intoBfsDrive (k : Nat) (a : Addr) : LSim C (VisL C) (intoBfsDrive k a) (intoBfsDrive k a) := by
  unfold intoBfsDrive
  refine (nat_driveVisits nat_ownSrc.next_eq k rfl).bind fun q q' hq => ?_
  obtain ⟨os, s⟩ := q
  obtain ⟨os', s'⟩ := q'
  obtain ⟨h1, h2⟩ := hq
  simp only at h1 h2
  subst h2
  exact (nat_ownSrc.dropIters _).bindEq fun _ => .pure h1

theorem nat_driveMut {f : Nat → β → β} {f' : Nat → α → α} (hf : ∀ a i b, C.P a b → IRel C a (f i b) (f' i (C.g b))) :
    ∀ (k i : Nat) (s : List RawIter), LSim C (VisL C) (driveMut f k i s) (driveMut f' k i s) := by
  intro k
  induction k with
  | zero => intro i s; exact .pure .nil
  | succ k ih =>
    intro i s
    unfold driveMut
    refine (nat_mutSrc.splittedNext s).bind fun q q' hq => ?_
    obtain ⟨o, t⟩ := q
    obtain ⟨o', t'⟩ := q'
    obtain ⟨h3, h4⟩ := hq
    simp only at h4
    subst h4
    cases o <;> cases o' <;> simp only [VisRel] at h3
    · exact (ih _ _).bind fun _ _ h => .pure (.cons trivial h)
    · rename_i w w'
      obtain ⟨a, sz⟩ := w
      obtain ⟨a', sz'⟩ := w'
      obtain ⟨h5, h6⟩ := h3
      simp only at h5 h6
      subst h5 h6
      dsimp only
      refine (nat_dataRef a).bind fun d d' hd => (nat_modifyData a (hf a i)).bindEq fun _ => ?_
      exact (ih _ _).bind fun _ _ h => .pure (.cons ⟨hd.1, rfl⟩ h)

/-- Related iterations as a client sees them. -/
def RunRel (C : NCtx β α) (q : Size × List (Option (β × Size))) (q' : Size × List (Option (α × Size))) : Prop :=
  q.1 = q'.1 ∧ VisL C q.2 q'.2

theorem nat_bfsRun (k : Nat) (a : Addr) : LSim C (RunRel C) (bfsRun k a) (bfsRun k a) := by
  unfold bfsRun
  exact (nat_getSize a).bindEq fun _ => (nat_driveVisits nat_refSrc.next_eq k rfl).bind fun _ _ h => .pure ⟨rfl, h.1⟩
theorem nat_bfsChildrenRun (k : Nat) (a : Addr) : LSim C (RunRel C) (bfsChildrenRun k a) (bfsChildrenRun k a) := by
  unfold bfsChildrenRun
  exact (nat_bfsChildrenStart a).bindEq fun _ => (nat_getSize a).bindEq fun _ =>
    (nat_driveVisits nat_refSrc.next_eq k rfl).bind fun _ _ h => .pure ⟨rfl, h.1⟩
theorem nat_bfsMutRun {f : Nat → β → β} {f' : Nat → α → α} (hf : ∀ a i b, C.P a b → IRel C a (f i b) (f' i (C.g b)))
    (k : Nat) (a : Addr) : LSim C (RunRel C) (bfsMutRun f k a) (bfsMutRun f' k a) := by
  unfold bfsMutRun
  exact (nat_getSize a).bindEq fun _ => (nat_driveMut hf _ _ _).bind fun _ _ h => .pure ⟨rfl, h⟩
theorem nat_bfsChildrenMutRun {f : Nat → β → β} {f' : Nat → α → α} (hf : ∀ a i b, C.P a b → IRel C a (f i b) (f' i (C.g b)))
    (k : Nat) (a : Addr) : LSim C (RunRel C) (bfsChildrenMutRun f k a) (bfsChildrenMutRun f' k a) := by
  unfold bfsChildrenMutRun
  exact (nat_getSize a).bindEq fun _ => (nat_bfsChildrenStart a).bindEq fun _ => (nat_driveMut hf _ _ _).bind fun _ _ h => .pure ⟨rfl, h⟩
theorem nat_intoBfsTreeRun (k : Nat) (a : Addr) : LSim C (RunRel C) (intoBfsTreeRun k a) (intoBfsTreeRun k a) := by
  unfold intoBfsTreeRun
  exact (nat_getSize a).bindEq fun _ => (nat_treeIntoIter a).bindEq fun _ => (nat_intoBfsDrive _ _).bind fun _ _ h => .pure ⟨rfl, h⟩
theorem nat_intoBfsForestRun (k : Nat) (a : Addr) : LSim C (RunRel C) (intoBfsForestRun k a) (intoBfsForestRun k a) := by
  unfold intoBfsForestRun
  exact (nat_getSize a).bindEq fun _ => (nat_intoBfsDrive _ _).bind fun _ _ h => .pure ⟨rfl, h⟩

theorem nat_readMany {R : γ → δ → Prop} {f : Addr → M β γ} {f' : Addr → M α δ} (hf : ∀ a, LSim C R (f a) (f' a)) :
    ∀ as, LSim C (List.Forall₂ R) (readMany f as) (readMany f' as) := by
  intro as
  induction as with
  | nil => exact .pure .nil
  | cons a as ih => exact (hf a).bind fun _ _ h1 => ih.bind fun _ _ h2 => .pure (.cons h1 h2)

end Trees
