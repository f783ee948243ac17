import Verif.Model.Rc
/-
Calls that build no block: in a program made of them, no block ever exists.
-/
namespace Trees
set_option linter.unusedSimpArgs false
set_option linter.unusedVariables false
variable {α β γ δ ι κ σ : Type}

/-- There is no block. -/
def NoVec (h : Heap α) : Prop := ∀ v, h.vec v = none

def NoVecR : Res (Heap α) β → Prop
  | .ok _ h => NoVec h
  | .err _ h => NoVec h

/-- The program builds no block. -/
def NV (c : M α β) : Prop := ∀ h, NoVec h → NoVecR (c h)

theorem NV.pure (b : β) : NV (Pure.pure b : M α β) := fun _ h => h
theorem NV.throw (e : Err) : NV (M.throw e : M α β) := fun _ h => h
theorem NV.bind {c : M α β} {k : β → M α γ} (hc : NV c) (hk : ∀ b, NV (k b)) : NV (c >>= k) := by
  intro h H
  have := hc h H
  simp only [M.bind_apply]
  cases hh : c h with
  | ok b h' => rw [hh] at this; exact hk b h' this
  | err e h' => rw [hh] at this; exact this
theorem NV.map {c : M α β} {k : β → γ} (hc : NV c) : NV (k <$> c) := by
  intro h H
  have := hc h H
  simp only [M.map_apply]
  cases hh : c h with
  | ok b h' => rw [hh] at this; exact this
  | err e h' => rw [hh] at this; exact this
theorem NV.fuelled {f : Heap α → M α β} (h : ∀ g, NV (f g)) : NV (M.fuelled f) := fun g H => h g g H
theorem NV.rd (f : Heap α → Addr → β) (a : Addr) : NV (rd f a) := by
  intro h H; simp only [Trees.rd]; split <;> exact H
theorem NV.wr (f : Heap α → Heap α) (a : Addr) (hf : ∀ h, (f h).vec = h.vec) : NV (wr f a) := by
  intro h H; simp only [Trees.wr]; split
  · intro v; show (f h).vec v = none; rw [hf]; exact H v
  · exact H
theorem NV.unwrap (o : Option β) : NV (unwrap o : M α β) := by cases o <;> exact fun _ h => h
theorem NV.finally_ {c : M α β} {fin : M α Unit} (hc : NV c) (hf : NV fin) : NV (finally_ c fin) := by
  intro h H
  have := hc h H
  simp only [Trees.finally_]
  cases hh : c h with
  | ok b h' =>
    rw [hh] at this
    have := hf h' this
    dsimp only
    cases hh : fin h' <;> rw [hh] at this <;> exact this
  | err e h' =>
    rw [hh] at this
    cases e <;> first | exact this | skip
    have := hf h' this
    dsimp only
    cases hh : fin h' <;> rw [hh] at this <;> exact this
theorem NV.onPanic {c : M α β} {fin : M α Unit} (hc : NV c) (hf : NV fin) : NV (onPanic c fin) := by
  intro h H
  have := hc h H
  simp only [Trees.onPanic]
  cases hh : c h with
  | ok b h' => rw [hh] at this; exact this
  | err e h' =>
    rw [hh] at this
    cases e <;> first | exact this | skip
    have := hf h' this
    dsimp only
    cases hh : fin h' <;> rw [hh] at this <;> exact this

/-- Known programs. -/
syntax "nv0" : tactic
macro_rules | `(tactic| nv0) => `(tactic| assumption)
macro_rules | `(tactic| nv0) => `(tactic| with_reducible exact NV.pure _)
macro_rules | `(tactic| nv0) => `(tactic| with_reducible exact NV.throw _)
macro_rules | `(tactic| nv0) => `(tactic| with_reducible exact NV.unwrap _)
macro "nv" : tactic => `(tactic| repeat' (first | nv0 | (with_reducible refine NV.bind ?_ (fun _ => ?_)) | (with_reducible refine NV.map ?_) |
  (with_reducible refine NV.fuelled (fun _ => ?_)) | (with_reducible refine NV.finally_ ?_ ?_) | (with_reducible refine NV.onPanic ?_ ?_) | dsimp only | split))

theorem nv_getPrev (a : Addr) : NV (getPrev a : M α _) := NV.rd _ _
macro_rules | `(tactic| nv0) => `(tactic| with_reducible exact nv_getPrev _)
theorem nv_getNext (a : Addr) : NV (getNext a : M α _) := NV.rd _ _
macro_rules | `(tactic| nv0) => `(tactic| with_reducible exact nv_getNext _)
theorem nv_getHead (a : Addr) : NV (getHead a : M α _) := NV.rd _ _
macro_rules | `(tactic| nv0) => `(tactic| with_reducible exact nv_getHead _)
theorem nv_getTail (a : Addr) : NV (getTail a : M α _) := NV.rd _ _
macro_rules | `(tactic| nv0) => `(tactic| with_reducible exact nv_getTail _)
theorem nv_getUp (a : Addr) : NV (getUp a : M α _) := NV.rd _ _
macro_rules | `(tactic| nv0) => `(tactic| with_reducible exact nv_getUp _)
theorem nv_getSize (a : Addr) : NV (getSize a : M α _) := NV.rd _ _
macro_rules | `(tactic| nv0) => `(tactic| with_reducible exact nv_getSize _)
theorem nv_getData (a : Addr) : NV (getData a : M α _) := NV.rd _ _
macro_rules | `(tactic| nv0) => `(tactic| with_reducible exact nv_getData _)
theorem nv_setPrev (a : Addr) (v : Option Addr) : NV (setPrev a v : M α _) := NV.wr _ _ fun _ => rfl
macro_rules | `(tactic| nv0) => `(tactic| with_reducible exact nv_setPrev _ _)
theorem nv_setNext (a : Addr) (v : Option Addr) : NV (setNext a v : M α _) := NV.wr _ _ fun _ => rfl
macro_rules | `(tactic| nv0) => `(tactic| with_reducible exact nv_setNext _ _)
theorem nv_setHead (a : Addr) (v : Option Addr) : NV (setHead a v : M α _) := NV.wr _ _ fun _ => rfl
macro_rules | `(tactic| nv0) => `(tactic| with_reducible exact nv_setHead _ _)
theorem nv_setTail (a : Addr) (v : Option Addr) : NV (setTail a v : M α _) := NV.wr _ _ fun _ => rfl
macro_rules | `(tactic| nv0) => `(tactic| with_reducible exact nv_setTail _ _)
theorem nv_setUp (a : Addr) (v : Option Addr) : NV (setUp a v : M α _) := NV.wr _ _ fun _ => rfl
macro_rules | `(tactic| nv0) => `(tactic| with_reducible exact nv_setUp _ _)
theorem nv_setSize (a : Addr) (v : Size) : NV (setSize a v : M α _) := NV.wr _ _ fun _ => rfl
macro_rules | `(tactic| nv0) => `(tactic| with_reducible exact nv_setSize _ _)
theorem nv_setData (a : Addr) (v : Data α) : NV (setData a v : M α _) := NV.wr _ _ fun _ => rfl
macro_rules | `(tactic| nv0) => `(tactic| with_reducible exact nv_setData _ _)
theorem nv_setBorrow (a : Addr) (b : Int) : NV (setBorrow a b : M α _) := NV.wr _ _ fun _ => rfl
macro_rules | `(tactic| nv0) => `(tactic| with_reducible exact nv_setBorrow _ _)
theorem nv_rdBorrow (a : Addr) : NV (rd (fun h => h.borrow) a : M α _) := NV.rd _ _
macro_rules | `(tactic| nv0) => `(tactic| with_reducible exact nv_rdBorrow _)
theorem nv_logDrop (d : α) : NV (logDrop d) := fun _ h => h
macro_rules | `(tactic| nv0) => `(tactic| with_reducible exact nv_logDrop _)
theorem nv_makeNode (d : Data α) : NV (makeNode d) := fun _ h => h
macro_rules | `(tactic| nv0) => `(tactic| with_reducible exact nv_makeNode _)
theorem nv_rcDrop (o : Addr) : NV (rcDrop o : M α _) := by
  intro h H; simp only [rcDrop]; repeat' split
  all_goals exact H
macro_rules | `(tactic| nv0) => `(tactic| with_reducible exact nv_rcDrop _)
theorem nv_decrRef (v : Nat) : NV (decrRef v : M α _) := by
  intro h H; simp only [decrRef, H v]; exact H
macro_rules | `(tactic| nv0) => `(tactic| with_reducible exact nv_decrRef _)
theorem nv_incrVec (v : Nat) : NV (incrVec v : M α _) := by
  intro h H; simp only [incrVec, H v]; exact H
macro_rules | `(tactic| nv0) => `(tactic| with_reducible exact nv_incrVec _)
theorem nv_vecNode (v i : Nat) : NV (vecNode v i : M α _) := by
  intro h H; simp only [vecNode, H v]; exact H
macro_rules | `(tactic| nv0) => `(tactic| with_reducible exact nv_vecNode _ _)
theorem nv_vecIndex (v i : Nat) : NV (vecIndex v i : M α _) := by
  intro h H; simp only [vecIndex, H v]; exact H
macro_rules | `(tactic| nv0) => `(tactic| with_reducible exact nv_vecIndex _ _)
theorem nv_getCount (a : Addr) : NV (getCount a : M α _) := fun _ h => h
macro_rules | `(tactic| nv0) => `(tactic| with_reducible exact nv_getCount _)
theorem nv_incrCount (a : Addr) : NV (incrCount a : M α _) := by
  intro h H; simp only [incrCount]; split <;> exact H
macro_rules | `(tactic| nv0) => `(tactic| with_reducible exact nv_incrCount _)
theorem nv_decrCount (a : Addr) : NV (decrCount a : M α _) := by
  intro h H; simp only [decrCount]; split <;> exact H
macro_rules | `(tactic| nv0) => `(tactic| with_reducible exact nv_decrCount _)
theorem nv_slot (r : RcRef) : NV (r.slot : M α _) := by
  cases r with
  | scattered a => intro h H; simp only [RcRef.slot]; split <;> exact H
  | piled v i => exact nv_vecNode v i
macro_rules | `(tactic| nv0) => `(tactic| with_reducible exact nv_slot _)
theorem nv_dataRef (a : Addr) : NV (dataRef a : M α _) := by unfold dataRef; nv
macro_rules | `(tactic| nv0) => `(tactic| with_reducible exact nv_dataRef _)
theorem nv_hasNoChild (a : Addr) : NV (hasNoChild a : M α _) := by unfold hasNoChild; nv
macro_rules | `(tactic| nv0) => `(tactic| with_reducible exact nv_hasNoChild _)
theorem nv_degree (a : Addr) : NV (degree a : M α _) := by unfold degree; nv
macro_rules | `(tactic| nv0) => `(tactic| with_reducible exact nv_degree _)
theorem nv_isForest (a : Addr) : NV (isForest a : M α _) := by unfold isForest; nv
macro_rules | `(tactic| nv0) => `(tactic| with_reducible exact nv_isForest _)
theorem nv_nodeCount (a : Addr) : NV (nodeCount a : M α _) := by unfold nodeCount; nv
macro_rules | `(tactic| nv0) => `(tactic| with_reducible exact nv_nodeCount _)
theorem nv_front (a : Addr) : NV (front a : M α _) := by unfold front; nv
macro_rules | `(tactic| nv0) => `(tactic| with_reducible exact nv_front _)
theorem nv_back (a : Addr) : NV (back a : M α _) := by unfold back; nv
macro_rules | `(tactic| nv0) => `(tactic| with_reducible exact nv_back _)
theorem nv_dataMutSet (a : Addr) (d : α) : NV (dataMutSet a d : M α _) := by unfold dataMutSet; nv
macro_rules | `(tactic| nv0) => `(tactic| with_reducible exact nv_dataMutSet _ _)
theorem nv_parentLoop : ∀ (k : Nat) (a : Addr), NV (parentLoop k a : M α _)
  | 0, a => by unfold parentLoop; nv
  | k + 1, a => by have ih := nv_parentLoop k; unfold parentLoop; nv; exact ih _
macro_rules | `(tactic| nv0) => `(tactic| with_reducible exact nv_parentLoop _ _)
theorem nv_parent (a : Addr) : NV (parent a : M α _) := by unfold parent; nv
macro_rules | `(tactic| nv0) => `(tactic| with_reducible exact nv_parent _)
theorem nv_uncountedNext (c : Option Addr) : NV (uncountedNext c : M α _) := by unfold uncountedNext; nv
macro_rules | `(tactic| nv0) => `(tactic| with_reducible exact nv_uncountedNext _)
theorem nv_rawNext (it : RawIter) : NV (it.next : M α _) := by have := nv_uncountedNext (α := α) it.curr; unfold RawIter.next; nv
macro_rules | `(tactic| nv0) => `(tactic| with_reducible exact nv_rawNext _)
theorem nv_iter (a : Addr) : NV (iter a : M α _) := by unfold iter; nv
macro_rules | `(tactic| nv0) => `(tactic| with_reducible exact nv_iter _)
theorem nv_nth : ∀ (n : Nat) (it : RawIter), NV (it.nth n : M α _)
  | 0, it => by unfold RawIter.nth; nv
  | n + 1, it => by have ih := nv_nth n; unfold RawIter.nth; nv; exact ih _
macro_rules | `(tactic| nv0) => `(tactic| with_reducible exact nv_nth _ _)
theorem nv_collect : ∀ (n : Nat) (it : RawIter), NV (it.collect n : M α _)
  | 0, it => by unfold RawIter.collect; nv
  | n + 1, it => by have ih := nv_collect n; unfold RawIter.collect; nv; exact ih _
macro_rules | `(tactic| nv0) => `(tactic| with_reducible exact nv_collect _ _)
theorem nv_children (a : Addr) : NV (children a : M α _) := by unfold children; nv
macro_rules | `(tactic| nv0) => `(tactic| with_reducible exact nv_children _)
theorem nv_connectNext (a b : Addr) : NV (connectNext a b : M α _) := by unfold connectNext; nv
macro_rules | `(tactic| nv0) => `(tactic| with_reducible exact nv_connectNext _ _)
theorem nv_incLoop : ∀ (k : Nat) (o : Option Addr) (n : Nat), NV (incLoop k o n : M α _)
  | 0, none, n => by unfold incLoop; nv
  | k + 1, none, n => by unfold incLoop; nv
  | 0, some p, n => by unfold incLoop; nv
  | k + 1, some p, n => by have ih := nv_incLoop k; unfold incLoop; nv; exact ih _ _
macro_rules | `(tactic| nv0) => `(tactic| with_reducible exact nv_incLoop _ _ _)
theorem nv_decLoop : ∀ (k : Nat) (o : Option Addr) (n : Nat), NV (decLoop k o n : M α _)
  | 0, none, n => by unfold decLoop; nv
  | k + 1, none, n => by unfold decLoop; nv
  | 0, some p, n => by unfold decLoop; nv
  | k + 1, some p, n => by have ih := nv_decLoop k; unfold decLoop; nv; exact ih _ _
macro_rules | `(tactic| nv0) => `(tactic| with_reducible exact nv_decLoop _ _ _)
theorem nv_incSizes (a : Addr) (d c : Nat) : NV (incSizes a d c : M α _) := by unfold incSizes; nv
macro_rules | `(tactic| nv0) => `(tactic| with_reducible exact nv_incSizes _ _ _)
theorem nv_decSizes (a : Addr) (d c : Nat) : NV (decSizes a d c : M α _) := by unfold decSizes; nv
macro_rules | `(tactic| nv0) => `(tactic| with_reducible exact nv_decSizes _ _ _)
theorem nv_dropNode (a : Addr) : NV (dropNode a : M α _) := by unfold dropNode; nv
macro_rules | `(tactic| nv0) => `(tactic| with_reducible exact nv_dropNode _)
theorem nv_treeFromNode (a : Addr) : NV (treeFromNode a : M α _) := by unfold treeFromNode; nv
macro_rules | `(tactic| nv0) => `(tactic| with_reducible exact nv_treeFromNode _)
theorem nv_pushFront (a b : Addr) : NV (pushFront a b : M α _) := by unfold pushFront; nv
macro_rules | `(tactic| nv0) => `(tactic| with_reducible exact nv_pushFront _ _)
theorem nv_pushBack (a b : Addr) : NV (pushBack a b : M α _) := by unfold pushBack; nv
macro_rules | `(tactic| nv0) => `(tactic| with_reducible exact nv_pushBack _ _)
theorem nv_popFront (a : Addr) : NV (popFront a : M α _) := by unfold popFront; nv
macro_rules | `(tactic| nv0) => `(tactic| with_reducible exact nv_popFront _)
theorem nv_popBack (a : Addr) : NV (popBack a : M α _) := by unfold popBack; nv
macro_rules | `(tactic| nv0) => `(tactic| with_reducible exact nv_popBack _)
theorem nv_dropLoop : ∀ (k : Nat) (a : Addr), NV (dropLoop k a : M α _)
  | 0, a => by unfold dropLoop; nv
  | k + 1, a => by have ih := nv_dropLoop k; unfold dropLoop; nv <;> exact ih _
macro_rules | `(tactic| nv0) => `(tactic| with_reducible exact nv_dropLoop _ _)
theorem nv_dropRoot (a : Addr) : NV (dropRoot a : M α _) := by unfold dropRoot; nv
macro_rules | `(tactic| nv0) => `(tactic| with_reducible exact nv_dropRoot _)
theorem nv_setUpLoop : ∀ (k : Nat) (it : RawIter) (p : Addr), NV (setUpLoop k it p : M α _)
  | 0, it, p => by unfold setUpLoop; nv
  | k + 1, it, p => by have ih := nv_setUpLoop k; unfold setUpLoop; nv; exact ih _ _
macro_rules | `(tactic| nv0) => `(tactic| with_reducible exact nv_setUpLoop _ _ _)
theorem nv_forestSetUp (a b : Addr) : NV (forestSetUp a b : M α _) := by unfold forestSetUp; nv
macro_rules | `(tactic| nv0) => `(tactic| with_reducible exact nv_forestSetUp _ _)
theorem nv_forestClear (a : Addr) : NV (forestClear a : M α _) := by unfold forestClear; nv
macro_rules | `(tactic| nv0) => `(tactic| with_reducible exact nv_forestClear _)
theorem nv_prepend (a b : Addr) : NV (prepend a b : M α _) := by unfold prepend; nv
macro_rules | `(tactic| nv0) => `(tactic| with_reducible exact nv_prepend _ _)
theorem nv_append (a b : Addr) : NV (append a b : M α _) := by unfold append; nv
macro_rules | `(tactic| nv0) => `(tactic| with_reducible exact nv_append _ _)
theorem nv_insertPrevSib (a b : Addr) : NV (insertPrevSib a b : M α _) := by unfold insertPrevSib; nv
macro_rules | `(tactic| nv0) => `(tactic| with_reducible exact nv_insertPrevSib _ _)
theorem nv_insertNextSib (a b : Addr) : NV (insertNextSib a b : M α _) := by unfold insertNextSib; nv
macro_rules | `(tactic| nv0) => `(tactic| with_reducible exact nv_insertNextSib _ _)
theorem nv_detach (a : Addr) : NV (detach a : M α _) := by unfold detach; nv
macro_rules | `(tactic| nv0) => `(tactic| with_reducible exact nv_detach _)
theorem nv_treeNew (d : α) : NV (treeNew d : M α _) := by unfold treeNew; nv
macro_rules | `(tactic| nv0) => `(tactic| with_reducible exact nv_treeNew _)
theorem nv_forestNew : NV (forestNew : M α _) := by unfold forestNew; nv
macro_rules | `(tactic| nv0) => `(tactic| with_reducible exact nv_forestNew)
theorem nv_abandon (a : Addr) : NV (abandon a : M α _) := by unfold abandon; nv
macro_rules | `(tactic| nv0) => `(tactic| with_reducible exact nv_abandon _)
theorem nv_intoData (a : Addr) : NV (intoData a : M α _) := by unfold intoData; nv
macro_rules | `(tactic| nv0) => `(tactic| with_reducible exact nv_intoData _)
theorem nv_treeIntoIter (a : Addr) : NV (treeIntoIter a : M α _) := by unfold treeIntoIter; nv
macro_rules | `(tactic| nv0) => `(tactic| with_reducible exact nv_treeIntoIter _)
theorem nv_intoIterDropLoop : ∀ (k : Nat) (a : Addr), NV (intoIterDropLoop k a : M α _)
  | 0, a => by unfold intoIterDropLoop; nv
  | k + 1, a => by have ih := nv_intoIterDropLoop k; unfold intoIterDropLoop; nv; exact ih _
macro_rules | `(tactic| nv0) => `(tactic| with_reducible exact nv_intoIterDropLoop _ _)
theorem nv_intoIterDrop (a : Addr) : NV (intoIterDrop a : M α _) := by unfold intoIterDrop; nv
macro_rules | `(tactic| nv0) => `(tactic| with_reducible exact nv_intoIterDrop _)

/-- An iterator source that builds no block. -/
structure NVSrc (S : Src α ι κ δ) : Prop where
  next : ∀ i, NV (S.next i)
  len : ∀ i, NV (S.len i)
  drop : ∀ i, NV (S.drop i)
  split : ∀ k, NV (S.split k)

theorem nv_refSrc : NVSrc (refSrc : Src α _ _ _) := ⟨fun i => nv_rawNext i, fun i => NV.pure _, fun i => NV.pure _, fun k => by unfold refSrc; dsimp only; nv⟩
theorem nv_mutSrc : NVSrc (mutSrc : Src α _ _ _) := ⟨fun i => nv_rawNext i, fun i => NV.pure _, fun i => NV.pure _, fun k => by unfold mutSrc; dsimp only; nv⟩
theorem nv_ownSrc : NVSrc (ownSrc : Src α _ _ _) := ⟨fun i => by unfold ownSrc; dsimp only; nv, fun i => nv_degree i, fun i => nv_intoIterDrop i, fun k => by unfold ownSrc; dsimp only; nv⟩
theorem nv_splittedNext {S : Src α ι κ δ} (h : NVSrc S) : ∀ q, NV (splittedNext S q)
  | [] => by unfold splittedNext; nv
  | i :: q => by
    have ih := nv_splittedNext h q
    have h1 := h.next; have h2 := h.len; have h3 := h.drop; have h4 := h.split
    unfold splittedNext; nv <;> first | exact h1 _ | exact h2 _ | exact h3 _ | exact h4 _
theorem nv_dropIters {S : Src α ι κ δ} (h : NVSrc S) : ∀ q, NV (dropIters S q)
  | [] => by unfold dropIters; nv
  | i :: q => by
    have ih := nv_dropIters h q
    have h3 := h.drop
    unfold dropIters; nv; exact h3 _
theorem nv_driveVisits {nxt : σ → M α (Option (δ × Size) × σ)} (h : ∀ s, NV (nxt s)) : ∀ k s, NV (driveVisits nxt k s)
  | 0, s => by unfold driveVisits; nv
  | k + 1, s => by
    have ih := nv_driveVisits h k
    unfold driveVisits; nv <;> first | exact h _ | exact ih _
theorem nv_intoBfsDrive (k : Nat) (a : Addr) : NV (intoBfsDrive k a : M α _) := by
  unfold intoBfsDrive
  exact (nv_driveVisits (nv_splittedNext nv_ownSrc) _ _).bind fun _ => (nv_dropIters nv_ownSrc _).bind fun _ => NV.pure _
macro_rules | `(tactic| nv0) => `(tactic| with_reducible exact nv_intoBfsDrive _ _)
macro_rules | `(tactic| nv0) => `(tactic| with_reducible exact nv_driveVisits (nv_splittedNext nv_refSrc) _ _)
macro_rules | `(tactic| nv0) => `(tactic| with_reducible exact nv_splittedNext nv_mutSrc _)
theorem nv_modifyData (a : Addr) (g : α → α) : NV (modifyData a g) := by unfold modifyData; nv
macro_rules | `(tactic| nv0) => `(tactic| with_reducible exact nv_modifyData _ _)
theorem nv_driveMut (f : Nat → α → α) : ∀ k i s, NV (driveMut f k i s)
  | 0, i, s => by unfold driveMut; nv
  | k + 1, i, s => by
    have ih := nv_driveMut f k
    unfold driveMut; nv <;> exact ih _ _
macro_rules | `(tactic| nv0) => `(tactic| with_reducible exact nv_driveMut _ _ _ _)
theorem nv_bfsChildrenStart (a : Addr) : NV (bfsChildrenStart a : M α _) := by unfold bfsChildrenStart; nv
macro_rules | `(tactic| nv0) => `(tactic| with_reducible exact nv_bfsChildrenStart _)
theorem nv_bfsRun (k : Nat) (a : Addr) : NV (bfsRun k a : M α _) := by unfold bfsRun; nv
theorem nv_bfsChildrenRun (k : Nat) (a : Addr) : NV (bfsChildrenRun k a : M α _) := by unfold bfsChildrenRun; nv
theorem nv_bfsMutRun (f : Nat → α → α) (k : Nat) (a : Addr) : NV (bfsMutRun f k a : M α _) := by unfold bfsMutRun; nv
theorem nv_bfsChildrenMutRun (f : Nat → α → α) (k : Nat) (a : Addr) : NV (bfsChildrenMutRun f k a : M α _) := by unfold bfsChildrenMutRun; nv
theorem nv_intoBfsTreeRun (k : Nat) (a : Addr) : NV (intoBfsTreeRun k a : M α _) := by unfold intoBfsTreeRun; nv
theorem nv_intoBfsForestRun (k : Nat) (a : Addr) : NV (intoBfsForestRun k a : M α _) := by unfold intoBfsForestRun; nv
theorem nv_locate : ∀ (p : Path) (a : Addr), NV (locate a p : M α _)
  | [], a => by unfold locate; nv
  | i :: p, a => by have ih := nv_locate p; unfold locate; nv; exact ih _
macro_rules | `(tactic| nv0) => `(tactic| with_reducible exact nv_locate _ _)
theorem nv_readMany {f : Addr → M α β} (h : ∀ a, NV (f a)) : ∀ l, NV (readMany f l)
  | [] => by unfold readMany; nv
  | a :: l => by have ih := nv_readMany h l; unfold readMany; nv; exact h _
macro_rules | `(tactic| nv0) => `(tactic| with_reducible exact nv_readMany nv_dataRef _)

macro_rules | `(tactic| nv0) => `(tactic| with_reducible exact nv_bfsRun _ _)
macro_rules | `(tactic| nv0) => `(tactic| with_reducible exact nv_bfsChildrenRun _ _)
macro_rules | `(tactic| nv0) => `(tactic| with_reducible exact nv_intoBfsTreeRun _ _)
macro_rules | `(tactic| nv0) => `(tactic| with_reducible exact nv_intoBfsForestRun _ _)
macro_rules | `(tactic| nv0) => `(tactic| with_reducible exact nv_bfsMutRun _ _ _)
macro_rules | `(tactic| nv0) => `(tactic| with_reducible exact nv_bfsChildrenMutRun _ _ _)

/-! ### Shared nodes -/
theorem nv_nodeRc (a : Addr) : NV (nodeRc a : M α _) := by unfold nodeRc; nv
macro_rules | `(tactic| nv0) => `(tactic| with_reducible exact nv_nodeRc _)
theorem nv_intoRc (a : Addr) : NV (intoRc a : M α _) := by unfold intoRc; nv
macro_rules | `(tactic| nv0) => `(tactic| with_reducible exact nv_intoRc _)
theorem nv_rcClone (r : RcRef) : NV (rcClone r : M α _) := by unfold rcClone; nv
macro_rules | `(tactic| nv0) => `(tactic| with_reducible exact nv_rcClone _)
theorem nv_borrowMut (r : RcRef) : NV (borrowMut r : M α _) := by unfold borrowMut; nv
macro_rules | `(tactic| nv0) => `(tactic| with_reducible exact nv_borrowMut _)
theorem nv_borrowShared (r : RcRef) : NV (borrowShared r : M α _) := by unfold borrowShared; nv
macro_rules | `(tactic| nv0) => `(tactic| with_reducible exact nv_borrowShared _)
theorem nv_releaseMut (a : Addr) : NV (releaseMut a : M α _) := by unfold releaseMut; nv
macro_rules | `(tactic| nv0) => `(tactic| with_reducible exact nv_releaseMut _)
theorem nv_releaseShared (a : Addr) : NV (releaseShared a : M α _) := by unfold releaseShared; nv
macro_rules | `(tactic| nv0) => `(tactic| with_reducible exact nv_releaseShared _)
theorem nv_withMut {r : RcRef} {f : Addr → M α β} (h : ∀ a, NV (f a)) : NV (withMut r f) := by unfold withMut; nv; exact h _
theorem nv_withShared {r : RcRef} {f : Addr → M α β} (h : ∀ a, NV (f a)) : NV (withShared r f) := by unfold withShared; nv; exact h _
theorem nv_withMutArg {r : RcRef} {t : Addr} {f : Addr → M α β} (hf : ∀ a, NV (f a)) : NV (withMutArg r t f) := by
  intro h H
  have := nv_borrowMut r h H
  simp only [withMutArg]
  cases hh : borrowMut r h with
  | ok b h' =>
    rw [hh] at this
    exact NV.finally_ (hf b) (nv_releaseMut b) h' this
  | err e h' =>
    rw [hh] at this
    cases e <;> first | exact this | skip
    have := nv_dropRoot t h' this
    dsimp only
    cases hh : dropRoot t h' <;> rw [hh] at this <;> exact this
theorem nv_guardShared (r : RcRef) : NV (guardShared r : M α _) := by unfold guardShared; nv
macro_rules | `(tactic| nv0) => `(tactic| with_reducible exact nv_guardShared _)
theorem nv_guardMut (r : RcRef) : NV (guardMut r : M α _) := by unfold guardMut; nv
macro_rules | `(tactic| nv0) => `(tactic| with_reducible exact nv_guardMut _)
theorem nv_popFrontRc (r : RcRef) : NV (popFrontRc r : M α _) := by unfold popFrontRc; refine nv_withMut fun a => ?_; nv
macro_rules | `(tactic| nv0) => `(tactic| with_reducible exact nv_popFrontRc _)
theorem nv_popBackRc (r : RcRef) : NV (popBackRc r : M α _) := by unfold popBackRc; refine nv_withMut fun a => ?_; nv
macro_rules | `(tactic| nv0) => `(tactic| with_reducible exact nv_popBackRc _)
theorem nv_frontRc (r : RcRef) : NV (frontRc r : M α _) := by unfold frontRc; refine nv_withShared fun a => ?_; nv
macro_rules | `(tactic| nv0) => `(tactic| with_reducible exact nv_frontRc _)
theorem nv_backRc (r : RcRef) : NV (backRc r : M α _) := by unfold backRc; refine nv_withShared fun a => ?_; nv
macro_rules | `(tactic| nv0) => `(tactic| with_reducible exact nv_backRc _)
theorem nv_parentRc (r : RcRef) : NV (parentRc r : M α _) := by unfold parentRc; refine nv_withShared fun a => ?_; nv
macro_rules | `(tactic| nv0) => `(tactic| with_reducible exact nv_parentRc _)
theorem nv_isRootRc (r : RcRef) : NV (isRootRc r : M α _) := by unfold isRootRc; refine nv_withShared fun a => ?_; nv
macro_rules | `(tactic| nv0) => `(tactic| with_reducible exact nv_isRootRc _)
theorem nv_iterRc (r : RcRef) : NV (iterRc r : M α _) := by unfold iterRc; refine nv_withShared fun a => ?_; nv
macro_rules | `(tactic| nv0) => `(tactic| with_reducible exact nv_iterRc _)
theorem nv_dropInPlace (a : Addr) : NV (dropInPlace a : M α _) := by
  unfold dropInPlace; refine NV.bind (nv_getData a) fun d h H => H
macro_rules | `(tactic| nv0) => `(tactic| with_reducible exact nv_dropInPlace _)
mutual
theorem nv_dropRc : ∀ (k : Nat) (r : RcRef), NV (dropRc k r : M α _)
  | 0, r => by unfold dropRc; nv
  | k + 1, .scattered a => by have ih := nv_drainRc k; unfold dropRc; nv <;> exact ih _
  | k + 1, .piled v i => by have ih := nv_drainRc k; unfold dropRc; nv <;> exact ih _
theorem nv_drainRc : ∀ (k : Nat) (r : RcRef), NV (drainRc k r : M α _)
  | 0, r => by unfold drainRc; nv
  | k + 1, r => by have ih := nv_dropRc k; have ih' := nv_drainRc k; unfold drainRc; nv <;> first | exact ih _ | exact ih' _
end
macro_rules | `(tactic| nv0) => `(tactic| with_reducible exact nv_dropRc _ _)
theorem nv_dropHandle (r : RcRef) : NV (dropHandle r : M α _) := by unfold dropHandle; nv
macro_rules | `(tactic| nv0) => `(tactic| with_reducible exact nv_dropHandle _)
theorem nv_detachRc (r : RcRef) : NV (detachRc r : M α _) := by unfold detachRc; refine nv_withMut fun a => ?_; nv
macro_rules | `(tactic| nv0) => `(tactic| with_reducible exact nv_detachRc _)
theorem nv_iterRcNext (it : RawIter) : NV (iterRcNext it : M α _) := by unfold iterRcNext; nv
macro_rules | `(tactic| nv0) => `(tactic| with_reducible exact nv_iterRcNext _)
theorem nv_upgradeWeak (r : RcRef) : NV (upgradeWeak r : M α _) := by
  cases r with
  | scattered a =>
    intro h H; simp only [upgradeWeak]; split
    · have := nv_incrCount a h H
      cases hh : incrCount a h <;> rw [hh] at this <;> exact this
    · exact H
  | piled v i => unfold upgradeWeak; nv
macro_rules | `(tactic| nv0) => `(tactic| with_reducible exact nv_upgradeWeak _)
theorem nv_dropWeak (r : RcRef) : NV (dropWeak r : M α _) := by cases r <;> unfold dropWeak <;> nv
macro_rules | `(tactic| nv0) => `(tactic| with_reducible exact nv_dropWeak _)
theorem nv_intoTreeRc (r : RcRef) : NV (intoTreeRc r : M α _) := by
  unfold intoTreeRc; nv
  exact nv_withMut fun a => nv_treeFromNode a
macro_rules | `(tactic| nv0) => `(tactic| with_reducible exact nv_intoTreeRc _)
theorem nv_intoTree (r : RcRef) : NV (intoTree r : M α _) := by unfold intoTree; nv
macro_rules | `(tactic| nv0) => `(tactic| with_reducible exact nv_intoTree _)

/-! ### Calls -/

/-- The call builds no block: it is none of `Tree::from( bfs )`, `Forest::from( bfs )`, `clone` of a tree or forest,
`deep_clone`, and no tuple is converted. -/
def Op.boxed : Op α → Bool
  | .mapBfs .. => false
  | .mapBfsForest .. => false
  | .rebuild .. => false
  | .treeFromTuple .. => false
  | .forestFromTuple .. => false
  | _ => true

def ROp.boxed : ROp α → Bool
  | .excl op => op.boxed
  | .deepClone .. => false
  | _ => true

/-- There is no block in the resulting state. -/
def NVO : Outcome (Machine α) α → Prop
  | .ok m _ => NoVec m.heap
  | .panic m => NoVec m.heap
  | _ => True

section
variable {m : Machine α} (H : NoVec m.heap)
include H
theorem NVO.run {e : Var → Option Handle} {c : M α β} {k : β → Heap α → Outcome (Machine α) α} (hc : NV c)
    (hk : ∀ b h, NoVec h → NVO (k b h)) : NVO (m.run e c k) := by
  have := hc _ H
  simp only [Machine.run]
  cases hh : c m.heap with
  | ok b h => rw [hh] at this; exact hk b h this
  | err x h => rw [hh] at this; cases x <;> first | exact this | trivial
theorem NVO.onKids {x : Var} {p : Path} {k : Handle → Addr → Outcome (Machine α) α} (hk : ∀ hd n, NVO (k hd n)) : NVO (m.onKids x p k) := by
  simp only [Machine.onKids]
  split
  · trivial
  · split
    · trivial
    · refine NVO.run H (nv_locate _ _) fun o h H' => ?_
      split
      · exact H
      · exact hk _ _
theorem NVO.onNode {x : Var} {l : Loc} {k : Addr → Outcome (Machine α) α} (hk : ∀ n, NVO (k n)) : NVO (m.onNode x l k) := by
  simp only [Machine.onNode]
  split
  · trivial
  · split
    · trivial
    · split
      · split
        · exact hk _
        · trivial
      · refine NVO.run H (nv_locate _ _) fun o h H' => ?_
        split
        · exact H
        · exact hk _
end
theorem NVO.takeTree {m : Machine α} {x y : Var} {k : Addr → Outcome (Machine α) α} (hk : ∀ n, NVO (k n)) : NVO (m.takeTree x y k) := by
  simp only [Machine.takeTree]; repeat' split
  all_goals first | trivial | exact hk _
theorem NVO.takeForest {m : Machine α} {x y : Var} {k : Addr → Outcome (Machine α) α} (hk : ∀ n, NVO (k n)) : NVO (m.takeForest x y k) := by
  simp only [Machine.takeForest]; repeat' split
  all_goals first | trivial | exact hk _
theorem NVO.retPop {m : Machine α} {h : Heap α} (H : NoVec h) (o : Option Addr) : NVO (m.retPop h o) := by cases o <;> exact H

/-- Calls that build no block, on exclusive values. -/
theorem step_noVec {m : Machine α} (H : NoVec m.heap) (op : Op α) (hb : op.boxed = true) : NVO (step m op) := by
  cases op <;> first | (simp only [Op.boxed, Bool.false_eq_true] at hb; done) | skip
  all_goals
    simp only [step]
    repeat' (first | exact NVO.retPop (by assumption) _ | (refine NVO.takeTree fun _ => ?_) | (refine NVO.takeForest fun _ => ?_) |
      (refine NVO.onKids H fun _ _ => ?_) | (refine NVO.onNode H fun _ => ?_) | (refine NVO.run H ?_ fun _ _ H' => ?_) | assumption | split | trivial)
    all_goals first | (nv; done) | skip

/-- There is no block in the resulting state. -/
def NVR : Outcome (RMachine α) α → Prop
  | .ok m _ => NoVec m.heap
  | .panic m => NoVec m.heap
  | _ => True

section
variable {m : RMachine α} (H : NoVec m.heap)
include H
theorem NVR.run {e : Var → Option Handle} {rf : Var → Option Ref} {c : M α β} {k : β → Heap α → Outcome (RMachine α) α} (hc : NV c)
    (hk : ∀ b h, NoVec h → NVR (k b h)) : NVR (m.run e rf c k) := by
  have := hc _ H
  simp only [RMachine.run]
  cases hh : c m.heap with
  | ok b h => rw [hh] at this; exact hk b h this
  | err x h => rw [hh] at this; cases x <;> first | exact this | trivial
end
theorem NVR.onRc {m : RMachine α} {k : Var} {f : RcRef → Outcome (RMachine α) α} (hk : ∀ n, NVR (f n)) : NVR (m.onRc k f) := by
  simp only [RMachine.onRc]; split
  · exact hk _
  · trivial
theorem NVR.takeTree {m : RMachine α} {y : Var} {k : Addr → Outcome (RMachine α) α} (hk : ∀ n, NVR (k n)) : NVR (m.takeTree y k) := by
  simp only [RMachine.takeTree]; split
  · exact hk _
  · trivial
theorem NVR.takeForest {m : RMachine α} {y : Var} {k : Addr → Outcome (RMachine α) α} (hk : ∀ n, NVR (k n)) : NVR (m.takeForest y k) := by
  simp only [RMachine.takeForest]; split
  · exact hk _
  · trivial
theorem NVR.retRc {m : RMachine α} {h : Heap α} {rf : Var → Option Ref} (H : NoVec h) (o : Option RcRef) : NVR (m.retRc h rf o) := by cases o <;> exact H
theorem NVR.call {m : RMachine α} (H : NoVec m.heap) {k : Var} {c : RcRef → M α β} {o : β → Out α} (hc : ∀ r, NV (c r)) : NVR (m.call k c o) := by
  simp only [RMachine.call]
  exact NVR.onRc fun r => NVR.run H (hc r) fun b h H' => H'
theorem NVR.consume {m : RMachine α} (H : NoVec m.heap) {k y : Var} {c : RcRef → M α Unit} (hc : ∀ r, NV (c r)) : NVR (m.consume k y c) := by
  simp only [RMachine.consume]
  exact NVR.onRc fun r => NVR.run H (hc r) fun b h H' => H'

/-- Calls that build no block. -/
theorem rstep_noVec {m : RMachine α} (H : NoVec m.heap) (op : ROp α) (hb : op.boxed = true) : NVR (rstep m op) := by
  cases op with
  | excl op =>
    have := step_noVec (m := m.excl) H op hb
    simp only [rstep]
    cases hs : step m.excl op <;> rw [hs] at this <;> exact this
  | deepClone k f => simp [ROp.boxed] at hb
  | drop k =>
    simp only [rstep]
    split
    · split
      · trivial
      · exact NVR.run H (nv_dropHandle _) fun _ _ H' => H'
    · exact NVR.run H (nv_dropWeak _) fun _ _ H' => H'
    · refine NVR.run H ?_ fun _ _ H' => H'
      nv
    · exact H
    · trivial
  | fromTree x => exact NVR.takeTree fun t => NVR.run H (nv_intoRc t) fun _ _ H' => H'
  | clone k => exact NVR.onRc fun r => NVR.run H (nv_rcClone r) fun _ _ H' => H'
  | isRoot k => exact NVR.call H nv_isRootRc
  | data k => exact NVR.call H fun r => nv_withShared nv_dataRef
  | degree k => exact NVR.call H fun r => nv_withShared nv_degree
  | nodeCount k => exact NVR.call H fun r => nv_withShared nv_nodeCount
  | hasNoChild k => exact NVR.call H fun r => nv_withShared nv_hasNoChild
  | front k => exact NVR.onRc fun r => NVR.run H (nv_frontRc r) fun _ _ H' => NVR.retRc H' _
  | back k => exact NVR.onRc fun r => NVR.run H (nv_backRc r) fun _ _ H' => NVR.retRc H' _
  | parent k => exact NVR.onRc fun r => NVR.run H (nv_parentRc r) fun _ _ H' => NVR.retRc H' _
  | popFront k => exact NVR.onRc fun r => NVR.run H (nv_popFrontRc r) fun _ _ H' => NVR.retRc H' _
  | popBack k => exact NVR.onRc fun r => NVR.run H (nv_popBackRc r) fun _ _ H' => NVR.retRc H' _
  | pushFront k y => exact NVR.takeTree fun t => NVR.consume H fun r => nv_withMutArg fun a => nv_pushFront a t
  | pushBack k y => exact NVR.takeTree fun t => NVR.consume H fun r => nv_withMutArg fun a => nv_pushBack a t
  | prepend k y => exact NVR.takeForest fun t => NVR.consume H fun r => nv_withMutArg fun a => nv_prepend a t
  | append k y => exact NVR.takeForest fun t => NVR.consume H fun r => nv_withMutArg fun a => nv_append a t
  | insertPrevSib k y => exact NVR.takeTree fun t => NVR.consume H fun r => nv_withMutArg fun a => nv_insertPrevSib a t
  | insertNextSib k y => exact NVR.takeTree fun t => NVR.consume H fun r => nv_withMutArg fun a => nv_insertNextSib a t
  | detach k => exact NVR.call H nv_detachRc
  | setData k d => exact NVR.call H fun r => nv_withMut fun a => nv_dataMutSet a d
  | borrow k => exact NVR.onRc fun r => NVR.run H (nv_guardShared r) fun _ _ H' => H'
  | borrowMut k => exact NVR.onRc fun r => NVR.run H (nv_guardMut r) fun _ _ H' => H'
  | guardRead g =>
    simp only [rstep]; split
    · exact NVR.run H (nv_dataRef _) fun _ _ H' => H'
    · trivial
  | guardWrite g d =>
    simp only [rstep]; split
    · exact NVR.run H (nv_dataMutSet _ _) fun _ _ H' => H'
    · trivial
  | iterRc k => exact NVR.onRc fun r => NVR.run H (nv_iterRc r) fun _ _ H' => H'
  | iterNext i =>
    simp only [rstep]; split
    · exact NVR.run H (nv_iterRcNext _) fun _ _ H' => NVR.retRc H' _
    · trivial
  | iterClone i =>
    simp only [rstep]; split
    · exact H
    · trivial
  | iterLen i =>
    simp only [rstep]; split
    · exact H
    · trivial
  | downgrade k => exact NVR.onRc fun r => H
  | upgrade w =>
    simp only [rstep]; split
    · exact NVR.run H (nv_upgradeWeak _) fun _ _ H' => NVR.retRc H' _
    · trivial
  | intoTree k =>
    refine NVR.onRc fun r => ?_
    split
    · trivial
    · exact NVR.run H (nv_intoTree r) fun _ _ H' => H'

end Trees
