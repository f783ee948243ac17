import Verif.Proof.Robust
/-
Robustness of all the code behind the exclusive-ownership API.
-/
namespace Trees
set_option linter.unusedSimpArgs false
set_option linter.unusedVariables false
variable {α β γ : Type}

/-- One step of a robustness proof. -/
syntax "rob1" : tactic
macro_rules | `(tactic| rob1) => `(tactic| assumption)
macro_rules | `(tactic| rob1) => `(tactic| split)
macro_rules | `(tactic| rob1) => `(tactic| with_reducible refine Robust.map ?_)
macro_rules | `(tactic| rob1) => `(tactic| with_reducible refine Robust.bind ?_ (fun _ => ?_))
macro_rules | `(tactic| rob1) => `(tactic| with_reducible exact Robust.unwrap _)
macro_rules | `(tactic| rob1) => `(tactic| with_reducible exact Robust.throw _)
macro_rules | `(tactic| rob1) => `(tactic| with_reducible exact Robust.pure _)
macro_rules | `(tactic| rob1) => `(tactic| with_reducible exact rob_getPrev _)
macro_rules | `(tactic| rob1) => `(tactic| with_reducible exact rob_getNext _)
macro_rules | `(tactic| rob1) => `(tactic| with_reducible exact rob_getHead _)
macro_rules | `(tactic| rob1) => `(tactic| with_reducible exact rob_getTail _)
macro_rules | `(tactic| rob1) => `(tactic| with_reducible exact rob_getUp _)
macro_rules | `(tactic| rob1) => `(tactic| with_reducible exact rob_getSize _)
macro_rules | `(tactic| rob1) => `(tactic| with_reducible exact rob_getData _)
macro_rules | `(tactic| rob1) => `(tactic| with_reducible exact rob_setPrev _ _)
macro_rules | `(tactic| rob1) => `(tactic| with_reducible exact rob_setNext _ _)
macro_rules | `(tactic| rob1) => `(tactic| with_reducible exact rob_setHead _ _)
macro_rules | `(tactic| rob1) => `(tactic| with_reducible exact rob_setTail _ _)
macro_rules | `(tactic| rob1) => `(tactic| with_reducible exact rob_setUp _ _)
macro_rules | `(tactic| rob1) => `(tactic| with_reducible exact rob_setSize _ _)
macro_rules | `(tactic| rob1) => `(tactic| with_reducible exact rob_setData _ _)
macro_rules | `(tactic| rob1) => `(tactic| with_reducible exact rob_logDrop _)
macro_rules | `(tactic| rob1) => `(tactic| with_reducible exact rob_makeNode _)
macro_rules | `(tactic| rob1) => `(tactic| with_reducible exact rob_rcDrop _)
macro_rules | `(tactic| rob1) => `(tactic| with_reducible exact rob_decrRef _)
macro_rules | `(tactic| rob1) => `(tactic| with_reducible exact rob_newVec _)
macro_rules | `(tactic| rob1) => `(tactic| with_reducible exact rob_vecNode _ _)

macro "rob" : tactic => `(tactic| repeat' (first | rob1 | (dsimp only; rob1)))

theorem rob_hasNoChild (a : Addr) : Robust (hasNoChild a : M α _) := by unfold hasNoChild; rob
macro_rules | `(tactic| rob1) => `(tactic| with_reducible exact rob_hasNoChild _)
theorem rob_degree (a : Addr) : Robust (degree a : M α _) := by unfold degree; rob
macro_rules | `(tactic| rob1) => `(tactic| with_reducible exact rob_degree _)
theorem rob_isForest (a : Addr) : Robust (isForest a : M α _) := by unfold isForest; rob
macro_rules | `(tactic| rob1) => `(tactic| with_reducible exact rob_isForest _)
theorem rob_dataRef (a : Addr) : Robust (dataRef a : M α _) := by unfold dataRef; rob
macro_rules | `(tactic| rob1) => `(tactic| with_reducible exact rob_dataRef _)
theorem rob_dataMutSet (a : Addr) (d : α) : Robust (dataMutSet a d : M α _) := by unfold dataMutSet; rob
macro_rules | `(tactic| rob1) => `(tactic| with_reducible exact rob_dataMutSet _ _)
theorem rob_nodeCount (a : Addr) : Robust (nodeCount a : M α _) := by unfold nodeCount; rob
macro_rules | `(tactic| rob1) => `(tactic| with_reducible exact rob_nodeCount _)
theorem rob_front (a : Addr) : Robust (front a : M α _) := rob_getHead a
macro_rules | `(tactic| rob1) => `(tactic| with_reducible exact rob_front _)
theorem rob_back (a : Addr) : Robust (back a : M α _) := rob_getTail a
macro_rules | `(tactic| rob1) => `(tactic| with_reducible exact rob_back _)

theorem rob_parentLoop : ∀ (k : Nat) (a : Addr), Robust (parentLoop k a : M α _) := by
  intro k
  induction k with
  | zero => intro a; unfold parentLoop; rob
  | succ k ih => intro a; unfold parentLoop; rob; exact ih _
theorem rob_parent (a : Addr) : Robust (parent a : M α _) :=
  Robust.fuelled (f := fun n => parentLoop (n + 1) a) fun n => rob_parentLoop _ _
macro_rules | `(tactic| rob1) => `(tactic| with_reducible exact rob_parent _)

theorem rob_iter (a : Addr) : Robust (iter a : M α _) := by unfold iter; rob
macro_rules | `(tactic| rob1) => `(tactic| with_reducible exact rob_iter _)
theorem rob_uncountedNext (a : Option Addr) : Robust (uncountedNext a : M α _) := by unfold uncountedNext; rob
macro_rules | `(tactic| rob1) => `(tactic| with_reducible exact rob_uncountedNext _)
theorem rob_rawNext (it : RawIter) : Robust (it.next : M α _) := by unfold RawIter.next; rob
macro_rules | `(tactic| rob1) => `(tactic| with_reducible exact rob_rawNext _)
theorem rob_nth : ∀ (n : Nat) (it : RawIter), Robust (it.nth n : M α _) := by
  intro n
  induction n with
  | zero => intro it; unfold RawIter.nth; rob
  | succ n ih => intro it; unfold RawIter.nth; rob; exact ih _
macro_rules | `(tactic| rob1) => `(tactic| with_reducible exact rob_nth _ _)
theorem rob_collect : ∀ (n : Nat) (it : RawIter), Robust (it.collect n : M α _) := by
  intro n
  induction n with
  | zero => intro it; unfold RawIter.collect; rob
  | succ n ih => intro it; unfold RawIter.collect; rob; exact ih _
macro_rules | `(tactic| rob1) => `(tactic| with_reducible exact rob_collect _ _)
theorem rob_children (a : Addr) : Robust (children a : M α _) := by unfold children; rob
macro_rules | `(tactic| rob1) => `(tactic| with_reducible exact rob_children _)
theorem rob_locate : ∀ (p : Path) (a : Addr), Robust (locate a p : M α _) := by
  intro p
  induction p with
  | nil => intro a; unfold locate; rob
  | cons i p ih => intro a; unfold locate; rob; exact ih _
macro_rules | `(tactic| rob1) => `(tactic| with_reducible exact rob_locate _ _)
theorem rob_readMany {f : Addr → M α β} (hf : ∀ a, Robust (f a)) : ∀ (as : List Addr), Robust (readMany f as) := by
  intro as
  induction as with
  | nil => unfold readMany; rob
  | cons i p ih => unfold readMany; rob; exact hf _
theorem rob_readTree : ∀ (k : Nat) (a : Addr), Robust (readTree k a : M α _) := by
  intro k
  induction k with
  | zero => intro a; unfold readTree; rob
  | succ n ih => intro it; unfold readTree; rob; exact rob_readMany ih _
macro_rules | `(tactic| rob1) => `(tactic| with_reducible exact rob_readTree _ _)

theorem rob_connectNext (a b : Addr) : Robust (connectNext a b : M α _) := by unfold connectNext; rob
macro_rules | `(tactic| rob1) => `(tactic| with_reducible exact rob_connectNext _ _)
theorem rob_incLoop (cnt : Nat) : ∀ (k : Nat) (o : Option Addr), Robust (incLoop k o cnt : M α _) := by
  intro k
  induction k with
  | zero => intro o; cases o <;> unfold incLoop <;> rob
  | succ k ih => intro o; cases o <;> unfold incLoop <;> rob; exact ih _
theorem rob_decLoop (cnt : Nat) : ∀ (k : Nat) (o : Option Addr), Robust (decLoop k o cnt : M α _) := by
  intro k
  induction k with
  | zero => intro o; cases o <;> unfold decLoop <;> rob
  | succ k ih => intro o; cases o <;> unfold decLoop <;> rob; exact ih _
theorem rob_incFuel (o : Option Addr) (cnt : Nat) : Robust (M.fuelled fun h => incLoop h.nextAddr o cnt : M α Unit) :=
  Robust.fuelled (f := fun n => incLoop n o cnt) fun n => rob_incLoop _ n _
macro_rules | `(tactic| rob1) => `(tactic| with_reducible exact rob_incFuel _ _)
theorem rob_decFuel (o : Option Addr) (cnt : Nat) : Robust (M.fuelled fun h => decLoop h.nextAddr o cnt : M α Unit) :=
  Robust.fuelled (f := fun n => decLoop n o cnt) fun n => rob_decLoop _ n _
macro_rules | `(tactic| rob1) => `(tactic| with_reducible exact rob_decFuel _ _)
theorem rob_incSizes (a : Addr) (d c : Nat) : Robust (incSizes a d c : M α _) := by unfold incSizes; rob
macro_rules | `(tactic| rob1) => `(tactic| with_reducible exact rob_incSizes _ _ _)
theorem rob_decSizes (a : Addr) (d c : Nat) : Robust (decSizes a d c : M α _) := by unfold decSizes; rob
macro_rules | `(tactic| rob1) => `(tactic| with_reducible exact rob_decSizes _ _ _)
theorem rob_treeFromNode (a : Addr) : Robust (treeFromNode a : M α _) := by unfold treeFromNode; rob
macro_rules | `(tactic| rob1) => `(tactic| with_reducible exact rob_treeFromNode _)
theorem rob_dropNode (a : Addr) : Robust (dropNode a : M α _) := by unfold dropNode; rob
macro_rules | `(tactic| rob1) => `(tactic| with_reducible exact rob_dropNode _)
theorem rob_vecMakeNode (v : Nat) (par : Option Addr) (i : Nat) (d : Data α) (s : Size) :
    Robust (vecMakeNode v par i d s) := by unfold vecMakeNode; rob
macro_rules | `(tactic| rob1) => `(tactic| with_reducible exact rob_vecMakeNode _ _ _ _ _)
theorem rob_makePiledNode (v : Nat) (par : Option Addr) (i : Nat) (d : α) (s : Size) :
    Robust (makePiledNode v par i d s) := by unfold makePiledNode; rob
macro_rules | `(tactic| rob1) => `(tactic| with_reducible exact rob_makePiledNode _ _ _ _ _)
theorem rob_appendChild (v par child : Nat) (d : α) (s : Size) : Robust (appendChild v par child d s) := by
  unfold appendChild; rob
macro_rules | `(tactic| rob1) => `(tactic| with_reducible exact rob_appendChild _ _ _ _ _)
theorem rob_pushFront (a t : Addr) : Robust (pushFront a t : M α _) := by unfold pushFront; rob
macro_rules | `(tactic| rob1) => `(tactic| with_reducible exact rob_pushFront _ _)
theorem rob_pushBack (a t : Addr) : Robust (pushBack a t : M α _) := by unfold pushBack; rob
macro_rules | `(tactic| rob1) => `(tactic| with_reducible exact rob_pushBack _ _)
theorem rob_popFront (a : Addr) : Robust (popFront a : M α _) := by unfold popFront; rob
macro_rules | `(tactic| rob1) => `(tactic| with_reducible exact rob_popFront _)
theorem rob_popBack (a : Addr) : Robust (popBack a : M α _) := by unfold popBack; rob
macro_rules | `(tactic| rob1) => `(tactic| with_reducible exact rob_popBack _)
theorem rob_dropLoop : ∀ (k : Nat) (a : Addr), Robust (dropLoop k a : M α _) := by
  intro k
  induction k with
  | zero => intro a; unfold dropLoop; rob
  | succ k ih => intro a; unfold dropLoop; rob <;> exact ih _

theorem popFront_dead {a : Addr} {h : Heap α} (hl : h.live a = false) : popFront a h = .err .ub h := by
  simp [popFront, getSize, rd, hl]

theorem rob_dropRoot (a : Addr) : Robust (dropRoot a : M α _) :=
  Robust.fuelled_size (f := fun s => dropLoop (s.descendants + 1) a) (fun n => rob_dropLoop _ _) (by
    intro n h hl
    exact ⟨.ub, h, by simp [dropLoop, popFront_dead hl], by simp⟩)
macro_rules | `(tactic| rob1) => `(tactic| with_reducible exact rob_dropRoot _)

theorem rob_setUpLoop (par : Addr) : ∀ (k : Nat) (it : RawIter), Robust (setUpLoop k it par : M α _) := by
  intro k
  induction k with
  | zero => intro a; unfold setUpLoop; rob
  | succ k ih => intro a; unfold setUpLoop; rob; exact ih _
macro_rules | `(tactic| rob1) => `(tactic| with_reducible exact rob_setUpLoop _ _ _)
theorem rob_forestSetUp (a t : Addr) : Robust (forestSetUp a t : M α _) := by unfold forestSetUp; rob
macro_rules | `(tactic| rob1) => `(tactic| with_reducible exact rob_forestSetUp _ _)
theorem rob_forestClear (a : Addr) : Robust (forestClear a : M α _) := by unfold forestClear; rob
macro_rules | `(tactic| rob1) => `(tactic| with_reducible exact rob_forestClear _)
theorem rob_prepend (a t : Addr) : Robust (prepend a t : M α _) := by unfold prepend; rob
macro_rules | `(tactic| rob1) => `(tactic| with_reducible exact rob_prepend _ _)
theorem rob_append (a t : Addr) : Robust (append a t : M α _) := by unfold append; rob
macro_rules | `(tactic| rob1) => `(tactic| with_reducible exact rob_append _ _)
theorem rob_insertPrevSib (a t : Addr) : Robust (insertPrevSib a t : M α _) := by unfold insertPrevSib; rob
macro_rules | `(tactic| rob1) => `(tactic| with_reducible exact rob_insertPrevSib _ _)
theorem rob_insertNextSib (a t : Addr) : Robust (insertNextSib a t : M α _) := by unfold insertNextSib; rob
macro_rules | `(tactic| rob1) => `(tactic| with_reducible exact rob_insertNextSib _ _)
theorem rob_detach (a : Addr) : Robust (detach a : M α _) := by unfold detach; rob
macro_rules | `(tactic| rob1) => `(tactic| with_reducible exact rob_detach _)
theorem rob_treeNew (d : α) : Robust (treeNew d : M α _) := rob_makeNode _
macro_rules | `(tactic| rob1) => `(tactic| with_reducible exact rob_treeNew _)
theorem rob_forestNew : Robust (forestNew : M α _) := rob_makeNode _
macro_rules | `(tactic| rob1) => `(tactic| with_reducible exact rob_forestNew)
theorem rob_abandon (a : Addr) : Robust (abandon a : M α _) := by unfold abandon; rob
macro_rules | `(tactic| rob1) => `(tactic| with_reducible exact rob_abandon _)
theorem rob_intoData (a : Addr) : Robust (intoData a : M α _) := by unfold intoData; rob
macro_rules | `(tactic| rob1) => `(tactic| with_reducible exact rob_intoData _)
theorem rob_treeIntoIter (a : Addr) : Robust (treeIntoIter a : M α _) := by unfold treeIntoIter; rob
macro_rules | `(tactic| rob1) => `(tactic| with_reducible exact rob_treeIntoIter _)
theorem rob_intoIterDropLoop : ∀ (k : Nat) (a : Addr), Robust (intoIterDropLoop k a : M α _) := by
  intro k
  induction k with
  | zero => intro a; unfold intoIterDropLoop; rob
  | succ k ih => intro a; unfold intoIterDropLoop; rob; exact ih _
theorem rob_intoIterDrop (a : Addr) : Robust (intoIterDrop a : M α _) := by
  refine Robust.bind ?_ (fun _ => rob_dropRoot a)
  exact Robust.fuelled_size (f := fun s => intoIterDropLoop (s.degree + 1) a) (fun n => rob_intoIterDropLoop _ _) (by
    intro n h hl
    exact ⟨.ub, h, by simp [intoIterDropLoop, popFront_dead hl], by simp⟩)
macro_rules | `(tactic| rob1) => `(tactic| with_reducible exact rob_intoIterDrop _)

/-! ### Breadth-first iteration -/

structure Src.Robust {ι κ δ : Type} (S : Src α ι κ δ) : Prop where
  next : ∀ i, Trees.Robust (S.next i)
  len : ∀ i, Trees.Robust (S.len i)
  drop : ∀ i, Trees.Robust (S.drop i)
  split : ∀ k, Trees.Robust (S.split k)

theorem rob_refSrc : (refSrc : Src α _ _ _).Robust where
  next i := by unfold refSrc; rob
  len i := by unfold refSrc; rob
  drop i := by unfold refSrc; rob
  split i := by unfold refSrc; rob
theorem rob_mutSrc : (mutSrc : Src α _ _ _).Robust where
  next i := by unfold mutSrc; rob
  len i := by unfold mutSrc; rob
  drop i := by unfold mutSrc; rob
  split i := by unfold mutSrc; rob
theorem rob_ownSrc : (ownSrc : Src α _ _ _).Robust where
  next i := by unfold ownSrc; rob
  len i := by unfold ownSrc; rob
  drop i := by unfold ownSrc; rob
  split i := by unfold ownSrc; rob

section
variable {ι κ δ σ : Type}
theorem Src.Robust.splittedNext {S : Src α ι κ δ} (hS : S.Robust) : ∀ q, Trees.Robust (splittedNext S q) := by
  intro q
  induction q with
  | nil => unfold Trees.splittedNext; rob
  | cons it rest ih =>
    unfold Trees.splittedNext
    refine (hS.next it).bind fun o => ?_
    split
    · exact (hS.split _).bind fun _ => (hS.len _).bind fun _ => .pure _
    · exact (hS.drop _).bind fun _ => ih
theorem Src.Robust.dropIters {S : Src α ι κ δ} (hS : S.Robust) : ∀ q, Trees.Robust (dropIters S q) := by
  intro q
  induction q with
  | nil => exact .pure _
  | cons it rest ih => exact (hS.drop it).bind fun _ => ih
theorem rob_mapNext {f : Nat → δ → κ} {nxt : σ → M α (Option (δ × Size) × σ)} (hn : ∀ s, Robust (nxt s)) (s : σ × Nat) :
    Robust (mapNext f nxt s) := by
  unfold mapNext
  refine (hn s.1).bind fun o => ?_
  rob
theorem rob_driveVisits {nxt : σ → M α (Option (δ × Size) × σ)} (hn : ∀ s, Robust (nxt s)) : ∀ (k : Nat) (s : σ),
    Robust (driveVisits nxt k s) := by
  intro k
  induction k with
  | zero => intro s; exact .pure _
  | succ k ih => intro s; exact (hn _).bind fun _ => (ih _).bind fun _ => .pure _
theorem rob_fillInner (v : Nat) : ∀ (k par child : Nat), Robust (fillInner v k par child : M α _) := by
  intro k
  induction k with
  | zero => intro a b; unfold fillInner; rob
  | succ k ih => intro a b; unfold fillInner; rob; exact ih _ _
theorem rob_fillLoop {nxt : σ → M α (Option (α × Size) × σ)} (hn : ∀ s, Robust (nxt s)) (v : Nat) :
    ∀ (k : Nat) (s : σ) (par child remains : Nat), Robust (fillLoop nxt v k s par child remains) := by
  intro k
  induction k with
  | zero => intro s a b c; unfold fillLoop; rob
  | succ k ih =>
    intro s a b c
    unfold fillLoop
    refine (hn s).bind fun o => ?_
    split
    · exact .pure _
    · refine (rob_appendChild _ _ _ _ _).bind fun _ => ?_
      split
      · exact .throw _
      · split
        · exact (rob_fillInner _ _ _ _).bind fun _ => ih _ _ _ _
        · exact ih _ _ _ _
theorem rob_treeFromBfs {nxt : σ → M α (Option (α × Size) × σ)} (hn : ∀ s, Robust (nxt s)) {drp : σ → M α Unit}
    (hd : ∀ s, Robust (drp s)) (s : σ) : Robust (treeFromBfs nxt drp s) := by
  unfold treeFromBfs
  refine (hn s).bind fun o => (Robust.unwrap _).bind fun _ => (rob_newVec _).bind fun _ => ?_
  refine (rob_makePiledNode _ _ _ _ _).bind fun _ => (rob_fillLoop hn _ _ _ _ _ _).bind fun _ => ?_
  exact (rob_vecNode _ _).bind fun _ => (rob_treeFromNode _).bind fun _ => (hd _).bind fun _ => .pure _
theorem rob_forestFromBfs {nxt : σ → M α (Option (α × Size) × σ)} (hn : ∀ s, Robust (nxt s)) {drp : σ → M α Unit}
    (hd : ∀ s, Robust (drp s)) (s : σ) (sz : Size) : Robust (forestFromBfs nxt drp s sz) := by
  unfold forestFromBfs
  refine (rob_newVec _).bind fun _ => ?_
  refine (rob_vecMakeNode _ _ _ _ _).bind fun _ => (rob_fillLoop hn _ _ _ _ _ _).bind fun _ => ?_
  exact (rob_vecNode _ _).bind fun _ => (hd _).bind fun _ => .pure _
end

theorem rob_bfsChildrenStart (a : Addr) : Robust (bfsChildrenStart a : M α _) := by unfold bfsChildrenStart; rob
macro_rules | `(tactic| rob1) => `(tactic| with_reducible exact rob_bfsChildrenStart _)
theorem rob_mapBfs (f : Nat → α → α) (a : Addr) : Robust (mapBfs f a) :=
  rob_treeFromBfs (fun s => rob_mapNext rob_refSrc.splittedNext s) (fun _ => rob_refSrc.dropIters _) _
theorem rob_mapBfsForest (f : Nat → α → α) (a : Addr) : Robust (mapBfsForest f a) := by
  unfold mapBfsForest
  refine (rob_bfsChildrenStart a).bind fun _ => (rob_getSize a).bind fun _ => ?_
  exact rob_forestFromBfs (fun s => rob_mapNext rob_refSrc.splittedNext s) (fun _ => rob_refSrc.dropIters _) _ _
theorem rob_rebuildTree (f : Nat → α → α) (a : Addr) : Robust (rebuildTree f a) :=
  (rob_treeIntoIter a).bind fun _ => rob_treeFromBfs (fun s => rob_mapNext rob_ownSrc.splittedNext s) (fun _ => rob_ownSrc.dropIters _) _
theorem rob_rebuildForest (f : Nat → α → α) (a : Addr) : Robust (rebuildForest f a) :=
  (rob_getSize a).bind fun _ => rob_forestFromBfs (fun s => rob_mapNext rob_ownSrc.splittedNext s) (fun _ => rob_ownSrc.dropIters _) _ _
theorem rob_intoBfsDrive (k : Nat) (a : Addr) : Robust (intoBfsDrive k a : M α _) :=
  (rob_driveVisits rob_ownSrc.splittedNext _ _).bind fun _ => (rob_ownSrc.dropIters _).bind fun _ => .pure _
theorem rob_modifyData (a : Addr) (g : α → α) : Robust (modifyData a g) := by unfold modifyData; rob
macro_rules | `(tactic| rob1) => `(tactic| with_reducible exact rob_modifyData _ _)
theorem rob_driveMut (f : Nat → α → α) : ∀ (k i : Nat) (s : List RawIter), Robust (driveMut f k i s) := by
  intro k
  induction k with
  | zero => intro i s; exact .pure _
  | succ k ih =>
    intro i s
    unfold driveMut
    refine (rob_mutSrc.splittedNext s).bind fun o => ?_
    dsimp only
    split
    · exact (rob_dataRef _).bind fun _ => (rob_modifyData _ _).bind fun _ => (ih _ _).bind fun _ => .pure _
    · exact (ih _ _).bind fun _ => .pure _
theorem rob_bfsRun (k : Nat) (a : Addr) : Robust (bfsRun k a : M α _) :=
  (rob_getSize a).bind fun _ => (rob_driveVisits rob_refSrc.splittedNext _ _).bind fun _ => .pure _
theorem rob_bfsChildrenRun (k : Nat) (a : Addr) : Robust (bfsChildrenRun k a : M α _) :=
  (rob_bfsChildrenStart a).bind fun _ => (rob_getSize a).bind fun _ =>
    (rob_driveVisits rob_refSrc.splittedNext _ _).bind fun _ => .pure _
theorem rob_bfsMutRun (f : Nat → α → α) (k : Nat) (a : Addr) : Robust (bfsMutRun f k a) :=
  (rob_getSize a).bind fun _ => (rob_driveMut _ _ _ _).bind fun _ => .pure _
theorem rob_bfsChildrenMutRun (f : Nat → α → α) (k : Nat) (a : Addr) : Robust (bfsChildrenMutRun f k a) :=
  (rob_getSize a).bind fun _ => (rob_bfsChildrenStart a).bind fun _ => (rob_driveMut _ _ _ _).bind fun _ => .pure _
theorem rob_intoBfsTreeRun (k : Nat) (a : Addr) : Robust (intoBfsTreeRun k a : M α _) :=
  (rob_getSize a).bind fun _ => (rob_treeIntoIter a).bind fun _ => (rob_intoBfsDrive _ _).bind fun _ => .pure _
theorem rob_intoBfsForestRun (k : Nat) (a : Addr) : Robust (intoBfsForestRun k a : M α _) :=
  (rob_getSize a).bind fun _ => (rob_intoBfsDrive _ _).bind fun _ => .pure _
macro_rules | `(tactic| rob1) => `(tactic| with_reducible exact rob_mapBfs _ _)
macro_rules | `(tactic| rob1) => `(tactic| with_reducible exact rob_mapBfsForest _ _)
macro_rules | `(tactic| rob1) => `(tactic| with_reducible exact rob_rebuildTree _ _)
macro_rules | `(tactic| rob1) => `(tactic| with_reducible exact rob_rebuildForest _ _)
macro_rules | `(tactic| rob1) => `(tactic| with_reducible exact rob_bfsRun _ _)
macro_rules | `(tactic| rob1) => `(tactic| with_reducible exact rob_bfsChildrenRun _ _)
macro_rules | `(tactic| rob1) => `(tactic| with_reducible exact rob_bfsMutRun _ _ _)
macro_rules | `(tactic| rob1) => `(tactic| with_reducible exact rob_bfsChildrenMutRun _ _ _)
macro_rules | `(tactic| rob1) => `(tactic| with_reducible exact rob_intoBfsTreeRun _ _)
macro_rules | `(tactic| rob1) => `(tactic| with_reducible exact rob_intoBfsForestRun _ _)

/-! ### Tuples -/

theorem rob_idx (xs : List Nat) (i : Nat) : Robust (idx xs i : M α _) := by unfold idx; rob
macro_rules | `(tactic| rob1) => `(tactic| with_reducible exact rob_idx _ _)
theorem rob_bump (xs : List Nat) (i : Nat) : Robust (bump xs i : M α _) := by unfold bump; rob
macro_rules | `(tactic| rob1) => `(tactic| with_reducible exact rob_bump _ _)
theorem rob_placeVisit (g : Bool) (v : Nat) (c : Cursor) (w : Visit α) (s : Size) : Robust (placeVisit g v c w s) := by
  unfold placeVisit; rob
macro_rules | `(tactic| rob1) => `(tactic| with_reducible exact rob_placeVisit _ _ _ _ _)
theorem rob_placeAll (g : Bool) (v : Nat) : ∀ (ws : List (Visit α × Size)) (c : Cursor), Robust (placeAll g v c ws) := by
  intro ws
  induction ws with
  | nil => intro c; exact .pure _
  | cons w ws ih => intro c; exact (rob_placeVisit _ _ _ _ _).bind fun _ => ih _
macro_rules | `(tactic| rob1) => `(tactic| with_reducible exact rob_placeAll _ _ _ _)
theorem rob_constructTree (v : Nat) (t : Tup α) : Robust (constructTree v t) := by unfold constructTree; rob
macro_rules | `(tactic| rob1) => `(tactic| with_reducible exact rob_constructTree _ _)
theorem rob_constructForest (v : Nat) (t : List (Tup α)) : Robust (constructForest v t) := by unfold constructForest; rob
macro_rules | `(tactic| rob1) => `(tactic| with_reducible exact rob_constructForest _ _)
theorem rob_treeFromTuple (t : Tup α) : Robust (treeFromTuple t) := by unfold treeFromTuple; rob
macro_rules | `(tactic| rob1) => `(tactic| with_reducible exact rob_treeFromTuple _)
theorem rob_forestFromTuple (t : List (Tup α)) : Robust (forestFromTuple t) := by unfold forestFromTuple; rob
macro_rules | `(tactic| rob1) => `(tactic| with_reducible exact rob_forestFromTuple _)

end Trees
