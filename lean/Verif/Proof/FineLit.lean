import Verif.Proof.FineExec
/-
The code itself never reports a failure of the allocator: only an allocation can.
-/
namespace Trees
namespace Fine
set_option linter.unusedSimpArgs false
set_option linter.unusedVariables false
variable {α β γ ι κ δ σ : Type}

/-- No part of the program stops by itself with an allocator failure. -/
def Lit : Prog α β → Prop
  | .ret _ => True
  | .fail e => e ≠ .alloc
  | .acc _ k => ∀ x, Lit (k x)

theorem Lit.pure (b : β) : Lit (Pure.pure b : Prog α β) := trivial
theorem Lit.throw {e : Err} (h : e ≠ .alloc) : Lit (throw e : Prog α β) := h
theorem Lit.bind {p : Prog α β} {f : β → Prog α γ} (h1 : Lit p) (h2 : ∀ b, Lit (f b)) : Lit (p >>= f) := by
  show Lit (p.bind f)
  induction p with
  | ret b => exact h2 b
  | fail e => exact h1
  | acc a k ih => exact fun x => ih x (h1 x)
theorem Lit.ite {P : Prop} [Decidable P] {p q : Prog α β} (h1 : P → Lit p) (h2 : ¬ P → Lit q) : Lit (if P then p else q) := by
  split <;> rename_i h
  · exact h1 h
  · exact h2 h
theorem Lit.access (a : Acc α) : Lit (access a) := fun _ => trivial

syntax "lit0" : tactic
syntax "lit1" : tactic
macro_rules | `(tactic| lit0) => `(tactic| assumption)
macro_rules | `(tactic| lit0) => `(tactic| with_reducible exact Lit.throw (by decide))
macro_rules | `(tactic| lit0) => `(tactic| with_reducible exact Lit.pure _)
macro_rules | `(tactic| lit1) => `(tactic| (split <;> (try dsimp only at *) <;> (try contradiction)))
macro_rules | `(tactic| lit1) => `(tactic| (with_reducible refine Lit.ite (fun _ => ?_) (fun _ => ?_)))
macro_rules | `(tactic| lit1) => `(tactic| (with_reducible refine Lit.bind ?_ (fun _ => ?_)))
macro_rules | `(tactic| lit1) => `(tactic| lit0)
macro "lit" : tactic => `(tactic| repeat' lit1)

theorem Lit.bound {f : Nat → Prog α β} (h1 : ∀ h, Lit (f h)) : Lit (bound >>= f) := h1
macro_rules | `(tactic| lit1) => `(tactic| (with_reducible refine Lit.bound (fun _ => ?_)))

theorem lit_getPrev (a : Addr) : Lit (getPrev a : Prog α _) := Lit.access _
theorem lit_getNext (a : Addr) : Lit (getNext a : Prog α _) := Lit.access _
theorem lit_getHead (a : Addr) : Lit (getHead a : Prog α _) := Lit.access _
theorem lit_getTail (a : Addr) : Lit (getTail a : Prog α _) := Lit.access _
theorem lit_getUp (a : Addr) : Lit (getUp a : Prog α _) := Lit.access _
theorem lit_setPrev (a : Addr) (v) : Lit (setPrev a v : Prog α _) := Lit.access _
theorem lit_setNext (a : Addr) (v) : Lit (setNext a v : Prog α _) := Lit.access _
theorem lit_setHead (a : Addr) (v) : Lit (setHead a v : Prog α _) := Lit.access _
theorem lit_setTail (a : Addr) (v) : Lit (setTail a v : Prog α _) := Lit.access _
theorem lit_setUp (a : Addr) (v) : Lit (setUp a v : Prog α _) := Lit.access _
theorem lit_getSize (a : Addr) : Lit (getSize a : Prog α _) := Lit.access _
theorem lit_setSize (a : Addr) (v) : Lit (setSize a v : Prog α _) := Lit.access _
theorem lit_getData (a : Addr) : Lit (getData a : Prog α _) := Lit.access _
theorem lit_setData (a : Addr) (v) : Lit (setData a v : Prog α _) := Lit.access _
theorem lit_rcDrop (a : Addr) : Lit (rcDrop a : Prog α _) := Lit.access _
theorem lit_vecNode (v i : Nat) : Lit (vecNode v i : Prog α _) := Lit.access _
theorem lit_logDrop (d : α) : Lit (logDrop d : Prog α _) := Lit.access _
theorem lit_makeNode (d : Data α) : Lit (makeNode d : Prog α _) := Lit.access _
theorem lit_newVec (n : Nat) : Lit (newVec n : Prog α _) := Lit.access _
macro_rules | `(tactic| lit0) => `(tactic| with_reducible exact lit_getPrev _)
macro_rules | `(tactic| lit0) => `(tactic| with_reducible exact lit_getNext _)
macro_rules | `(tactic| lit0) => `(tactic| with_reducible exact lit_getHead _)
macro_rules | `(tactic| lit0) => `(tactic| with_reducible exact lit_getTail _)
macro_rules | `(tactic| lit0) => `(tactic| with_reducible exact lit_getUp _)
macro_rules | `(tactic| lit0) => `(tactic| with_reducible exact lit_getSize _)
macro_rules | `(tactic| lit0) => `(tactic| with_reducible exact lit_getData _)
macro_rules | `(tactic| lit0) => `(tactic| with_reducible exact lit_rcDrop _)
macro_rules | `(tactic| lit0) => `(tactic| with_reducible exact lit_logDrop _)
macro_rules | `(tactic| lit0) => `(tactic| with_reducible exact lit_makeNode _)
macro_rules | `(tactic| lit0) => `(tactic| with_reducible exact lit_newVec _)
macro_rules | `(tactic| lit0) => `(tactic| with_reducible exact lit_setPrev _ _)
macro_rules | `(tactic| lit0) => `(tactic| with_reducible exact lit_setNext _ _)
macro_rules | `(tactic| lit0) => `(tactic| with_reducible exact lit_setHead _ _)
macro_rules | `(tactic| lit0) => `(tactic| with_reducible exact lit_setTail _ _)
macro_rules | `(tactic| lit0) => `(tactic| with_reducible exact lit_setUp _ _)
macro_rules | `(tactic| lit0) => `(tactic| with_reducible exact lit_setSize _ _)
macro_rules | `(tactic| lit0) => `(tactic| with_reducible exact lit_setData _ _)
macro_rules | `(tactic| lit0) => `(tactic| with_reducible exact lit_vecNode _ _)
theorem lit_decrRef (v : Nat) : Lit (decrRef v : Prog α _) := by
  unfold decrRef
  exact Lit.bind (Lit.access _) fun n => Lit.ite (fun _ => Lit.throw (by decide)) fun _ => Lit.bind (Lit.access _) fun _ =>
    Lit.ite (fun _ => Lit.access _) fun _ => Lit.pure _
macro_rules | `(tactic| lit0) => `(tactic| with_reducible exact lit_decrRef _)
theorem lit_unwrap (o : Option β) : Lit (unwrap o : Prog α _) := by unfold unwrap; lit
macro_rules | `(tactic| lit0) => `(tactic| with_reducible exact lit_unwrap _)
theorem lit_dataRef (a : Addr) : Lit (dataRef a : Prog α _) := by unfold dataRef; lit
macro_rules | `(tactic| lit0) => `(tactic| with_reducible exact lit_dataRef _)
theorem lit_dataMutSet (a : Addr) (d : α) : Lit (dataMutSet a d : Prog α _) := by unfold dataMutSet; lit
macro_rules | `(tactic| lit0) => `(tactic| with_reducible exact lit_dataMutSet _ _)
theorem lit_hasNoChild (a : Addr) : Lit (hasNoChild a : Prog α _) := by unfold hasNoChild; lit
macro_rules | `(tactic| lit0) => `(tactic| with_reducible exact lit_hasNoChild _)
theorem lit_degree (a : Addr) : Lit (degree a : Prog α _) := by unfold degree; lit
macro_rules | `(tactic| lit0) => `(tactic| with_reducible exact lit_degree _)
theorem lit_isForest (a : Addr) : Lit (isForest a : Prog α _) := by unfold isForest; lit
macro_rules | `(tactic| lit0) => `(tactic| with_reducible exact lit_isForest _)
theorem lit_nodeCount (a : Addr) : Lit (nodeCount a : Prog α _) := by unfold nodeCount; lit
macro_rules | `(tactic| lit0) => `(tactic| with_reducible exact lit_nodeCount _)
theorem lit_parentLoop (k : Nat) (a : Addr) : Lit (parentLoop k a : Prog α _) := by induction k generalizing a <;> (unfold parentLoop; lit; try (all_goals apply_assumption))
macro_rules | `(tactic| lit0) => `(tactic| with_reducible exact lit_parentLoop _ _)
theorem lit_front (a : Addr) : Lit (front a : Prog α _) := by unfold front; lit
macro_rules | `(tactic| lit0) => `(tactic| with_reducible exact lit_front _)
theorem lit_back (a : Addr) : Lit (back a : Prog α _) := by unfold back; lit
macro_rules | `(tactic| lit0) => `(tactic| with_reducible exact lit_back _)
theorem lit_uncountedNext (o : Option Addr) : Lit (uncountedNext o : Prog α _) := by unfold uncountedNext; lit
macro_rules | `(tactic| lit0) => `(tactic| with_reducible exact lit_uncountedNext _)
theorem lit_iterNext (it : RawIter) : Lit (iterNext it : Prog α _) := by unfold iterNext; lit
macro_rules | `(tactic| lit0) => `(tactic| with_reducible exact lit_iterNext _)
theorem lit_iter (a : Addr) : Lit (iter a : Prog α _) := by unfold iter; lit
macro_rules | `(tactic| lit0) => `(tactic| with_reducible exact lit_iter _)
theorem lit_iterNth (k : Nat) (it : RawIter) : Lit (iterNth k it : Prog α _) := by induction k generalizing it <;> (unfold iterNth; lit; try (all_goals apply_assumption))
macro_rules | `(tactic| lit0) => `(tactic| with_reducible exact lit_iterNth _ _)
theorem lit_iterCollect (k : Nat) (it : RawIter) : Lit (iterCollect k it : Prog α _) := by induction k generalizing it <;> (unfold iterCollect; lit; try (all_goals apply_assumption))
macro_rules | `(tactic| lit0) => `(tactic| with_reducible exact lit_iterCollect _ _)
theorem lit_children (a : Addr) : Lit (children a : Prog α _) := by unfold children; lit
macro_rules | `(tactic| lit0) => `(tactic| with_reducible exact lit_children _)
theorem lit_connectNext (a b : Addr) : Lit (connectNext a b : Prog α _) := by unfold connectNext; lit
macro_rules | `(tactic| lit0) => `(tactic| with_reducible exact lit_connectNext _ _)
theorem lit_incLoop (k : Nat) (o : Option Addr) (n : Nat) : Lit (incLoop k o n : Prog α _) := by induction k generalizing o <;> cases o <;> (unfold incLoop; lit; try (all_goals apply_assumption))
macro_rules | `(tactic| lit0) => `(tactic| with_reducible exact lit_incLoop _ _ _)
theorem lit_parent (a : Addr) : Lit (parent a : Prog α _) := by unfold parent; lit
macro_rules | `(tactic| lit0) => `(tactic| with_reducible exact lit_parent _)
theorem lit_incSizes (a : Addr) (x y : Nat) : Lit (incSizes a x y : Prog α _) := by unfold incSizes; lit
macro_rules | `(tactic| lit0) => `(tactic| with_reducible exact lit_incSizes _ _ _)
theorem lit_decLoop (k : Nat) (o : Option Addr) (n : Nat) : Lit (decLoop k o n : Prog α _) := by induction k generalizing o <;> cases o <;> (unfold decLoop; lit; try (all_goals apply_assumption))
macro_rules | `(tactic| lit0) => `(tactic| with_reducible exact lit_decLoop _ _ _)
theorem lit_decSizes (a : Addr) (x y : Nat) : Lit (decSizes a x y : Prog α _) := by unfold decSizes; lit
macro_rules | `(tactic| lit0) => `(tactic| with_reducible exact lit_decSizes _ _ _)
theorem lit_dropNode (a : Addr) : Lit (dropNode a : Prog α _) := by unfold dropNode; lit
macro_rules | `(tactic| lit0) => `(tactic| with_reducible exact lit_dropNode _)
theorem lit_vecMakeNode (v : Nat) (p : Option Addr) (i : Nat) (d : Data α) (s : Size) : Lit (vecMakeNode v p i d s : Prog α _) := by unfold vecMakeNode; lit
macro_rules | `(tactic| lit0) => `(tactic| with_reducible exact lit_vecMakeNode _ _ _ _ _)
theorem lit_makePiledNode (v : Nat) (p : Option Addr) (i : Nat) (d : α) (s : Size) : Lit (makePiledNode v p i d s : Prog α _) := by unfold makePiledNode; lit
macro_rules | `(tactic| lit0) => `(tactic| with_reducible exact lit_makePiledNode _ _ _ _ _)
theorem lit_appendChild (v p c : Nat) (d : α) (s : Size) : Lit (appendChild v p c d s : Prog α _) := by unfold appendChild; lit
macro_rules | `(tactic| lit0) => `(tactic| with_reducible exact lit_appendChild _ _ _ _ _)
theorem lit_treeFromNode (a : Addr) : Lit (treeFromNode a : Prog α _) := by unfold treeFromNode; lit
macro_rules | `(tactic| lit0) => `(tactic| with_reducible exact lit_treeFromNode _)
theorem lit_pushFront (a b : Addr) : Lit (pushFront a b : Prog α _) := by unfold pushFront; lit
macro_rules | `(tactic| lit0) => `(tactic| with_reducible exact lit_pushFront _ _)
theorem lit_pushBack (a b : Addr) : Lit (pushBack a b : Prog α _) := by unfold pushBack; lit
macro_rules | `(tactic| lit0) => `(tactic| with_reducible exact lit_pushBack _ _)
theorem lit_popFront (a : Addr) : Lit (popFront a : Prog α _) := by unfold popFront; lit
macro_rules | `(tactic| lit0) => `(tactic| with_reducible exact lit_popFront _)
theorem lit_popBack (a : Addr) : Lit (popBack a : Prog α _) := by unfold popBack; lit
macro_rules | `(tactic| lit0) => `(tactic| with_reducible exact lit_popBack _)
theorem lit_dropLoop (k : Nat) (a : Addr) : Lit (dropLoop k a : Prog α _) := by induction k generalizing a <;> (unfold dropLoop; lit; try (all_goals apply_assumption))
macro_rules | `(tactic| lit0) => `(tactic| with_reducible exact lit_dropLoop _ _)
theorem lit_dropRoot (a : Addr) : Lit (dropRoot a : Prog α _) := by unfold dropRoot; lit
macro_rules | `(tactic| lit0) => `(tactic| with_reducible exact lit_dropRoot _)
theorem lit_setUpLoop (k : Nat) (it : RawIter) (a : Addr) : Lit (setUpLoop k it a : Prog α _) := by induction k generalizing it <;> (unfold setUpLoop; lit; try (all_goals apply_assumption))
macro_rules | `(tactic| lit0) => `(tactic| with_reducible exact lit_setUpLoop _ _ _)
theorem lit_forestSetUp (a b : Addr) : Lit (forestSetUp a b : Prog α _) := by unfold forestSetUp; lit
macro_rules | `(tactic| lit0) => `(tactic| with_reducible exact lit_forestSetUp _ _)
theorem lit_forestClear (a : Addr) : Lit (forestClear a : Prog α _) := by unfold forestClear; lit
macro_rules | `(tactic| lit0) => `(tactic| with_reducible exact lit_forestClear _)
theorem lit_prepend (a b : Addr) : Lit (prepend a b : Prog α _) := by unfold prepend; lit
macro_rules | `(tactic| lit0) => `(tactic| with_reducible exact lit_prepend _ _)
theorem lit_append (a b : Addr) : Lit (append a b : Prog α _) := by unfold append; lit
macro_rules | `(tactic| lit0) => `(tactic| with_reducible exact lit_append _ _)
theorem lit_insertPrevSib (a b : Addr) : Lit (insertPrevSib a b : Prog α _) := by unfold insertPrevSib; lit
macro_rules | `(tactic| lit0) => `(tactic| with_reducible exact lit_insertPrevSib _ _)
theorem lit_insertNextSib (a b : Addr) : Lit (insertNextSib a b : Prog α _) := by unfold insertNextSib; lit
macro_rules | `(tactic| lit0) => `(tactic| with_reducible exact lit_insertNextSib _ _)
theorem lit_detach (a : Addr) : Lit (detach a : Prog α _) := by unfold detach; lit
macro_rules | `(tactic| lit0) => `(tactic| with_reducible exact lit_detach _)
theorem lit_treeNew (d : α) : Lit (treeNew d : Prog α _) := by unfold treeNew; lit
macro_rules | `(tactic| lit0) => `(tactic| with_reducible exact lit_treeNew _)
theorem lit_forestNew  : Lit (forestNew  : Prog α _) := by unfold forestNew; lit
macro_rules | `(tactic| lit0) => `(tactic| with_reducible exact lit_forestNew )
theorem lit_abandon (a : Addr) : Lit (abandon a : Prog α _) := by unfold abandon; lit
macro_rules | `(tactic| lit0) => `(tactic| with_reducible exact lit_abandon _)
theorem lit_intoData (a : Addr) : Lit (intoData a : Prog α _) := by unfold intoData; lit
macro_rules | `(tactic| lit0) => `(tactic| with_reducible exact lit_intoData _)
theorem lit_treeIntoIter (a : Addr) : Lit (treeIntoIter a : Prog α _) := by unfold treeIntoIter; lit
macro_rules | `(tactic| lit0) => `(tactic| with_reducible exact lit_treeIntoIter _)
theorem lit_intoIterDropLoop (k : Nat) (a : Addr) : Lit (intoIterDropLoop k a : Prog α _) := by induction k generalizing a <;> (unfold intoIterDropLoop; lit; try (all_goals apply_assumption))
macro_rules | `(tactic| lit0) => `(tactic| with_reducible exact lit_intoIterDropLoop _ _)
theorem lit_intoIterDrop (a : Addr) : Lit (intoIterDrop a : Prog α _) := by unfold intoIterDrop; lit
macro_rules | `(tactic| lit0) => `(tactic| with_reducible exact lit_intoIterDrop _)
/-- The same for a source. -/
structure SLit (S : Src α ι κ δ) : Prop where
  next : ∀ i, Lit (S.next i)
  len : ∀ i, Lit (S.len i)
  drop : ∀ i, Lit (S.drop i)
  split : ∀ k, Lit (S.split k)

theorem slit_refSrc : SLit (refSrc : Src α _ _ _) where
  next i := lit_iterNext i
  len i := Lit.pure _
  drop i := Lit.pure _
  split a := by unfold refSrc; dsimp only; lit
theorem slit_mutSrc : SLit (mutSrc : Src α _ _ _) where
  next i := lit_iterNext i
  len i := Lit.pure _
  drop i := Lit.pure _
  split a := by unfold mutSrc; dsimp only; lit
theorem slit_ownSrc : SLit (ownSrc : Src α _ _ _) where
  next i := by unfold ownSrc; dsimp only; lit
  len i := by unfold ownSrc; dsimp only; lit
  drop i := by unfold ownSrc; dsimp only; lit
  split a := by unfold ownSrc; dsimp only; lit

theorem lit_splittedNext {S : Src α ι κ δ} (hs : SLit S) (l : List ι) :
    Lit (splittedNext S l) := by
  induction l with
  | nil => exact Lit.pure _
  | cons it rest ih =>
    unfold splittedNext
    refine Lit.bind (hs.next it) fun x => ?_
    obtain ⟨o, it'⟩ := x
    cases o with
    | none => exact Lit.bind (hs.drop it') fun _ => ih
    | some k =>
      refine Lit.bind (hs.split k) fun y => ?_
      obtain ⟨d, ch, desc⟩ := y
      exact Lit.bind (hs.len ch) fun n => Lit.pure _
theorem lit_dropIters {S : Src α ι κ δ} (hs : SLit S) (l : List ι) :
    Lit (dropIters S l) := by
  induction l with
  | nil => exact Lit.pure _
  | cons it rest ih => exact Lit.bind (hs.drop it) fun _ => ih
theorem lit_mapNext (f : Nat → δ → κ) {p : σ → Prog α (Option (δ × Size) × σ)}
    (h1 : ∀ s, Lit (p s)) (s : σ × Nat) : Lit (mapNext f p s) := by
  unfold mapNext
  refine Lit.bind (h1 _) fun x => ?_
  obtain ⟨o, s'⟩ := x
  cases o <;> exact Lit.pure _
theorem lit_driveVisits {p : σ → Prog α (Option (δ × Size) × σ)}
    (h1 : ∀ s, Lit (p s)) (k : Nat) (s : σ) : Lit (driveVisits p k s) := by
  induction k generalizing s with
  | zero => exact Lit.pure _
  | succ k ih =>
    unfold driveVisits
    exact Lit.bind (h1 s) fun x => Lit.bind (ih x.2) fun y => Lit.pure _
theorem lit_fillInner (v k par child : Nat) : Lit (fillInner v k par child : Prog α _) := by induction k generalizing par <;> (unfold fillInner; lit; try (all_goals apply_assumption))
macro_rules | `(tactic| lit0) => `(tactic| with_reducible exact lit_fillInner _ _ _ _)
theorem lit_fillLoop {p : σ → Prog α (Option (α × Size) × σ)}
    (h1 : ∀ s, Lit (p s)) (v k : Nat) (s : σ) (par child remains : Nat) :
    Lit (fillLoop p v k s par child remains) := by
  induction k generalizing s par child remains with
  | zero => exact Lit.throw (by decide)
  | succ k ih =>
    unfold fillLoop
    refine Lit.bind (h1 s) fun x => ?_
    obtain ⟨o, s'⟩ := x
    cases o with
    | none => exact Lit.pure _
    | some q =>
      exact Lit.bind (lit_appendChild _ _ _ _ _) fun _ => Lit.ite (fun _ => Lit.throw (by decide)) fun _ =>
        Lit.ite (fun _ => Lit.bind (lit_fillInner _ _ _ _) fun y => ih _ _ _ _) fun _ => ih _ _ _ _
theorem lit_treeFromBfs {p : σ → Prog α (Option (α × Size) × σ)} {pd : σ → Prog α Unit} (h1 : ∀ s, Lit (p s)) (h2 : ∀ s, Lit (pd s)) (s : σ) :
    Lit (treeFromBfs p pd s) := by
  unfold treeFromBfs
  exact Lit.bind (h1 s) fun x => Lit.bind (lit_unwrap _) fun y => Lit.bind (lit_newVec _) fun v =>
    Lit.bind (lit_makePiledNode _ _ _ _ _) fun _ => Lit.bind (lit_fillLoop h1 _ _ _ _ _ _) fun s2 =>
    Lit.bind (lit_vecNode _ _) fun a => Lit.bind (lit_treeFromNode _) fun r => Lit.bind (h2 s2) fun _ => Lit.pure _
theorem lit_forestFromBfs {p : σ → Prog α (Option (α × Size) × σ)} {pd : σ → Prog α Unit} (h1 : ∀ s, Lit (p s)) (h2 : ∀ s, Lit (pd s)) (s : σ) (sz : Size) :
    Lit (forestFromBfs p pd s sz) := by
  unfold forestFromBfs
  exact Lit.bind (lit_newVec _) fun v =>
    Lit.bind (lit_vecMakeNode _ _ _ _ _) fun _ => Lit.bind (lit_fillLoop h1 _ _ _ _ _ _) fun s2 =>
    Lit.bind (lit_vecNode _ _) fun a => Lit.bind (h2 s2) fun _ => Lit.pure _
theorem lit_bfsChildrenStart (a : Addr) : Lit (bfsChildrenStart a : Prog α _) := by unfold bfsChildrenStart; lit
macro_rules | `(tactic| lit0) => `(tactic| with_reducible exact lit_bfsChildrenStart _)
theorem lit_mapBfs (f : Nat → α → α) (a : Addr) : Lit (mapBfs f a : Prog α _) := by 
  exact lit_treeFromBfs (lit_mapNext f (lit_splittedNext slit_refSrc)) (fun s => lit_dropIters slit_refSrc s.1) _
macro_rules | `(tactic| lit0) => `(tactic| with_reducible exact lit_mapBfs _ _)
theorem lit_mapBfsForest (f : Nat → α → α) (a : Addr) : Lit (mapBfsForest f a : Prog α _) := by 
  unfold mapBfsForest
  exact Lit.bind (lit_bfsChildrenStart _) fun s => Lit.bind (lit_getSize _) fun sz =>
    lit_forestFromBfs (lit_mapNext f (lit_splittedNext slit_refSrc)) (fun s => lit_dropIters slit_refSrc s.1) _ _
macro_rules | `(tactic| lit0) => `(tactic| with_reducible exact lit_mapBfsForest _ _)
theorem lit_rebuildTree (f : Nat → α → α) (a : Addr) : Lit (rebuildTree f a : Prog α _) := by 
  unfold rebuildTree
  exact Lit.bind (lit_treeIntoIter _) fun s =>
    lit_treeFromBfs (lit_mapNext f (lit_splittedNext slit_ownSrc)) (fun s => lit_dropIters slit_ownSrc s.1) _
macro_rules | `(tactic| lit0) => `(tactic| with_reducible exact lit_rebuildTree _ _)
theorem lit_rebuildForest (f : Nat → α → α) (a : Addr) : Lit (rebuildForest f a : Prog α _) := by 
  unfold rebuildForest
  exact Lit.bind (lit_getSize _) fun sz =>
    lit_forestFromBfs (lit_mapNext f (lit_splittedNext slit_ownSrc)) (fun s => lit_dropIters slit_ownSrc s.1) _ _
macro_rules | `(tactic| lit0) => `(tactic| with_reducible exact lit_rebuildForest _ _)
theorem lit_intoBfsDrive (k : Nat) (a : Addr) : Lit (intoBfsDrive k a : Prog α _) := by 
  unfold intoBfsDrive
  exact Lit.bind (lit_driveVisits (lit_splittedNext slit_ownSrc) _ _) fun x => Lit.bind (lit_dropIters slit_ownSrc _) fun _ => Lit.pure _
macro_rules | `(tactic| lit0) => `(tactic| with_reducible exact lit_intoBfsDrive _ _)
theorem lit_modifyData (a : Addr) (g : α → α) : Lit (modifyData a g : Prog α _) := by unfold modifyData; lit
macro_rules | `(tactic| lit0) => `(tactic| with_reducible exact lit_modifyData _ _)
theorem lit_driveMut (f : Nat → α → α) (k i : Nat) (s : List RawIter) : Lit (driveMut f k i s) := by
  induction k generalizing i s with
  | zero => exact Lit.pure _
  | succ k ih =>
    unfold driveMut
    refine Lit.bind (lit_splittedNext slit_mutSrc s) fun x => ?_
    obtain ⟨o, s'⟩ := x
    cases o with
    | none => exact Lit.bind (ih _ _) fun _ => Lit.pure _
    | some q => exact Lit.bind (lit_dataRef _) fun _ => Lit.bind (lit_modifyData _ _) fun _ => Lit.bind (ih _ _) fun _ => Lit.pure _
macro_rules | `(tactic| lit0) => `(tactic| with_reducible exact lit_driveMut _ _ _ _)
theorem lit_idx (l : List Nat) (i : Nat) : Lit (idx l i : Prog α _) := by unfold idx; lit
macro_rules | `(tactic| lit0) => `(tactic| with_reducible exact lit_idx _ _)
theorem lit_bump (l : List Nat) (i : Nat) : Lit (bump l i : Prog α _) := by unfold bump; lit
macro_rules | `(tactic| lit0) => `(tactic| with_reducible exact lit_bump _ _)
theorem lit_placeVisit (g : Bool) (v : Nat) (c : Cursor) (x : Visit α) (s : Size) : Lit (placeVisit g v c x s : Prog α _) := by unfold placeVisit; lit
macro_rules | `(tactic| lit0) => `(tactic| with_reducible exact lit_placeVisit _ _ _ _ _)
theorem lit_placeAll (g : Bool) (v : Nat) (c : Cursor) (l : List (Visit α × Size)) : Lit (placeAll g v c l : Prog α _) := by 
  induction l generalizing c with
  | nil => exact Lit.pure _
  | cons x l ih => exact Lit.bind (lit_placeVisit _ _ _ _ _) fun _ => ih _
macro_rules | `(tactic| lit0) => `(tactic| with_reducible exact lit_placeAll _ _ _ _)
theorem lit_constructTree (v : Nat) (t : Tup α) : Lit (constructTree v t : Prog α _) := by unfold constructTree; lit
macro_rules | `(tactic| lit0) => `(tactic| with_reducible exact lit_constructTree _ _)
theorem lit_constructForest (v : Nat) (t : List (Tup α)) : Lit (constructForest v t : Prog α _) := by unfold constructForest; lit
macro_rules | `(tactic| lit0) => `(tactic| with_reducible exact lit_constructForest _ _)
theorem lit_treeFromTuple (t : Tup α) : Lit (treeFromTuple t : Prog α _) := by unfold treeFromTuple; lit
macro_rules | `(tactic| lit0) => `(tactic| with_reducible exact lit_treeFromTuple _)
theorem lit_forestFromTuple (t : List (Tup α)) : Lit (forestFromTuple t : Prog α _) := by unfold forestFromTuple; lit
macro_rules | `(tactic| lit0) => `(tactic| with_reducible exact lit_forestFromTuple _)
theorem lit_locate (a : Addr) (p : Path) : Lit (locate a p : Prog α _) := by 
  induction p generalizing a with
  | nil => exact Lit.pure _
  | cons i p ih => unfold locate; lit; all_goals apply_assumption
macro_rules | `(tactic| lit0) => `(tactic| with_reducible exact lit_locate _ _)
theorem lit_readMany {f : Addr → Prog α β} (h1 : ∀ a, Lit (f a)) (l : List Addr) :
    Lit (readMany f l) := by
  induction l with
  | nil => exact Lit.pure _
  | cons a l ih => exact Lit.bind (h1 a) fun _ => Lit.bind ih fun _ => Lit.pure _
macro_rules | `(tactic| lit0) => `(tactic| with_reducible exact lit_driveVisits (lit_splittedNext slit_refSrc) _ _)
macro_rules | `(tactic| lit0) => `(tactic| with_reducible exact lit_readMany lit_dataRef _)
theorem lit_bfsRun (k : Nat) (a : Addr) : Lit (bfsRun k a : Prog α _) := by unfold bfsRun; lit
macro_rules | `(tactic| lit0) => `(tactic| with_reducible exact lit_bfsRun _ _)
theorem lit_bfsChildrenRun (k : Nat) (a : Addr) : Lit (bfsChildrenRun k a : Prog α _) := by unfold bfsChildrenRun; lit
macro_rules | `(tactic| lit0) => `(tactic| with_reducible exact lit_bfsChildrenRun _ _)
theorem lit_bfsMutRun (f : Nat → α → α) (k : Nat) (a : Addr) : Lit (bfsMutRun f k a : Prog α _) := by unfold bfsMutRun; lit
macro_rules | `(tactic| lit0) => `(tactic| with_reducible exact lit_bfsMutRun _ _ _)
theorem lit_bfsChildrenMutRun (f : Nat → α → α) (k : Nat) (a : Addr) : Lit (bfsChildrenMutRun f k a : Prog α _) := by unfold bfsChildrenMutRun; lit
macro_rules | `(tactic| lit0) => `(tactic| with_reducible exact lit_bfsChildrenMutRun _ _ _)
theorem lit_intoBfsTreeRun (k : Nat) (a : Addr) : Lit (intoBfsTreeRun k a : Prog α _) := by unfold intoBfsTreeRun; lit
macro_rules | `(tactic| lit0) => `(tactic| with_reducible exact lit_intoBfsTreeRun _ _)
theorem lit_intoBfsForestRun (k : Nat) (a : Addr) : Lit (intoBfsForestRun k a : Prog α _) := by unfold intoBfsForestRun; lit
macro_rules | `(tactic| lit0) => `(tactic| with_reducible exact lit_intoBfsForestRun _ _)

/-! ### Whole programs never fail by themselves -/

/-- No part of the program stops by itself: it fails only in an access. -/
def Full : Prog α β → Prop
  | .ret _ => True
  | .fail _ => False
  | .acc _ k => ∀ x, Full (k x)

theorem Full.bind {p : Prog α β} {f : β → Prog α γ} (h1 : Full p) (h2 : ∀ b, Full (f b)) : Full (p.bind f) := by
  induction p with
  | ret b => exact h2 b
  | fail e => exact h1.elim
  | acc a k ih => exact fun x => ih x (h1 x)

theorem Full.run {v : Vars} {env : Var → Option Handle} {p : Prog α β} {k : β → Prog α (Outcome Vars α)} (h1 : Lit p) (h2 : ∀ b, Full (k b)) :
    Full (v.run env p k) := by
  unfold Vars.run
  induction p with
  | ret b => exact h2 b
  | fail e => cases e <;> first | trivial | exact absurd rfl h1
  | acc a k' ih => exact fun x => ih x (h1 x)

theorem Full.onKids {v : Vars} {x : Var} {p : Path} {k : Handle → Addr → Prog α (Outcome Vars α)} (hk : ∀ hd n, Full (k hd n)) : Full (v.onKids x p k) := by
  unfold Vars.onKids
  split
  · trivial
  · split
    · trivial
    · refine Full.run (lit_locate _ _) fun o => ?_
      cases o with
      | none => trivial
      | some n => exact hk _ _

theorem Full.onNode {v : Vars} {x : Var} {l : Loc} {k : Addr → Prog α (Outcome Vars α)} (hk : ∀ n, Full (k n)) : Full (v.onNode x l k) := by
  unfold Vars.onNode
  split
  · trivial
  · split
    · trivial
    · split
      · split
        · exact hk _
        · trivial
      · refine Full.run (lit_locate _ _) fun o => ?_
        cases o with
        | none => trivial
        | some n => exact hk _

theorem Full.takeTree {v : Vars} {x y : Var} {k : Addr → Prog α (Outcome Vars α)} (hk : ∀ n, Full (k n)) : Full (v.takeTree x y k) := by
  unfold Vars.takeTree
  split
  · trivial
  · split
    · exact hk _
    · trivial

theorem Full.takeForest {v : Vars} {x y : Var} {k : Addr → Prog α (Outcome Vars α)} (hk : ∀ n, Full (k n)) : Full (v.takeForest x y k) := by
  unfold Vars.takeForest
  split
  · trivial
  · split
    · exact hk _
    · trivial

theorem Full.pop {v : Vars} {o : Option Addr} : Full (v.retPop o : Prog α _) := by cases o <;> trivial

macro "fll" : tactic => `(tactic| repeat' (first
  | exact Full.pop | trivial
  | refine Full.takeTree fun _ => ?_ | refine Full.takeForest fun _ => ?_ | refine Full.onKids fun _ _ => ?_
  | refine Full.onNode fun _ => ?_ | refine Full.run (by lit) fun _ => ?_ | split))

theorem full_step (v : Vars) (op : Op α) : Full (step v op) := by
  cases op <;> simp only [step] <;> fll

theorem full_exec (v : Vars) (ops : List (Op α)) : Full (exec v ops) := by
  induction ops generalizing v with
  | nil => trivial
  | cons op ops ih =>
    refine Full.bind (full_step v op) fun r => ?_
    cases r <;> exact Full.bind (ih _) fun _ => trivial

end Fine
end Trees
