import Verif.Model.Conc
/-
Running the programs of Model/Fine without interruption is running the code of Model/Node, Model/Bfs, Model/Tuple and
Model/Alloc.
-/
namespace Trees
namespace Fine
set_option linter.unusedSimpArgs false
set_option linter.unusedVariables false
variable {α β γ δ κ σ ι : Type} {A : Alloc}

/-- `p` is `c` in small steps. -/
def Imp (A : Alloc) (p : Prog α β) (c : M α β) : Prop := ∀ h, p.run A h = c h

theorem run_bind (p : Prog α β) (f : β → Prog α γ) (h : Heap α) :
    (p.bind f).run A h = (p.run A h).bind fun b h' => (f b).run A h' := by
  induction p generalizing h with
  | ret b => rfl
  | fail e => rfl
  | acc a k ih =>
    simp only [Prog.bind, Prog.run]
    cases a.run A h with
    | ok x h' => exact ih x h'
    | err e h' => rfl

theorem Imp.pure (b : β) : Imp A (Pure.pure b : Prog α β) (Pure.pure b) := fun h => rfl
theorem Imp.throw (e : Err) : Imp A (throw e : Prog α β) (M.throw e) := fun h => rfl
theorem Imp.bind {p : Prog α β} {c : M α β} {f : β → Prog α γ} {g : β → M α γ} (h1 : Imp A p c) (h2 : ∀ b, Imp A (f b) (g b)) :
    Imp A (p >>= f) (c >>= g) := by
  intro h
  show (p.bind f).run A h = _
  rw [run_bind, h1 h]
  show Res.bind (c h) _ = Res.bind (c h) _
  cases c h with
  | ok b h' => exact h2 b h'
  | err e h' => rfl
theorem Imp.ite {P : Prop} [Decidable P] {p q : Prog α β} {c d : M α β} (h1 : P → Imp A p c) (h2 : ¬ P → Imp A q d) :
    Imp A (if P then p else q) (if P then c else d) := by
  split <;> rename_i h
  · exact h1 h
  · exact h2 h
theorem Imp.access (a : Acc α) : Imp A (access a) (a.run A) := by
  intro h
  show (a.run A h).bind _ = _
  cases a.run A h <;> rfl

syntax "imp0" : tactic
syntax "imp1" : tactic
macro_rules | `(tactic| imp0) => `(tactic| assumption)
macro_rules | `(tactic| imp0) => `(tactic| with_reducible exact Imp.throw _)
macro_rules | `(tactic| imp0) => `(tactic| with_reducible exact Imp.pure _)
macro_rules | `(tactic| imp1) => `(tactic| (split <;> (try dsimp only at *) <;> (try simp only [*]) <;> (try contradiction)))
macro_rules | `(tactic| imp1) => `(tactic| (with_reducible refine Imp.ite (fun _ => ?_) (fun _ => ?_)))
macro_rules | `(tactic| imp1) => `(tactic| (with_reducible refine Imp.bind ?_ (fun _ => ?_)))
macro_rules | `(tactic| imp1) => `(tactic| imp0)
macro "imp" : tactic => `(tactic| repeat' imp1)

theorem imp_getPrev (a : Addr) : Imp A (getPrev a : Prog α _) (Trees.getPrev a) := Imp.access _
theorem imp_getNext (a : Addr) : Imp A (getNext a : Prog α _) (Trees.getNext a) := Imp.access _
theorem imp_getHead (a : Addr) : Imp A (getHead a : Prog α _) (Trees.getHead a) := Imp.access _
theorem imp_getTail (a : Addr) : Imp A (getTail a : Prog α _) (Trees.getTail a) := Imp.access _
theorem imp_getUp (a : Addr) : Imp A (getUp a : Prog α _) (Trees.getUp a) := Imp.access _
theorem imp_setPrev (a : Addr) (v) : Imp A (setPrev a v : Prog α _) (Trees.setPrev a v) := Imp.access _
theorem imp_setNext (a : Addr) (v) : Imp A (setNext a v : Prog α _) (Trees.setNext a v) := Imp.access _
theorem imp_setHead (a : Addr) (v) : Imp A (setHead a v : Prog α _) (Trees.setHead a v) := Imp.access _
theorem imp_setTail (a : Addr) (v) : Imp A (setTail a v : Prog α _) (Trees.setTail a v) := Imp.access _
theorem imp_setUp (a : Addr) (v) : Imp A (setUp a v : Prog α _) (Trees.setUp a v) := Imp.access _
theorem imp_getSize (a : Addr) : Imp A (getSize a : Prog α _) (Trees.getSize a) := Imp.access _
theorem imp_setSize (a : Addr) (v) : Imp A (setSize a v : Prog α _) (Trees.setSize a v) := Imp.access _
theorem imp_getData (a : Addr) : Imp A (getData a : Prog α _) (Trees.getData a) := Imp.access _
theorem imp_setData (a : Addr) (v) : Imp A (setData a v : Prog α _) (Trees.setData a v) := Imp.access _
theorem imp_rcDrop (a : Addr) : Imp A (rcDrop a : Prog α _) (Trees.rcDrop a) := Imp.access _
theorem imp_vecNode (v i : Nat) : Imp A (vecNode v i : Prog α _) (Trees.vecNode v i) := Imp.access _
theorem imp_logDrop (d : α) : Imp A (logDrop d : Prog α _) (Trees.logDrop d) := Imp.access _
theorem imp_makeNode (d : Data α) : Imp A (makeNode d : Prog α _) (makeNodeA A d) := Imp.access _
theorem imp_newVec (n : Nat) : Imp A (newVec n : Prog α _) (newVecA A (n + 1)) := Imp.access _
macro_rules | `(tactic| imp0) => `(tactic| with_reducible exact imp_getPrev _)
macro_rules | `(tactic| imp0) => `(tactic| with_reducible exact imp_getNext _)
macro_rules | `(tactic| imp0) => `(tactic| with_reducible exact imp_getHead _)
macro_rules | `(tactic| imp0) => `(tactic| with_reducible exact imp_getTail _)
macro_rules | `(tactic| imp0) => `(tactic| with_reducible exact imp_getUp _)
macro_rules | `(tactic| imp0) => `(tactic| with_reducible exact imp_getSize _)
macro_rules | `(tactic| imp0) => `(tactic| with_reducible exact imp_getData _)
macro_rules | `(tactic| imp0) => `(tactic| with_reducible exact imp_rcDrop _)
macro_rules | `(tactic| imp0) => `(tactic| with_reducible exact imp_logDrop _)
macro_rules | `(tactic| imp0) => `(tactic| with_reducible exact imp_makeNode _)
macro_rules | `(tactic| imp0) => `(tactic| with_reducible exact imp_newVec _)
macro_rules | `(tactic| imp0) => `(tactic| with_reducible exact imp_setPrev _ _)
macro_rules | `(tactic| imp0) => `(tactic| with_reducible exact imp_setNext _ _)
macro_rules | `(tactic| imp0) => `(tactic| with_reducible exact imp_setHead _ _)
macro_rules | `(tactic| imp0) => `(tactic| with_reducible exact imp_setTail _ _)
macro_rules | `(tactic| imp0) => `(tactic| with_reducible exact imp_setUp _ _)
macro_rules | `(tactic| imp0) => `(tactic| with_reducible exact imp_setSize _ _)
macro_rules | `(tactic| imp0) => `(tactic| with_reducible exact imp_setData _ _)
macro_rules | `(tactic| imp0) => `(tactic| with_reducible exact imp_vecNode _ _)

theorem imp_decrRef (v : Nat) : Imp A (decrRef v : Prog α _) (Trees.decrRef v) := by
  intro h
  unfold decrRef Trees.decrRef getRef setRef freeVec access
  simp only [Bind.bind, Prog.bind, Prog.run, Acc.run]
  cases e : h.vec v with
  | none => rfl
  | some nv =>
    simp only [Res.bind]
    by_cases n0 : nv.refCnt = 0
    · simp only [n0, if_true]; rfl
    · by_cases n1 : nv.refCnt - 1 = 0 <;> simp [n0, n1, Prog.bind, Prog.run, Acc.run, e, Res.bind, upd_self, killRange]
      · refine ⟨rfl, ?_⟩
        funext x
        simp only [upd]
        split <;> rfl
      · rfl
macro_rules | `(tactic| imp0) => `(tactic| with_reducible exact imp_decrRef _)

theorem imp_unwrap (o : Option β) : Imp A (unwrap o : Prog α _) (Trees.unwrap o) := by unfold unwrap Trees.unwrap; imp
macro_rules | `(tactic| imp0) => `(tactic| with_reducible exact imp_unwrap _)
theorem imp_dataRef (a : Addr) : Imp A (dataRef a : Prog α _) (Trees.dataRef a) := by unfold dataRef Trees.dataRef; imp
macro_rules | `(tactic| imp0) => `(tactic| with_reducible exact imp_dataRef _)
theorem imp_dataMutSet (a : Addr) (d : α) : Imp A (dataMutSet a d : Prog α _) (Trees.dataMutSet a d) := by unfold dataMutSet Trees.dataMutSet; imp
macro_rules | `(tactic| imp0) => `(tactic| with_reducible exact imp_dataMutSet _ _)
theorem imp_hasNoChild (a : Addr) : Imp A (hasNoChild a : Prog α _) (Trees.hasNoChild a) := by unfold hasNoChild Trees.hasNoChild; imp
macro_rules | `(tactic| imp0) => `(tactic| with_reducible exact imp_hasNoChild _)
theorem imp_degree (a : Addr) : Imp A (degree a : Prog α _) (Trees.degree a) := by unfold degree Trees.degree; imp
macro_rules | `(tactic| imp0) => `(tactic| with_reducible exact imp_degree _)
theorem imp_isForest (a : Addr) : Imp A (isForest a : Prog α _) (Trees.isForest a) := by unfold isForest Trees.isForest; imp
macro_rules | `(tactic| imp0) => `(tactic| with_reducible exact imp_isForest _)
theorem imp_nodeCount (a : Addr) : Imp A (nodeCount a : Prog α _) (Trees.nodeCount a) := by unfold nodeCount Trees.nodeCount; imp
macro_rules | `(tactic| imp0) => `(tactic| with_reducible exact imp_nodeCount _)
theorem imp_parentLoop (k : Nat) (a : Addr) : Imp A (parentLoop k a : Prog α _) (Trees.parentLoop k a) := by induction k generalizing a <;> (unfold parentLoop Trees.parentLoop; imp; try (all_goals apply_assumption))
macro_rules | `(tactic| imp0) => `(tactic| with_reducible exact imp_parentLoop _ _)
theorem imp_front (a : Addr) : Imp A (front a : Prog α _) (Trees.front a) := by unfold front Trees.front; imp
macro_rules | `(tactic| imp0) => `(tactic| with_reducible exact imp_front _)
theorem imp_back (a : Addr) : Imp A (back a : Prog α _) (Trees.back a) := by unfold back Trees.back; imp
macro_rules | `(tactic| imp0) => `(tactic| with_reducible exact imp_back _)
theorem imp_uncountedNext (o : Option Addr) : Imp A (uncountedNext o : Prog α _) (Trees.uncountedNext o) := by unfold uncountedNext Trees.uncountedNext; imp
macro_rules | `(tactic| imp0) => `(tactic| with_reducible exact imp_uncountedNext _)
theorem imp_iterNext (it : RawIter) : Imp A (iterNext it : Prog α _) (Trees.RawIter.next it) := by unfold iterNext Trees.RawIter.next; imp
macro_rules | `(tactic| imp0) => `(tactic| with_reducible exact imp_iterNext _)
theorem imp_iter (a : Addr) : Imp A (iter a : Prog α _) (Trees.iter a) := by unfold iter Trees.iter; imp
macro_rules | `(tactic| imp0) => `(tactic| with_reducible exact imp_iter _)
theorem imp_iterNth (k : Nat) (it : RawIter) : Imp A (iterNth k it : Prog α _) (Trees.RawIter.nth k it) := by induction k generalizing it <;> (unfold iterNth Trees.RawIter.nth; imp; try (all_goals apply_assumption))
macro_rules | `(tactic| imp0) => `(tactic| with_reducible exact imp_iterNth _ _)
theorem imp_iterCollect (k : Nat) (it : RawIter) : Imp A (iterCollect k it : Prog α _) (Trees.RawIter.collect k it) := by induction k generalizing it <;> (unfold iterCollect Trees.RawIter.collect; imp; try (all_goals apply_assumption))
macro_rules | `(tactic| imp0) => `(tactic| with_reducible exact imp_iterCollect _ _)
theorem imp_children (a : Addr) : Imp A (children a : Prog α _) (Trees.children a) := by unfold children Trees.children; imp
macro_rules | `(tactic| imp0) => `(tactic| with_reducible exact imp_children _)
theorem imp_connectNext (a b : Addr) : Imp A (connectNext a b : Prog α _) (Trees.connectNext a b) := by unfold connectNext Trees.connectNext; imp
macro_rules | `(tactic| imp0) => `(tactic| with_reducible exact imp_connectNext _ _)
theorem imp_incLoop (k : Nat) (o : Option Addr) (n : Nat) : Imp A (incLoop k o n : Prog α _) (Trees.incLoop k o n) := by induction k generalizing o <;> cases o <;> (unfold incLoop Trees.incLoop; imp; try (all_goals apply_assumption))
macro_rules | `(tactic| imp0) => `(tactic| with_reducible exact imp_incLoop _ _ _)

theorem Imp.bound {f : Nat → Prog α β} {g : Heap α → M α β} (h1 : ∀ h, Imp A (f h.nextAddr) (g h)) :
    Imp A (bound >>= f) (M.fuelled g) := fun h => h1 h h
macro_rules | `(tactic| imp1) => `(tactic| (with_reducible refine Imp.bound (fun _ => ?_)))

theorem imp_parent (a : Addr) : Imp A (parent a : Prog α _) (Trees.parent a) := by unfold parent Trees.parent; imp
macro_rules | `(tactic| imp0) => `(tactic| with_reducible exact imp_parent _)
theorem imp_incSizes (a : Addr) (x y : Nat) : Imp A (incSizes a x y : Prog α _) (Trees.incSizes a x y) := by unfold incSizes Trees.incSizes; imp
macro_rules | `(tactic| imp0) => `(tactic| with_reducible exact imp_incSizes _ _ _)
theorem imp_decLoop (k : Nat) (o : Option Addr) (n : Nat) : Imp A (decLoop k o n : Prog α _) (Trees.decLoop k o n) := by induction k generalizing o <;> cases o <;> (unfold decLoop Trees.decLoop; imp; try (all_goals apply_assumption))
macro_rules | `(tactic| imp0) => `(tactic| with_reducible exact imp_decLoop _ _ _)
theorem imp_decSizes (a : Addr) (x y : Nat) : Imp A (decSizes a x y : Prog α _) (Trees.decSizes a x y) := by unfold decSizes Trees.decSizes; imp
macro_rules | `(tactic| imp0) => `(tactic| with_reducible exact imp_decSizes _ _ _)
theorem imp_dropNode (a : Addr) : Imp A (dropNode a : Prog α _) (Trees.dropNode a) := by unfold dropNode Trees.dropNode; imp
macro_rules | `(tactic| imp0) => `(tactic| with_reducible exact imp_dropNode _)
theorem imp_vecMakeNode (v : Nat) (p : Option Addr) (i : Nat) (d : Data α) (s : Size) : Imp A (vecMakeNode v p i d s : Prog α _) (Trees.vecMakeNode v p i d s) := by unfold vecMakeNode Trees.vecMakeNode; imp
macro_rules | `(tactic| imp0) => `(tactic| with_reducible exact imp_vecMakeNode _ _ _ _ _)
theorem imp_makePiledNode (v : Nat) (p : Option Addr) (i : Nat) (d : α) (s : Size) : Imp A (makePiledNode v p i d s : Prog α _) (Trees.makePiledNode v p i d s) := by unfold makePiledNode Trees.makePiledNode; imp
macro_rules | `(tactic| imp0) => `(tactic| with_reducible exact imp_makePiledNode _ _ _ _ _)
theorem imp_appendChild (v p c : Nat) (d : α) (s : Size) : Imp A (appendChild v p c d s : Prog α _) (Trees.appendChild v p c d s) := by unfold appendChild Trees.appendChild; imp
macro_rules | `(tactic| imp0) => `(tactic| with_reducible exact imp_appendChild _ _ _ _ _)
theorem imp_treeFromNode (a : Addr) : Imp A (treeFromNode a : Prog α _) (Trees.treeFromNode a) := by unfold treeFromNode Trees.treeFromNode; imp
macro_rules | `(tactic| imp0) => `(tactic| with_reducible exact imp_treeFromNode _)
theorem imp_pushFront (a b : Addr) : Imp A (pushFront a b : Prog α _) (Trees.pushFront a b) := by unfold pushFront Trees.pushFront; imp
macro_rules | `(tactic| imp0) => `(tactic| with_reducible exact imp_pushFront _ _)
theorem imp_pushBack (a b : Addr) : Imp A (pushBack a b : Prog α _) (Trees.pushBack a b) := by unfold pushBack Trees.pushBack; imp
macro_rules | `(tactic| imp0) => `(tactic| with_reducible exact imp_pushBack _ _)
theorem imp_popFront (a : Addr) : Imp A (popFront a : Prog α _) (Trees.popFront a) := by unfold popFront Trees.popFront; imp
macro_rules | `(tactic| imp0) => `(tactic| with_reducible exact imp_popFront _)
theorem imp_popBack (a : Addr) : Imp A (popBack a : Prog α _) (Trees.popBack a) := by unfold popBack Trees.popBack; imp
macro_rules | `(tactic| imp0) => `(tactic| with_reducible exact imp_popBack _)
theorem imp_dropLoop (k : Nat) (a : Addr) : Imp A (dropLoop k a : Prog α _) (Trees.dropLoop k a) := by induction k generalizing a <;> (unfold dropLoop Trees.dropLoop; imp; try (all_goals apply_assumption))
macro_rules | `(tactic| imp0) => `(tactic| with_reducible exact imp_dropLoop _ _)
theorem imp_dropRoot (a : Addr) : Imp A (dropRoot a : Prog α _) (Trees.dropRoot a) := by
  intro h
  unfold dropRoot
  show Prog.run A (Prog.bind _ _) h = _
  rw [run_bind, imp_getSize]
  cases l : h.live a with
  | true => simp only [Trees.getSize, rd, l, if_true, Res.bind]; exact imp_dropLoop _ _ h
  | false =>
    simp [Trees.getSize, rd, l, Res.bind, Trees.dropRoot, Trees.dropLoop, Trees.popFront]
macro_rules | `(tactic| imp0) => `(tactic| with_reducible exact imp_dropRoot _)
theorem imp_setUpLoop (k : Nat) (it : RawIter) (a : Addr) : Imp A (setUpLoop k it a : Prog α _) (Trees.setUpLoop k it a) := by induction k generalizing it <;> (unfold setUpLoop Trees.setUpLoop; imp; try (all_goals apply_assumption))
macro_rules | `(tactic| imp0) => `(tactic| with_reducible exact imp_setUpLoop _ _ _)
theorem imp_forestSetUp (a b : Addr) : Imp A (forestSetUp a b : Prog α _) (Trees.forestSetUp a b) := by unfold forestSetUp Trees.forestSetUp; imp
macro_rules | `(tactic| imp0) => `(tactic| with_reducible exact imp_forestSetUp _ _)
theorem imp_forestClear (a : Addr) : Imp A (forestClear a : Prog α _) (Trees.forestClear a) := by unfold forestClear Trees.forestClear; imp
macro_rules | `(tactic| imp0) => `(tactic| with_reducible exact imp_forestClear _)
theorem imp_prepend (a b : Addr) : Imp A (prepend a b : Prog α _) (Trees.prepend a b) := by unfold prepend Trees.prepend; imp
macro_rules | `(tactic| imp0) => `(tactic| with_reducible exact imp_prepend _ _)
theorem imp_append (a b : Addr) : Imp A (append a b : Prog α _) (Trees.append a b) := by unfold append Trees.append; imp
macro_rules | `(tactic| imp0) => `(tactic| with_reducible exact imp_append _ _)
theorem imp_insertPrevSib (a b : Addr) : Imp A (insertPrevSib a b : Prog α _) (Trees.insertPrevSib a b) := by unfold insertPrevSib Trees.insertPrevSib; imp
macro_rules | `(tactic| imp0) => `(tactic| with_reducible exact imp_insertPrevSib _ _)
theorem imp_insertNextSib (a b : Addr) : Imp A (insertNextSib a b : Prog α _) (Trees.insertNextSib a b) := by unfold insertNextSib Trees.insertNextSib; imp
macro_rules | `(tactic| imp0) => `(tactic| with_reducible exact imp_insertNextSib _ _)
theorem imp_detach (a : Addr) : Imp A (detach a : Prog α _) (Trees.detach a) := by unfold detach Trees.detach; imp
macro_rules | `(tactic| imp0) => `(tactic| with_reducible exact imp_detach _)
theorem imp_treeNew (d : α) : Imp A (treeNew d : Prog α _) (treeNewA A d) := by unfold treeNew treeNewA; imp
macro_rules | `(tactic| imp0) => `(tactic| with_reducible exact imp_treeNew _)
theorem imp_forestNew  : Imp A (forestNew  : Prog α _) (forestNewA A ) := by unfold forestNew forestNewA; imp
macro_rules | `(tactic| imp0) => `(tactic| with_reducible exact imp_forestNew )
theorem imp_abandon (a : Addr) : Imp A (abandon a : Prog α _) (abandonA A a) := by unfold abandon abandonA; imp
macro_rules | `(tactic| imp0) => `(tactic| with_reducible exact imp_abandon _)
theorem imp_intoData (a : Addr) : Imp A (intoData a : Prog α _) (Trees.intoData a) := by unfold intoData Trees.intoData; imp
macro_rules | `(tactic| imp0) => `(tactic| with_reducible exact imp_intoData _)
theorem imp_treeIntoIter (a : Addr) : Imp A (treeIntoIter a : Prog α _) (treeIntoIterA A a) := by unfold treeIntoIter treeIntoIterA; imp
macro_rules | `(tactic| imp0) => `(tactic| with_reducible exact imp_treeIntoIter _)
theorem imp_intoIterDropLoop (k : Nat) (a : Addr) : Imp A (intoIterDropLoop k a : Prog α _) (Trees.intoIterDropLoop k a) := by induction k generalizing a <;> (unfold intoIterDropLoop Trees.intoIterDropLoop; imp; try (all_goals apply_assumption))
macro_rules | `(tactic| imp0) => `(tactic| with_reducible exact imp_intoIterDropLoop _ _)
theorem imp_intoIterDrop (a : Addr) : Imp A (intoIterDrop a : Prog α _) (Trees.intoIterDrop a) := by
  intro h
  unfold intoIterDrop
  show Prog.run A (Prog.bind _ _) h = _
  rw [run_bind, imp_getSize]
  cases l : h.live a with
  | true =>
    simp only [Trees.getSize, rd, l, if_true, Res.bind]
    exact Imp.bind (imp_intoIterDropLoop _ _) (fun _ => imp_dropRoot _) h
  | false =>
    simp [Trees.getSize, rd, l, Res.bind, Trees.intoIterDrop, Trees.intoIterDropLoop, Trees.popFront]
macro_rules | `(tactic| imp0) => `(tactic| with_reducible exact imp_intoIterDrop _)

/-- A source in small steps. -/
structure SImp (A : Alloc) (S : Src α ι κ δ) (T : Trees.Src α ι κ δ) : Prop where
  next : ∀ i, Imp A (S.next i) (T.next i)
  len : ∀ i, Imp A (S.len i) (T.len i)
  drop : ∀ i, Imp A (S.drop i) (T.drop i)
  split : ∀ k, Imp A (S.split k) (T.split k)

theorem simp_refSrc : SImp A (refSrc : Src α _ _ _) Trees.refSrc where
  next i := imp_iterNext i
  len i := Imp.pure _
  drop i := Imp.pure _
  split a := by unfold refSrc Trees.refSrc; dsimp only; imp
theorem simp_mutSrc : SImp A (mutSrc : Src α _ _ _) Trees.mutSrc where
  next i := imp_iterNext i
  len i := Imp.pure _
  drop i := Imp.pure _
  split a := by unfold mutSrc Trees.mutSrc; dsimp only; imp
theorem simp_ownSrc : SImp A (ownSrc : Src α _ _ _) (ownSrcA A) where
  next i := by unfold ownSrc ownSrcA; dsimp only; imp
  len i := by unfold ownSrc ownSrcA; dsimp only; imp
  drop i := by unfold ownSrc ownSrcA; dsimp only; imp
  split a := by unfold ownSrc ownSrcA; dsimp only; imp

theorem imp_splittedNext {S : Src α ι κ δ} {T : Trees.Src α ι κ δ} (hs : SImp A S T) (l : List ι) :
    Imp A (splittedNext S l) (Trees.splittedNext T l) := by
  induction l with
  | nil => exact Imp.pure _
  | cons it rest ih =>
    unfold splittedNext Trees.splittedNext
    refine Imp.bind (hs.next it) fun x => ?_
    obtain ⟨o, it'⟩ := x
    cases o with
    | none => exact Imp.bind (hs.drop it') fun _ => ih
    | some k =>
      refine Imp.bind (hs.split k) fun y => ?_
      obtain ⟨d, ch, desc⟩ := y
      exact Imp.bind (hs.len ch) fun n => Imp.pure _
theorem imp_dropIters {S : Src α ι κ δ} {T : Trees.Src α ι κ δ} (hs : SImp A S T) (l : List ι) :
    Imp A (dropIters S l) (Trees.dropIters T l) := by
  induction l with
  | nil => exact Imp.pure _
  | cons it rest ih => exact Imp.bind (hs.drop it) fun _ => ih
theorem imp_mapNext (f : Nat → δ → κ) {p : σ → Prog α (Option (δ × Size) × σ)} {c : σ → M α (Option (δ × Size) × σ)}
    (h1 : ∀ s, Imp A (p s) (c s)) (s : σ × Nat) : Imp A (mapNext f p s) (Trees.mapNext f c s) := by
  unfold mapNext Trees.mapNext
  refine Imp.bind (h1 _) fun x => ?_
  obtain ⟨o, s'⟩ := x
  cases o <;> exact Imp.pure _
theorem imp_driveVisits {p : σ → Prog α (Option (δ × Size) × σ)} {c : σ → M α (Option (δ × Size) × σ)}
    (h1 : ∀ s, Imp A (p s) (c s)) (k : Nat) (s : σ) : Imp A (driveVisits p k s) (Trees.driveVisits c k s) := by
  induction k generalizing s with
  | zero => exact Imp.pure _
  | succ k ih =>
    unfold driveVisits Trees.driveVisits
    exact Imp.bind (h1 s) fun x => Imp.bind (ih x.2) fun y => Imp.pure _

theorem imp_fillInner (v k par child : Nat) : Imp A (fillInner v k par child : Prog α _) (Trees.fillInner v k par child) := by induction k generalizing par <;> (unfold fillInner Trees.fillInner; imp; try (all_goals apply_assumption))
macro_rules | `(tactic| imp0) => `(tactic| with_reducible exact imp_fillInner _ _ _ _)
theorem imp_fillLoop {p : σ → Prog α (Option (α × Size) × σ)} {c : σ → M α (Option (α × Size) × σ)}
    (h1 : ∀ s, Imp A (p s) (c s)) (v k : Nat) (s : σ) (par child remains : Nat) :
    Imp A (fillLoop p v k s par child remains) (Trees.fillLoop c v k s par child remains) := by
  induction k generalizing s par child remains with
  | zero => exact Imp.throw _
  | succ k ih =>
    unfold fillLoop Trees.fillLoop
    refine Imp.bind (h1 s) fun x => ?_
    obtain ⟨o, s'⟩ := x
    cases o with
    | none => exact Imp.pure _
    | some q =>
      exact Imp.bind (imp_appendChild _ _ _ _ _) fun _ => Imp.ite (fun _ => Imp.throw _) fun _ =>
        Imp.ite (fun _ => Imp.bind (imp_fillInner _ _ _ _) fun y => ih _ _ _ _) fun _ => ih _ _ _ _
theorem imp_treeFromBfs {p : σ → Prog α (Option (α × Size) × σ)} {c : σ → M α (Option (α × Size) × σ)} {pd : σ → Prog α Unit}
    {cd : σ → M α Unit} (h1 : ∀ s, Imp A (p s) (c s)) (h2 : ∀ s, Imp A (pd s) (cd s)) (s : σ) :
    Imp A (treeFromBfs p pd s) (treeFromBfsA A c cd s) := by
  unfold treeFromBfs treeFromBfsA
  exact Imp.bind (h1 s) fun x => Imp.bind (imp_unwrap _) fun y => Imp.bind (imp_newVec _) fun v =>
    Imp.bind (imp_makePiledNode _ _ _ _ _) fun _ => Imp.bind (imp_fillLoop h1 _ _ _ _ _ _) fun s2 =>
    Imp.bind (imp_vecNode _ _) fun a => Imp.bind (imp_treeFromNode _) fun r => Imp.bind (h2 s2) fun _ => Imp.pure _
theorem imp_forestFromBfs {p : σ → Prog α (Option (α × Size) × σ)} {c : σ → M α (Option (α × Size) × σ)} {pd : σ → Prog α Unit}
    {cd : σ → M α Unit} (h1 : ∀ s, Imp A (p s) (c s)) (h2 : ∀ s, Imp A (pd s) (cd s)) (s : σ) (sz : Size) :
    Imp A (forestFromBfs p pd s sz) (forestFromBfsA A c cd s sz) := by
  unfold forestFromBfs forestFromBfsA
  exact Imp.bind (imp_newVec _) fun v =>
    Imp.bind (imp_vecMakeNode _ _ _ _ _) fun _ => Imp.bind (imp_fillLoop h1 _ _ _ _ _ _) fun s2 =>
    Imp.bind (imp_vecNode _ _) fun a => Imp.bind (h2 s2) fun _ => Imp.pure _

theorem imp_bfsChildrenStart (a : Addr) : Imp A (bfsChildrenStart a : Prog α _) (Trees.bfsChildrenStart a) := by unfold bfsChildrenStart Trees.bfsChildrenStart; imp
macro_rules | `(tactic| imp0) => `(tactic| with_reducible exact imp_bfsChildrenStart _)
theorem imp_mapBfs (f : Nat → α → α) (a : Addr) : Imp A (mapBfs f a : Prog α _) (mapBfsA A f a) := by 
  exact imp_treeFromBfs (imp_mapNext f (imp_splittedNext simp_refSrc)) (fun s => imp_dropIters simp_refSrc s.1) _
macro_rules | `(tactic| imp0) => `(tactic| with_reducible exact imp_mapBfs _ _)
theorem imp_mapBfsForest (f : Nat → α → α) (a : Addr) : Imp A (mapBfsForest f a : Prog α _) (mapBfsForestA A f a) := by 
  unfold mapBfsForest mapBfsForestA
  exact Imp.bind (imp_bfsChildrenStart _) fun s => Imp.bind (imp_getSize _) fun sz =>
    imp_forestFromBfs (imp_mapNext f (imp_splittedNext simp_refSrc)) (fun s => imp_dropIters simp_refSrc s.1) _ _
macro_rules | `(tactic| imp0) => `(tactic| with_reducible exact imp_mapBfsForest _ _)
theorem imp_rebuildTree (f : Nat → α → α) (a : Addr) : Imp A (rebuildTree f a : Prog α _) (rebuildTreeA A f a) := by 
  unfold rebuildTree rebuildTreeA
  exact Imp.bind (imp_treeIntoIter _) fun s =>
    imp_treeFromBfs (imp_mapNext f (imp_splittedNext simp_ownSrc)) (fun s => imp_dropIters simp_ownSrc s.1) _
macro_rules | `(tactic| imp0) => `(tactic| with_reducible exact imp_rebuildTree _ _)
theorem imp_rebuildForest (f : Nat → α → α) (a : Addr) : Imp A (rebuildForest f a : Prog α _) (rebuildForestA A f a) := by 
  unfold rebuildForest rebuildForestA
  exact Imp.bind (imp_getSize _) fun sz =>
    imp_forestFromBfs (imp_mapNext f (imp_splittedNext simp_ownSrc)) (fun s => imp_dropIters simp_ownSrc s.1) _ _
macro_rules | `(tactic| imp0) => `(tactic| with_reducible exact imp_rebuildForest _ _)
theorem imp_intoBfsDrive (k : Nat) (a : Addr) : Imp A (intoBfsDrive k a : Prog α _) (intoBfsDriveA A k a) := by 
  unfold intoBfsDrive intoBfsDriveA
  exact Imp.bind (imp_driveVisits (imp_splittedNext simp_ownSrc) _ _) fun x => Imp.bind (imp_dropIters simp_ownSrc _) fun _ => Imp.pure _
macro_rules | `(tactic| imp0) => `(tactic| with_reducible exact imp_intoBfsDrive _ _)
theorem imp_modifyData (a : Addr) (g : α → α) : Imp A (modifyData a g : Prog α _) (Trees.modifyData a g) := by unfold modifyData Trees.modifyData; imp
macro_rules | `(tactic| imp0) => `(tactic| with_reducible exact imp_modifyData _ _)
theorem imp_driveMut (f : Nat → α → α) (k i : Nat) (s : List RawIter) : Imp A (driveMut f k i s) (Trees.driveMut f k i s) := by
  induction k generalizing i s with
  | zero => exact Imp.pure _
  | succ k ih =>
    unfold driveMut Trees.driveMut
    refine Imp.bind (imp_splittedNext simp_mutSrc s) fun x => ?_
    obtain ⟨o, s'⟩ := x
    cases o with
    | none => exact Imp.bind (ih _ _) fun _ => Imp.pure _
    | some q => exact Imp.bind (imp_dataRef _) fun _ => Imp.bind (imp_modifyData _ _) fun _ => Imp.bind (ih _ _) fun _ => Imp.pure _
macro_rules | `(tactic| imp0) => `(tactic| with_reducible exact imp_driveMut _ _ _ _)

theorem imp_idx (l : List Nat) (i : Nat) : Imp A (idx l i : Prog α _) (Trees.idx l i) := by unfold idx Trees.idx; imp
macro_rules | `(tactic| imp0) => `(tactic| with_reducible exact imp_idx _ _)
theorem imp_bump (l : List Nat) (i : Nat) : Imp A (bump l i : Prog α _) (Trees.bump l i) := by unfold bump Trees.bump; imp
macro_rules | `(tactic| imp0) => `(tactic| with_reducible exact imp_bump _ _)
theorem imp_placeVisit (g : Bool) (v : Nat) (c : Cursor) (x : Visit α) (s : Size) : Imp A (placeVisit g v c x s : Prog α _) (Trees.placeVisit g v c x s) := by unfold placeVisit Trees.placeVisit; imp
macro_rules | `(tactic| imp0) => `(tactic| with_reducible exact imp_placeVisit _ _ _ _ _)
theorem imp_placeAll (g : Bool) (v : Nat) (c : Cursor) (l : List (Visit α × Size)) : Imp A (placeAll g v c l : Prog α _) (Trees.placeAll g v c l) := by 
  induction l generalizing c with
  | nil => exact Imp.pure _
  | cons x l ih => exact Imp.bind (imp_placeVisit _ _ _ _ _) fun _ => ih _
macro_rules | `(tactic| imp0) => `(tactic| with_reducible exact imp_placeAll _ _ _ _)
theorem imp_constructTree (v : Nat) (t : Tup α) : Imp A (constructTree v t : Prog α _) (Trees.constructTree v t) := by unfold constructTree Trees.constructTree; imp
macro_rules | `(tactic| imp0) => `(tactic| with_reducible exact imp_constructTree _ _)
theorem imp_constructForest (v : Nat) (t : List (Tup α)) : Imp A (constructForest v t : Prog α _) (Trees.constructForest v t) := by unfold constructForest Trees.constructForest; imp
macro_rules | `(tactic| imp0) => `(tactic| with_reducible exact imp_constructForest _ _)
theorem imp_treeFromTuple (t : Tup α) : Imp A (treeFromTuple t : Prog α _) (treeFromTupleA A t) := by unfold treeFromTuple treeFromTupleA; imp
macro_rules | `(tactic| imp0) => `(tactic| with_reducible exact imp_treeFromTuple _)
theorem imp_forestFromTuple (t : List (Tup α)) : Imp A (forestFromTuple t : Prog α _) (forestFromTupleA A t) := by unfold forestFromTuple forestFromTupleA; imp
macro_rules | `(tactic| imp0) => `(tactic| with_reducible exact imp_forestFromTuple _)
theorem imp_locate (a : Addr) (p : Path) : Imp A (locate a p : Prog α _) (Trees.locate a p) := by 
  induction p generalizing a with
  | nil => exact Imp.pure _
  | cons i p ih => unfold locate Trees.locate; imp; all_goals apply_assumption
macro_rules | `(tactic| imp0) => `(tactic| with_reducible exact imp_locate _ _)
theorem imp_readMany {f : Addr → Prog α β} {g : Addr → M α β} (h1 : ∀ a, Imp A (f a) (g a)) (l : List Addr) :
    Imp A (readMany f l) (Trees.readMany g l) := by
  induction l with
  | nil => exact Imp.pure _
  | cons a l ih => exact Imp.bind (h1 a) fun _ => Imp.bind ih fun _ => Imp.pure _
macro_rules | `(tactic| imp0) => `(tactic| with_reducible exact imp_driveVisits (imp_splittedNext simp_refSrc) _ _)
macro_rules | `(tactic| imp0) => `(tactic| with_reducible exact imp_readMany imp_dataRef _)

theorem imp_bfsRun (k : Nat) (a : Addr) : Imp A (bfsRun k a : Prog α _) (Trees.bfsRun k a) := by unfold bfsRun Trees.bfsRun; imp
macro_rules | `(tactic| imp0) => `(tactic| with_reducible exact imp_bfsRun _ _)
theorem imp_bfsChildrenRun (k : Nat) (a : Addr) : Imp A (bfsChildrenRun k a : Prog α _) (Trees.bfsChildrenRun k a) := by unfold bfsChildrenRun Trees.bfsChildrenRun; imp
macro_rules | `(tactic| imp0) => `(tactic| with_reducible exact imp_bfsChildrenRun _ _)
theorem imp_bfsMutRun (f : Nat → α → α) (k : Nat) (a : Addr) : Imp A (bfsMutRun f k a : Prog α _) (Trees.bfsMutRun f k a) := by unfold bfsMutRun Trees.bfsMutRun; imp
macro_rules | `(tactic| imp0) => `(tactic| with_reducible exact imp_bfsMutRun _ _ _)
theorem imp_bfsChildrenMutRun (f : Nat → α → α) (k : Nat) (a : Addr) : Imp A (bfsChildrenMutRun f k a : Prog α _) (Trees.bfsChildrenMutRun f k a) := by unfold bfsChildrenMutRun Trees.bfsChildrenMutRun; imp
macro_rules | `(tactic| imp0) => `(tactic| with_reducible exact imp_bfsChildrenMutRun _ _ _)
theorem imp_intoBfsTreeRun (k : Nat) (a : Addr) : Imp A (intoBfsTreeRun k a : Prog α _) (intoBfsTreeRunA A k a) := by unfold intoBfsTreeRun intoBfsTreeRunA; imp
macro_rules | `(tactic| imp0) => `(tactic| with_reducible exact imp_intoBfsTreeRun _ _)
theorem imp_intoBfsForestRun (k : Nat) (a : Addr) : Imp A (intoBfsForestRun k a : Prog α _) (intoBfsForestRunA A k a) := by unfold intoBfsForestRun intoBfsForestRunA; imp
macro_rules | `(tactic| imp0) => `(tactic| with_reducible exact imp_intoBfsForestRun _ _)

/-! ### Reading -/


/-- Programs that only read. -/
def RO : Prog α β → Prop
  | .ret _ => True
  | .fail _ => True
  | .acc a k => a.reads = true ∧ ∀ x, RO (k x)

theorem Acc.reads_same {a : Acc α} (ha : a.reads = true) (h : Heap α) :
    (∃ x, a.run A h = .ok x h) ∨ ∃ e, a.run A h = .err e h := by
  cases a with
  | ptr f a => cases f <;> (cases l : h.live a <;> simp [Acc.run, Fld.get, Trees.getPrev, Trees.getNext, Trees.getHead, Trees.getTail, Trees.getUp, rd, l] <;> exact ⟨_, rfl⟩)
  | size a => cases l : h.live a <;> simp [Acc.run, Trees.getSize, rd, l] <;> exact ⟨_, rfl⟩
  | data a => cases l : h.live a <;> simp [Acc.run, Trees.getData, rd, l] <;> exact ⟨_, rfl⟩
  | vecNode v i =>
    simp only [Acc.run, Trees.vecNode]
    cases h.vec v with
    | none => exact .inr ⟨_, rfl⟩
    | some nv => dsimp only; split <;> first | exact .inl ⟨_, rfl⟩ | exact .inr ⟨_, rfl⟩
  | getRef v =>
    simp only [Acc.run]
    cases h.vec v with
    | none => exact .inr ⟨_, rfl⟩
    | some nv => exact .inl ⟨_, rfl⟩
  | bound => exact .inl ⟨_, rfl⟩
  | setPtr _ _ _ => cases ha
  | setSize _ _ => cases ha
  | setData _ _ => cases ha
  | make _ => cases ha
  | rcDrop _ => cases ha
  | newVec _ => cases ha
  | setRef _ _ => cases ha
  | freeVec _ => cases ha
  | logDrop _ => cases ha

theorem RO.same {p : Prog α β} (hp : RO p) (h : Heap α) : (∃ x, p.run A h = .ok x h) ∨ ∃ e, p.run A h = .err e h := by
  induction p with
  | ret b => exact .inl ⟨_, rfl⟩
  | fail e => exact .inr ⟨_, rfl⟩
  | acc a k ih =>
    rcases Acc.reads_same (A := A) hp.1 h with ⟨x, e⟩ | ⟨x, e⟩
    · simp only [Prog.run, e, Res.bind]; exact ih x (hp.2 x)
    · simp only [Prog.run, e, Res.bind]; exact .inr ⟨_, rfl⟩

theorem RO.pure (b : β) : RO (Pure.pure b : Prog α β) := trivial
theorem RO.throw (e : Err) : RO (throw e : Prog α β) := trivial
theorem RO.bind {p : Prog α β} {f : β → Prog α γ} (h1 : RO p) (h2 : ∀ b, RO (f b)) : RO (p >>= f) := by
  show RO (p.bind f)
  induction p with
  | ret b => exact h2 b
  | fail e => trivial
  | acc a k ih => exact ⟨h1.1, fun x => ih x (h1.2 x)⟩
theorem RO.ite {P : Prop} [Decidable P] {p q : Prog α β} (h1 : P → RO p) (h2 : ¬ P → RO q) : RO (if P then p else q) := by
  split <;> rename_i h
  · exact h1 h
  · exact h2 h
theorem RO.access {a : Acc α} (ha : a.reads = true) : RO (access a) := ⟨ha, fun _ => trivial⟩

syntax "ro0" : tactic
syntax "ro1" : tactic
macro_rules | `(tactic| ro0) => `(tactic| assumption)
macro_rules | `(tactic| ro0) => `(tactic| exact RO.throw _)
macro_rules | `(tactic| ro0) => `(tactic| exact RO.pure _)
macro_rules | `(tactic| ro0) => `(tactic| exact RO.access rfl)
macro_rules | `(tactic| ro1) => `(tactic| split)
macro_rules | `(tactic| ro1) => `(tactic| (with_reducible refine RO.ite (fun _ => ?_) (fun _ => ?_)))
macro_rules | `(tactic| ro1) => `(tactic| (with_reducible refine RO.bind ?_ (fun _ => ?_)))
macro_rules | `(tactic| ro1) => `(tactic| ro0)
macro "ro" : tactic => `(tactic| repeat' ro1)

theorem ro_unwrap (o : Option β) : RO (unwrap o : Prog α β) := by unfold unwrap; ro
macro_rules | `(tactic| ro0) => `(tactic| exact ro_unwrap _)
theorem ro_dataRef (a : Addr) : RO (dataRef a : Prog α α) := by unfold dataRef; ro
macro_rules | `(tactic| ro0) => `(tactic| exact ro_dataRef _)
theorem ro_degree (a : Addr) : RO (degree a : Prog α _) := by unfold degree; ro
macro_rules | `(tactic| ro0) => `(tactic| exact ro_degree _)
theorem ro_isForest (a : Addr) : RO (isForest a : Prog α _) := by unfold isForest; ro
macro_rules | `(tactic| ro0) => `(tactic| exact ro_isForest _)
theorem ro_nodeCount (a : Addr) : RO (nodeCount a : Prog α _) := by unfold nodeCount; ro
macro_rules | `(tactic| ro0) => `(tactic| exact ro_nodeCount _)
theorem ro_hasNoChild (a : Addr) : RO (hasNoChild a : Prog α _) := by unfold hasNoChild; ro
macro_rules | `(tactic| ro0) => `(tactic| exact ro_hasNoChild _)
theorem ro_parentLoop (k : Nat) (a : Addr) : RO (parentLoop k a : Prog α _) := by
  induction k generalizing a <;> (unfold parentLoop; ro; try (all_goals apply_assumption))
theorem ro_parent (a : Addr) : RO (parent a : Prog α _) := RO.bind (RO.access rfl) fun _ => ro_parentLoop _ _
theorem ro_uncountedNext (o : Option Addr) : RO (uncountedNext o : Prog α _) := by unfold uncountedNext; ro
macro_rules | `(tactic| ro0) => `(tactic| exact ro_uncountedNext _)
theorem ro_iterNext (it : RawIter) : RO (iterNext it : Prog α _) := by unfold iterNext; ro
macro_rules | `(tactic| ro0) => `(tactic| exact ro_iterNext _)
theorem ro_iter (a : Addr) : RO (iter a : Prog α _) := by unfold iter; ro
macro_rules | `(tactic| ro0) => `(tactic| exact ro_iter _)
theorem ro_iterNth (k : Nat) (it : RawIter) : RO (iterNth k it : Prog α _) := by
  induction k generalizing it <;> (unfold iterNth; ro; try (all_goals apply_assumption))
macro_rules | `(tactic| ro0) => `(tactic| exact ro_iterNth _ _)
theorem ro_iterCollect (k : Nat) (it : RawIter) : RO (iterCollect k it : Prog α _) := by
  induction k generalizing it <;> (unfold iterCollect; ro; try (all_goals apply_assumption))
macro_rules | `(tactic| ro0) => `(tactic| exact ro_iterCollect _ _)
theorem ro_children (a : Addr) : RO (children a : Prog α _) := by unfold children; ro
macro_rules | `(tactic| ro0) => `(tactic| exact ro_children _)
theorem ro_locate (a : Addr) (p : Path) : RO (locate a p : Prog α _) := by
  induction p generalizing a with
  | nil => exact RO.pure _
  | cons i p ih => unfold locate; ro; all_goals apply_assumption
macro_rules | `(tactic| ro0) => `(tactic| exact ro_locate _ _)
theorem ro_readMany {f : Addr → Prog α β} (h1 : ∀ a, RO (f a)) (l : List Addr) : RO (readMany f l) := by
  induction l with
  | nil => exact RO.pure _
  | cons a l ih => exact RO.bind (h1 a) fun _ => RO.bind ih fun _ => RO.pure _

end Fine
end Trees
