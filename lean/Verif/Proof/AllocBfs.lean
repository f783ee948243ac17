import Verif.Proof.AllocOps
/-
Independence of the allocator for breadth-first iteration, for construction from it and from tuples, and for reading.
-/
namespace Trees
set_option linter.unusedSimpArgs false
set_option linter.unusedVariables false
variable {α β γ δ κ σ ι : Type} {A : Alloc}

/-- Related sources of breadth-first iteration. -/
structure Src.Al (A : Alloc) (fi : ι → ι) (fk : κ → κ) (fd : δ → δ) (S S' : Src α ι κ δ) : Prop where
  next : ∀ i, ASim A (¬ A.Bump) (fun q => (q.1.map fk, fi q.2)) (S.next (fi i)) (S'.next i)
  len : ∀ i, ASim A (¬ A.Bump) id (S.len (fi i)) (S'.len i)
  drop : ∀ i, ASim A (¬ A.Bump) id (S.drop (fi i)) (S'.drop i)
  split : ∀ k, ASim A (¬ A.Bump) (fun q => (fd q.1, fi q.2.1, q.2.2)) (S.split (fk k)) (S'.split k)

theorem al_refSrc : Src.Al A (RawIter.ren A) A.addr id (refSrc : Src α _ _ _) refSrc where
  next i := al_rawNext i
  len i := .pure rfl
  drop i := .pure rfl
  split a := (al_dataRef a).bind fun d => (al_iter a).bind fun it => (al_getSize a).bind fun s =>
    ASim.pure (b' := (d, it, s.descendants)) rfl
theorem al_mutSrc : Src.Al A (RawIter.ren A) A.addr A.addr (mutSrc : Src α _ _ _) mutSrc where
  next i := al_rawNext i
  len i := .pure rfl
  drop i := .pure rfl
  split a := (al_getSize a).bind fun s => (al_dataRef a).bind fun d => (al_iter a).bind fun it =>
    ASim.pure (b' := (a, it, s.descendants)) rfl
theorem al_ownSrc : Src.Al A A.addr A.addr id (ownSrcA A : Src α _ _ _) ownSrc where
  next f := (al_popFront f).bind fun o => ASim.pure (b' := (o, f)) rfl
  len f := al_degree f
  drop f := al_intoIterDrop f
  split t := (al_getSize t).bind fun s => (al_abandon t).bind fun q => (al_intoData q.1).bind fun d =>
    ASim.pure (b' := (d, q.2, s.descendants)) rfl

/-- Rename what a visit hands out. -/
def renVisit (fd : δ → δ) (o : Option (δ × Size)) : Option (δ × Size) := o.map fun v => (fd v.1, v.2)
theorem renVisit_id (o : Option (δ × Size)) : renVisit id o = o := by cases o <;> rfl

section
variable {fi : ι → ι} {fk : κ → κ} {fd : δ → δ} {S S' : Src α ι κ δ}

theorem Src.Al.splittedNext (hS : Src.Al A fi fk fd S S') : ∀ q, ASim A (¬ A.Bump) (fun r => (renVisit fd r.1, r.2.map fi))
    (splittedNext S (q.map fi)) (splittedNext S' q) := by
  intro q
  induction q with
  | nil => exact .pure rfl
  | cons it rest ih =>
    unfold Trees.splittedNext
    refine (hS.next it).bind fun o => ?_
    obtain ⟨o, it'⟩ := o
    cases o with
    | none => exact (hS.drop _).bindId fun _ => ih
    | some k =>
      refine (hS.split k).bind fun q => ?_
      obtain ⟨d, ch, n⟩ := q
      refine (hS.len ch).bindId fun m => ?_
      exact ASim.pure (b' := (some (d, (⟨m, n⟩ : Size)), it' :: rest ++ [ch])) (by simp [renVisit])

theorem Src.Al.dropIters (hS : Src.Al A fi fk fd S S') : ∀ q, ASim A (¬ A.Bump) id (dropIters S (q.map fi)) (dropIters S' q) := by
  intro q
  induction q with
  | nil => exact .pureId _
  | cons it rest ih => exact (hS.drop it).bindId fun _ => ih
end

section
variable {fs : σ → σ} {fd : δ → δ} {nxt nxt' : σ → M α (Option (δ × Size) × σ)}

theorem al_mapNext {f : Nat → δ → κ} (hf : ∀ i d, f i (fd d) = f i d)
    (hn : ∀ s, ASim A (¬ A.Bump) (fun r => (renVisit fd r.1, fs r.2)) (nxt (fs s)) (nxt' s)) (s : σ × Nat) :
    ASim A (¬ A.Bump) (fun r => (r.1, (fs r.2.1, r.2.2))) (mapNext f nxt (fs s.1, s.2)) (mapNext f nxt' s) := by
  unfold mapNext
  obtain ⟨s, i⟩ := s
  refine (hn s).bind fun q => ?_
  obtain ⟨o, t⟩ := q
  cases o with
  | none => exact ASim.pure (b' := (none, (t, i))) rfl
  | some v => exact ASim.pure (b' := (some (f i v.1, v.2), (t, i + 1))) (by simp [hf, renVisit])

theorem al_driveVisits (hn : ∀ s, ASim A (¬ A.Bump) (fun r => (renVisit fd r.1, fs r.2)) (nxt (fs s)) (nxt' s)) : ∀ (k : Nat) (s : σ),
    ASim A (¬ A.Bump) (fun r => (r.1.map (renVisit fd), fs r.2)) (driveVisits nxt k (fs s)) (driveVisits nxt' k s) := by
  intro k
  induction k with
  | zero => intro s; exact .pure rfl
  | succ k ih =>
    intro s
    unfold driveVisits
    exact (hn s).bind fun q => (ih q.2).bind fun p => ASim.pure (b' := (q.1 :: p.1, p.2)) rfl
end

theorem al_fillInner (v : Nat) : ∀ (k par child : Nat), ASim A (¬ A.Bump) id (fillInner (A.vec v) k par child : M α _) (fillInner v k par child) := by
  intro k
  induction k with
  | zero => intro a b; unfold fillInner; al
  | succ k ih => intro a b; unfold fillInner; al; exact ih _ _

section
variable {fs : σ → σ} {nxt nxt' : σ → M α (Option (α × Size) × σ)}

theorem al_fillLoop (hn : ∀ s, ASim A (¬ A.Bump) (fun r => (r.1, fs r.2)) (nxt (fs s)) (nxt' s)) (v : Nat) :
    ∀ (k : Nat) (s : σ) (par child remains : Nat),
      ASim A (¬ A.Bump) fs (fillLoop nxt (A.vec v) k (fs s) par child remains) (fillLoop nxt' v k s par child remains) := by
  intro k
  induction k with
  | zero => intro s a b c; exact .throw _
  | succ k ih =>
    intro s a b c
    unfold fillLoop
    refine (hn s).bind fun q => ?_
    obtain ⟨o, t⟩ := q
    cases o with
    | none => exact .pure rfl
    | some w =>
      obtain ⟨d, sz⟩ := w
      dsimp only
      refine (al_appendChild v _ _ d _).bindId fun _ => ?_
      split
      · exact .throw _
      · split
        · exact (al_fillInner _ _ _ _).bindId fun _ => ih _ _ _ _
        · exact ih _ _ _ _

variable {drp drp' : σ → M α Unit}

theorem al_treeFromBfs (hn : ∀ s, ASim A (¬ A.Bump) (fun r => (r.1, fs r.2)) (nxt (fs s)) (nxt' s))
    (hd : ∀ s, ASim A (¬ A.Bump) id (drp (fs s)) (drp' s)) (s : σ) :
    ASim A (¬ A.Bump) A.addr (treeFromBfsA A nxt drp (fs s)) (treeFromBfs nxt' drp' s) := by
  unfold treeFromBfsA treeFromBfs
  refine (hn s).bind fun q => ?_
  obtain ⟨o, t⟩ := q
  dsimp only
  refine ASim.bindId (c := unwrap o) (c' := unwrap o) (by cases o; exact .throw _; exact .pureId _) fun q => ?_
  obtain ⟨d, sz⟩ := q
  refine (al_newVec _).bind fun v => ?_
  refine (al_makePiledNode v none _ d _).bind fun _ => (al_fillLoop hn v _ _ _ _ _).bind fun s2 => ?_
  exact (al_vecNode _ _).bind fun _ => (al_treeFromNode _).bind fun _ => (hd _).bindId fun _ => .pure rfl

theorem al_forestFromBfs (hn : ∀ s, ASim A (¬ A.Bump) (fun r => (r.1, fs r.2)) (nxt (fs s)) (nxt' s))
    (hd : ∀ s, ASim A (¬ A.Bump) id (drp (fs s)) (drp' s)) (s : σ) (sz : Size) :
    ASim A (¬ A.Bump) A.addr (forestFromBfsA A nxt drp (fs s) sz) (forestFromBfs nxt' drp' s sz) := by
  unfold forestFromBfsA forestFromBfs
  refine (al_newVec _).bind fun v => ?_
  refine (al_vecMakeNode v none _ (.piledNone v) _).bind fun _ => (al_fillLoop hn v _ _ _ _ _).bind fun s2 => ?_
  exact (al_vecNode _ _).bind fun _ => (hd _).bindId fun _ => .pure rfl
end

theorem al_bfsChildrenStart (a : Addr) : ASim A (¬ A.Bump) (List.map (RawIter.ren A)) (bfsChildrenStart (A.addr a) : M α _) (bfsChildrenStart a) :=
  (al_iter a).bind fun it => ASim.pure (b' := [it]) rfl

section
variable {fi : ι → ι} {fk : κ → κ} {S S' : Src α ι κ α} (hS : Src.Al A fi fk id S S') (f : Nat → α → α)
include hS

theorem al_mapSplit (s : List ι × Nat) : ASim A (¬ A.Bump) (fun r => (r.1, (r.2.1.map fi, r.2.2)))
    (mapNext f (splittedNext S) (s.1.map fi, s.2)) (mapNext f (splittedNext S') s) :=
  al_mapNext (fs := List.map fi) (fd := id) (fun _ _ => rfl) hS.splittedNext s
end

theorem al_mapBfs (f : Nat → α → α) (a : Addr) : ASim A (¬ A.Bump) A.addr (mapBfsA A f (A.addr a)) (mapBfs f a) :=
  al_treeFromBfs (fs := fun s => (s.1.map (RawIter.ren A), s.2)) (drp := fun s => dropIters refSrc s.1)
    (drp' := fun s => dropIters refSrc s.1) (fun s => al_mapSplit al_refSrc f s) (fun s => al_refSrc.dropIters s.1)
    (bfsStart a, 0)
theorem al_mapBfsForest (f : Nat → α → α) (a : Addr) : ASim A (¬ A.Bump) A.addr (mapBfsForestA A f (A.addr a)) (mapBfsForest f a) := by
  unfold mapBfsForestA mapBfsForest
  refine (al_bfsChildrenStart a).bind fun s => (al_getSize a).bindId fun sz => ?_
  exact al_forestFromBfs (fs := fun s => (s.1.map (RawIter.ren A), s.2)) (drp := fun s => dropIters refSrc s.1)
    (drp' := fun s => dropIters refSrc s.1) (fun s => al_mapSplit al_refSrc f s)
    (fun s => al_refSrc.dropIters s.1) (s, 0) sz
theorem al_rebuildTree (f : Nat → α → α) (a : Addr) : ASim A (¬ A.Bump) A.addr (rebuildTreeA A f (A.addr a)) (rebuildTree f a) := by
  unfold rebuildTreeA rebuildTree
  refine (al_treeIntoIter a).bind fun it => ?_
  exact al_treeFromBfs (fs := fun s => (s.1.map A.addr, s.2)) (drp := fun s => dropIters (ownSrcA A) s.1)
    (drp' := fun s => dropIters ownSrc s.1) (fun s => al_mapSplit al_ownSrc f s)
    (fun s => al_ownSrc.dropIters s.1) ([it], 0)
theorem al_rebuildForest (f : Nat → α → α) (a : Addr) : ASim A (¬ A.Bump) A.addr (rebuildForestA A f (A.addr a)) (rebuildForest f a) := by
  unfold rebuildForestA rebuildForest
  refine (al_getSize a).bindId fun sz => ?_
  exact al_forestFromBfs (fs := fun s => (s.1.map A.addr, s.2)) (drp := fun s => dropIters (ownSrcA A) s.1)
    (drp' := fun s => dropIters ownSrc s.1) (fun s => al_mapSplit al_ownSrc f s)
    (fun s => al_ownSrc.dropIters s.1) ([a], 0) sz

theorem map_renVisit_id (l : List (Option (δ × Size))) : l.map (renVisit id) = l := by
  induction l with
  | nil => rfl
  | cons o l ih => simp only [List.map_cons, ih, renVisit_id]

theorem al_intoBfsDrive (k : Nat) (a : Addr) : ASim A (¬ A.Bump) id (intoBfsDriveA A k (A.addr a) : M α _) (intoBfsDrive k a) := by
  unfold intoBfsDriveA intoBfsDrive
  refine (al_driveVisits (fs := List.map A.addr) al_ownSrc.splittedNext k [a]).bind fun q => ?_
  refine (al_ownSrc.dropIters q.2).bindId fun _ => .pure ?_
  exact map_renVisit_id q.1

theorem al_driveMut (f : Nat → α → α) : ∀ (k i : Nat) (s : List RawIter),
    ASim A (¬ A.Bump) id (driveMut f k i (s.map (RawIter.ren A))) (driveMut f k i s) := by
  intro k
  induction k with
  | zero => intro i s; exact .pureId _
  | succ k ih =>
    intro i s
    unfold driveMut
    refine (al_mutSrc.splittedNext s).bind fun q => ?_
    obtain ⟨o, t⟩ := q
    cases o with
    | none => exact (ih _ _).bindId fun _ => .pureId _
    | some w =>
      obtain ⟨a, sz⟩ := w
      exact (al_dataRef a).bindId fun d => (al_modifyData a (f i)).bindId fun _ => (ih _ _).bindId fun _ => .pureId _

theorem al_bfsRun (k : Nat) (a : Addr) : ASim A (¬ A.Bump) id (bfsRun k (A.addr a) : M α _) (bfsRun k a) := by
  unfold bfsRun
  exact (al_getSize a).bindId fun s => (al_driveVisits (fs := List.map (RawIter.ren A)) al_refSrc.splittedNext k (bfsStart a)).bind fun q =>
    .pure (by simp only [map_renVisit_id]; rfl)
theorem al_bfsChildrenRun (k : Nat) (a : Addr) : ASim A (¬ A.Bump) id (bfsChildrenRun k (A.addr a) : M α _) (bfsChildrenRun k a) := by
  unfold bfsChildrenRun
  exact (al_bfsChildrenStart a).bind fun s => (al_getSize a).bindId fun _ =>
    (al_driveVisits (fs := List.map (RawIter.ren A)) al_refSrc.splittedNext k s).bind fun q =>
    .pure (by simp only [map_renVisit_id]; rfl)
theorem al_bfsMutRun (f : Nat → α → α) (k : Nat) (a : Addr) : ASim A (¬ A.Bump) id (bfsMutRun f k (A.addr a)) (bfsMutRun f k a) := by
  unfold bfsMutRun
  exact (al_getSize a).bindId fun s => (al_driveMut f k 0 (bfsStart a)).bindId fun q => .pureId _
theorem al_bfsChildrenMutRun (f : Nat → α → α) (k : Nat) (a : Addr) :
    ASim A (¬ A.Bump) id (bfsChildrenMutRun f k (A.addr a)) (bfsChildrenMutRun f k a) := by
  unfold bfsChildrenMutRun
  exact (al_getSize a).bindId fun s => (al_bfsChildrenStart a).bind fun s => (al_driveMut f k 0 s).bindId fun q => .pureId _
theorem al_intoBfsTreeRun (k : Nat) (a : Addr) : ASim A (¬ A.Bump) id (intoBfsTreeRunA A k (A.addr a) : M α _) (intoBfsTreeRun k a) := by
  unfold intoBfsTreeRunA intoBfsTreeRun
  exact (al_getSize a).bindId fun _ => (al_treeIntoIter a).bind fun it => (al_intoBfsDrive k it).bindId fun _ => .pureId _
theorem al_intoBfsForestRun (k : Nat) (a : Addr) : ASim A (¬ A.Bump) id (intoBfsForestRunA A k (A.addr a) : M α _) (intoBfsForestRun k a) := by
  unfold intoBfsForestRunA intoBfsForestRun
  exact (al_getSize a).bindId fun _ => (al_intoBfsDrive k a).bindId fun _ => .pureId _

/-! ### Tuples -/

theorem al_idx (xs : List Nat) (i : Nat) : ASim A (¬ A.Bump) id (idx xs i : M α _) (idx xs i) := by unfold idx; al
theorem al_bump (xs : List Nat) (i : Nat) : ASim A (¬ A.Bump) id (bump xs i : M α _) (bump xs i) := by unfold bump; al
macro_rules | `(tactic| al0) => `(tactic| with_reducible exact al_idx _ _)
macro_rules | `(tactic| al0) => `(tactic| with_reducible exact al_bump _ _)
theorem al_placeVisit (g : Bool) (v : Nat) (c : Cursor) (e : Visit α) (s : Size) :
    ASim A (¬ A.Bump) id (placeVisit g (A.vec v) c e s) (placeVisit g v c e s) := by unfold placeVisit; cases e <;> al
theorem al_placeAll (g : Bool) (v : Nat) : ∀ (ws : List (Visit α × Size)) (c : Cursor),
    ASim A (¬ A.Bump) id (placeAll g (A.vec v) c ws) (placeAll g v c ws) := by
  intro ws
  induction ws with
  | nil => intro c; exact .pureId _
  | cons e ws ih => intro c; exact (al_placeVisit g v c e.1 e.2).bindId fun _ => ih _
theorem al_constructTree (v : Nat) (t : Tup α) : ASim A (¬ A.Bump) id (constructTree (A.vec v) t) (constructTree v t) := by
  unfold constructTree
  cases t.preorderWithSizeHint with
  | nil => exact .pureId _
  | cons q rest =>
    obtain ⟨e, s⟩ := q
    dsimp only
    cases e.data? with
    | none => exact .throw _
    | some d => exact (al_makePiledNode v none _ d _).bind fun _ => (al_placeAll _ v _ _).bindId fun _ => .pureId _
theorem al_treeFromTuple (t : Tup α) : ASim A (¬ A.Bump) A.addr (treeFromTupleA A t) (treeFromTuple t) := by
  unfold treeFromTupleA treeFromTuple
  exact (al_newVec _).bind fun v => (al_constructTree v t).bindId fun _ => (al_vecNode _ _).bind fun _ => al_treeFromNode _
theorem al_forestFromTuple (ts : List (Tup α)) : ASim A (¬ A.Bump) A.addr (forestFromTupleA A ts) (forestFromTuple ts) := by
  unfold forestFromTupleA forestFromTuple
  refine (al_newVec _).bind fun v => ASim.bindId ?_ fun _ => al_vecNode _ _
  unfold constructForest
  exact (al_vecMakeNode v none _ (.piledNone v) _).bind fun _ => (al_placeAll _ v _ _).bindId fun _ => .pureId _

/-! ### Reading -/

variable {P : Prop}
theorem al_readMany {f f' : Addr → M α γ} (hf : ∀ a, ASim A P id (f (A.addr a)) (f' a)) :
    ∀ as, ASim A P id (readMany f (as.map A.addr)) (readMany f' as) := by
  intro as
  induction as with
  | nil => exact .pureId _
  | cons a as ih => exact (hf a).bindId fun _ => ih.bindId fun _ => .pureId _
theorem al_readTree : ∀ (k : Nat) (a : Addr), ASim A P id (readTree k (A.addr a) : M α _) (readTree k a) := by
  intro k
  induction k with
  | zero => intro a; exact .throw _
  | succ k ih =>
    intro a; unfold readTree
    exact (al_dataRef a).bindId fun _ => (al_children a).bind fun cs => (al_readMany ih cs).bindId fun _ => .pureId _
theorem al_readKids (a : Addr) : ASim A P id (readKids (A.addr a) : M α _) (readKids a) := by
  unfold readKids
  refine ASim.fuelledSize (k := fun s => do let cs ← children (A.addr a); readMany (readTree (s.descendants + 1)) cs)
    (k' := fun s => do let cs ← children a; readMany (readTree (s.descendants + 1)) cs)
    (fun s => (al_children a).bind fun cs => al_readMany (al_readTree _) cs) fun H s hl => ⟨H, ?_⟩
  simp [children, iter, getHead, rd, hl]

/-- Rename a handle. -/
def Handle.ren (A : Alloc) : Handle → Handle
  | .tree r => .tree (A.addr r)
  | .forest r => .forest (A.addr r)
  | .iter r => .iter (A.addr r)

theorem Handle.ren_isIter (hd : Handle) : (hd.ren A).isIter = hd.isIter := by cases hd <;> rfl
theorem Handle.ren_addr (hd : Handle) : (hd.ren A).addr = A.addr hd.addr := by cases hd <;> rfl

theorem al_readHandle (hd : Handle) : ASim A P id (readHandle (hd.ren A) : M α _) (readHandle hd) := by
  cases hd with
  | forest r => exact (al_readKids r).bindId fun _ => .pureId _
  | iter r => exact (al_readKids r).bindId fun _ => .pureId _
  | tree r =>
    refine ASim.bindId ?_ fun _ => .pureId _
    exact ASim.fuelledSize (k := fun s => readTree (s.descendants + 1) (A.addr r)) (k' := fun s => readTree (s.descendants + 1) r)
      (fun s => al_readTree _ _) fun H s hl => ⟨H, by simp [readTree, dataRef, getData, rd, hl]⟩

end Trees
