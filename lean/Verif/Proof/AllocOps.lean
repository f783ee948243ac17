import Verif.Proof.Alloc
/-
Independence of the allocator for all the code behind the exclusive-ownership API.
-/
namespace Trees
set_option linter.unusedSimpArgs false
set_option linter.unusedVariables false
variable {α β γ δ κ σ : Type} {A : Alloc} {P : Prop}

theorem al_setPrevN (a : Addr) : ASim A P id (setPrev (A.addr a) none : M α _) (setPrev a none) := al_setPrev a none
theorem al_setPrevS (a b : Addr) : ASim A P id (setPrev (A.addr a) (some (A.addr b)) : M α _) (setPrev a (some b)) := al_setPrev a (some b)
theorem al_setNextN (a : Addr) : ASim A P id (setNext (A.addr a) none : M α _) (setNext a none) := al_setNext a none
theorem al_setNextS (a b : Addr) : ASim A P id (setNext (A.addr a) (some (A.addr b)) : M α _) (setNext a (some b)) := al_setNext a (some b)
theorem al_setHeadN (a : Addr) : ASim A P id (setHead (A.addr a) none : M α _) (setHead a none) := al_setHead a none
theorem al_setHeadS (a b : Addr) : ASim A P id (setHead (A.addr a) (some (A.addr b)) : M α _) (setHead a (some b)) := al_setHead a (some b)
theorem al_setTailN (a : Addr) : ASim A P id (setTail (A.addr a) none : M α _) (setTail a none) := al_setTail a none
theorem al_setTailS (a b : Addr) : ASim A P id (setTail (A.addr a) (some (A.addr b)) : M α _) (setTail a (some b)) := al_setTail a (some b)
theorem al_setUpN (a : Addr) : ASim A P id (setUp (A.addr a) none : M α _) (setUp a none) := al_setUp a none
theorem al_setUpS (a b : Addr) : ASim A P id (setUp (A.addr a) (some (A.addr b)) : M α _) (setUp a (some b)) := al_setUp a (some b)

/-- Closes goals about known programs. -/
syntax "al0" : tactic
/-- One step. -/
syntax "al1" : tactic
macro_rules | `(tactic| al0) => `(tactic| assumption)
macro_rules | `(tactic| al0) => `(tactic| with_reducible exact ASim.unwrapNone)
macro_rules | `(tactic| al0) => `(tactic| with_reducible exact ASim.unwrapSome _)
macro_rules | `(tactic| al0) => `(tactic| with_reducible exact ASim.throw _)
macro_rules | `(tactic| al0) => `(tactic| with_reducible exact al_getPrev _)
macro_rules | `(tactic| al0) => `(tactic| with_reducible exact al_setPrev _ _)
macro_rules | `(tactic| al0) => `(tactic| with_reducible exact al_setPrevN _)
macro_rules | `(tactic| al0) => `(tactic| with_reducible exact al_setPrevS _ _)
macro_rules | `(tactic| al0) => `(tactic| with_reducible exact al_getNext _)
macro_rules | `(tactic| al0) => `(tactic| with_reducible exact al_setNext _ _)
macro_rules | `(tactic| al0) => `(tactic| with_reducible exact al_setNextN _)
macro_rules | `(tactic| al0) => `(tactic| with_reducible exact al_setNextS _ _)
macro_rules | `(tactic| al0) => `(tactic| with_reducible exact al_getHead _)
macro_rules | `(tactic| al0) => `(tactic| with_reducible exact al_setHead _ _)
macro_rules | `(tactic| al0) => `(tactic| with_reducible exact al_setHeadN _)
macro_rules | `(tactic| al0) => `(tactic| with_reducible exact al_setHeadS _ _)
macro_rules | `(tactic| al0) => `(tactic| with_reducible exact al_getTail _)
macro_rules | `(tactic| al0) => `(tactic| with_reducible exact al_setTail _ _)
macro_rules | `(tactic| al0) => `(tactic| with_reducible exact al_setTailN _)
macro_rules | `(tactic| al0) => `(tactic| with_reducible exact al_setTailS _ _)
macro_rules | `(tactic| al0) => `(tactic| with_reducible exact al_getUp _)
macro_rules | `(tactic| al0) => `(tactic| with_reducible exact al_setUp _ _)
macro_rules | `(tactic| al0) => `(tactic| with_reducible exact al_setUpN _)
macro_rules | `(tactic| al0) => `(tactic| with_reducible exact al_setUpS _ _)
macro_rules | `(tactic| al0) => `(tactic| with_reducible exact al_getSize _)
macro_rules | `(tactic| al0) => `(tactic| with_reducible exact al_setSize _ _)
macro_rules | `(tactic| al0) => `(tactic| with_reducible exact al_rcDrop _)
macro_rules | `(tactic| al0) => `(tactic| with_reducible exact al_decrRef _)
macro_rules | `(tactic| al0) => `(tactic| with_reducible exact al_vecNode _ _)
macro_rules | `(tactic| al0) => `(tactic| with_reducible exact al_logDrop _)
macro_rules | `(tactic| al0) => `(tactic| with_reducible exact ASim.pureId _)
macro_rules | `(tactic| al1) => `(tactic| exact ASim.pure rfl)
macro_rules | `(tactic| al1) => `(tactic| (with_reducible refine ASim.bindOpt (c := _) ?_ ?_ (fun _ => ?_)); · (first | al0 | fail))
macro_rules | `(tactic| al1) => `(tactic| (with_reducible refine ASim.bindAddr ?_ (fun _ => ?_)); · (first | al0 | fail))
macro_rules | `(tactic| al1) => `(tactic| (with_reducible refine ASim.bindId ?_ (fun _ => ?_)); · (first | al0 | fail))
macro_rules | `(tactic| al1) => `(tactic| al0)

macro "al" : tactic => `(tactic| repeat' (first | al1 | dsimp only | split))
theorem al_hasNoChild (a : Addr) : ASim A P id (hasNoChild (A.addr a) : M α _) (hasNoChild a) := by unfold hasNoChild; al
theorem al_degree (a : Addr) : ASim A P id (degree (A.addr a) : M α _) (degree a) := by unfold degree; al
macro_rules | `(tactic| al0) => `(tactic| with_reducible exact al_hasNoChild _)
macro_rules | `(tactic| al0) => `(tactic| with_reducible exact al_degree _)
theorem al_isForest (a : Addr) : ASim A P id (isForest (A.addr a) : M α _) (isForest a) := by
  unfold isForest
  exact (al_getData a).bind fun d => .pure (by rw [Data.ren_isForest]; rfl)
macro_rules | `(tactic| al0) => `(tactic| with_reducible exact al_isForest _)
theorem al_dataRef (a : Addr) : ASim A P id (dataRef (A.addr a) : M α _) (dataRef a) := by
  unfold dataRef
  refine (al_getData a).bind fun d => ?_
  rw [Data.ren_val]
  cases d.val? with
  | none => exact .throw _
  | some b => exact .pure rfl
macro_rules | `(tactic| al0) => `(tactic| with_reducible exact al_dataRef _)
theorem al_dataMutSet (a : Addr) (d : α) : ASim A P id (dataMutSet (A.addr a) d) (dataMutSet a d) := by
  unfold dataMutSet
  refine (al_getData a).bind fun x => ?_
  cases x with
  | none => exact .throw _
  | scatteredNone o => exact .throw _
  | piledNone o => exact .throw _
  | scattered b o => exact (al_setData a (.scattered d o)).bindId fun _ => al_logDrop _
  | piled b o => exact (al_setData a (.piled d o)).bindId fun _ => al_logDrop _
theorem al_nodeCount (a : Addr) : ASim A P id (nodeCount (A.addr a) : M α _) (nodeCount a) := by unfold nodeCount; al
macro_rules | `(tactic| al0) => `(tactic| with_reducible exact al_nodeCount _)
theorem al_front (a : Addr) : ASim A P (Option.map A.addr) (front (A.addr a) : M α _) (front a) := al_getHead a
macro_rules | `(tactic| al0) => `(tactic| with_reducible exact al_front _)
theorem al_back (a : Addr) : ASim A P (Option.map A.addr) (back (A.addr a) : M α _) (back a) := al_getTail a
macro_rules | `(tactic| al0) => `(tactic| with_reducible exact al_back _)

/-- Rename the position of an iterator. -/
def RawIter.ren (A : Alloc) (it : RawIter) : RawIter := ⟨it.curr.map A.addr, it.len⟩

theorem al_iter (a : Addr) : ASim A P (RawIter.ren A) (iter (A.addr a) : M α _) (iter a) := by unfold iter; al
theorem al_uncountedNext (c : Option Addr) : ASim A P (fun q => (q.1.map A.addr, q.2.map A.addr)) (uncountedNext (c.map A.addr) : M α _)
    (uncountedNext c) := by
  unfold uncountedNext
  cases c with
  | none => exact .pure rfl
  | some c => exact (al_getNext c).bind fun n => ASim.pure (b' := (some c, n)) rfl
theorem al_rawNext (it : RawIter) : ASim A P (fun q => (q.1.map A.addr, q.2.ren A)) ((it.ren A).next : M α _) it.next := by
  unfold RawIter.next
  by_cases hn : it.len = 0
  · rw [if_pos hn, if_pos (show (it.ren A).len = 0 from hn)]; exact .pure rfl
  · rw [if_neg hn, if_neg (show ¬ (it.ren A).len = 0 from hn)]
    exact (al_uncountedNext it.curr).bind fun q => ASim.pure (b' := (q.1, (⟨q.2, it.len - 1⟩ : RawIter))) rfl

theorem ASim.bindIt {γ' δ' : Type} {g : δ' → γ'} {it : RawIter} {k : Option Addr × RawIter → M α γ'} {k' : Option Addr × RawIter → M α δ'}
    (h1 : ∀ i : RawIter, ASim A P g (k (none, i.ren A)) (k' (none, i)))
    (h2 : ∀ (a : Addr) (i : RawIter), ASim A P g (k (some (A.addr a), i.ren A)) (k' (some a, i))) :
    ASim A P g ((it.ren A).next >>= k) (it.next >>= k') :=
  (al_rawNext it).bind fun q => by
    obtain ⟨o, i⟩ := q
    cases o <;> simp [h1, h2]
macro_rules | `(tactic| al1) => `(tactic| with_reducible refine ASim.bindIt (fun _ => ?_) (fun _ _ => ?_))

theorem al_nth : ∀ (n : Nat) (it : RawIter), ASim A P (fun q => (q.1.map A.addr, q.2.ren A)) ((it.ren A).nth n : M α _) (it.nth n) := by
  intro n
  induction n with
  | zero => intro it; exact al_rawNext it
  | succ n ih => intro it; unfold RawIter.nth; al; exact ih _
theorem al_collect : ∀ (n : Nat) (it : RawIter), ASim A P (List.map A.addr) ((it.ren A).collect n : M α _) (it.collect n) := by
  intro n
  induction n with
  | zero => intro it; unfold RawIter.collect; al
  | succ n ih => intro it; unfold RawIter.collect; al; exact (ih _).bind fun _ => .pure rfl
theorem al_children (a : Addr) : ASim A P (List.map A.addr) (children (A.addr a) : M α _) (children a) := by
  unfold children; exact (al_iter a).bind fun it => al_collect it.len it
theorem al_locate : ∀ (p : Path) (a : Addr), ASim A P (Option.map A.addr) (locate (A.addr a) p : M α _) (locate a p) := by
  intro p
  induction p with
  | nil => intro a; unfold locate; exact .pure rfl
  | cons i p ih =>
    intro a; unfold locate
    refine (al_iter a).bind fun it => (al_nth i it).bind fun q => ?_
    obtain ⟨o, j⟩ := q
    cases o with
    | none => exact .pure rfl
    | some c => exact ih c
macro_rules | `(tactic| al0) => `(tactic| with_reducible exact al_locate _ _)

theorem al_connectNext (a b : Addr) : ASim A P id (connectNext (A.addr a) (A.addr b) : M α _) (connectNext a b) := by unfold connectNext; al
macro_rules | `(tactic| al0) => `(tactic| with_reducible exact al_connectNext _ _)
theorem al_incLoop (cnt : Nat) : ∀ (k : Nat) (o : Option Addr), ASim A P id (incLoop k (o.map A.addr) cnt : M α _) (incLoop k o cnt) := by
  intro k
  induction k with
  | zero => intro o; cases o <;> simp only [Option.map_none, Option.map_some] <;> unfold incLoop <;> al
  | succ k ih =>
    intro o; cases o <;> simp only [Option.map_none, Option.map_some] <;> unfold incLoop
    · al
    · refine (al_getSize _).bindId fun _ => (al_setSize _ _).bindId fun _ => (al_getUp _).bind fun o => ih o
theorem al_decLoop (cnt : Nat) : ∀ (k : Nat) (o : Option Addr), ASim A P id (decLoop k (o.map A.addr) cnt : M α _) (decLoop k o cnt) := by
  intro k
  induction k with
  | zero => intro o; cases o <;> simp only [Option.map_none, Option.map_some] <;> unfold decLoop <;> al
  | succ k ih =>
    intro o; cases o <;> simp only [Option.map_none, Option.map_some] <;> unfold decLoop
    · al
    · refine (al_getSize _).bindId fun _ => ?_
      split
      · exact .throw _
      · exact (al_setSize _ _).bindId fun _ => (al_getUp _).bind fun o => ih o
theorem al_incSizes (a : Addr) (d c : Nat) : ASim A P id (incSizes (A.addr a) d c : M α _) (incSizes a d c) := by
  unfold incSizes
  refine (al_getSize _).bindId fun _ => (al_setSize _ _).bindId fun _ => (al_getUp _).bind fun o => ?_
  exact .fuelled fun L H r => by rw [r.nextAddr]; exact al_incLoop _ _ _
macro_rules | `(tactic| al0) => `(tactic| with_reducible exact al_incSizes _ _ _)
theorem al_decSizes (a : Addr) (d c : Nat) : ASim A P id (decSizes (A.addr a) d c : M α _) (decSizes a d c) := by
  unfold decSizes
  refine (al_getSize _).bindId fun _ => ?_
  split
  · exact .throw _
  · refine (al_setSize _ _).bindId fun _ => (al_getUp _).bind fun o => ?_
    exact .fuelled fun L H r => by rw [r.nextAddr]; exact al_decLoop _ _ _
macro_rules | `(tactic| al0) => `(tactic| with_reducible exact al_decSizes _ _ _)
theorem al_treeFromNode (a : Addr) : ASim A P A.addr (treeFromNode (A.addr a) : M α _) (treeFromNode a) := by unfold treeFromNode; al
macro_rules | `(tactic| al0) => `(tactic| with_reducible exact al_treeFromNode _)

theorem al_dropNode (a : Addr) : ASim A P id (dropNode (A.addr a) : M α _) (dropNode a) := by
  unfold dropNode
  refine (al_getData a).bind fun x => (al_setData a .none).bindId fun _ => ?_
  cases x with
  | none => exact .pureId _
  | scatteredNone o => exact al_rcDrop _
  | piledNone o => exact al_decrRef _
  | scattered b o => exact (al_rcDrop _).bindId fun _ => al_logDrop _
  | piled b o => exact (al_decrRef _).bindId fun _ => al_logDrop _
macro_rules | `(tactic| al0) => `(tactic| with_reducible exact al_dropNode _)

theorem al_vecMakeNode (v : Nat) (par : Option Addr) (i : Nat) (d : Data α) (s : Size) :
    ASim A P A.addr (vecMakeNode (A.vec v) (par.map A.addr) i (d.ren A) s) (vecMakeNode v par i d s) := by
  unfold vecMakeNode
  refine (al_vecNode v i).bind fun a => (al_setUp _ _).bindId fun _ => (al_setSize _ _).bindId fun _ => (al_getData a).bind fun x => ?_
  refine (al_setData a d).bindId fun _ => ?_
  rw [Data.ren_val]
  cases x.val? with
  | none => exact .pure rfl
  | some b => exact (al_logDrop b).bindId fun _ => .pure rfl
theorem al_makePiledNode (v : Nat) (par : Option Addr) (i : Nat) (d : α) (s : Size) :
    ASim A P A.addr (makePiledNode (A.vec v) (par.map A.addr) i d s) (makePiledNode v par i d s) :=
  al_vecMakeNode v par i (.piled d v) s
theorem al_appendChild (v par child : Nat) (d : α) (s : Size) :
    ASim A P id (appendChild (A.vec v) par child d s) (appendChild v par child d s) := by
  unfold appendChild
  refine (al_vecNode _ _).bind fun p => (al_makePiledNode v (some p) child d s).bind fun c => ?_
  al
macro_rules | `(tactic| al0) => `(tactic| with_reducible exact al_appendChild _ _ _ _ _)

theorem al_pushFront (a t : Addr) : ASim A P id (pushFront (A.addr a) (A.addr t) : M α _) (pushFront a t) := by unfold pushFront; al
macro_rules | `(tactic| al0) => `(tactic| with_reducible exact al_pushFront _ _)
theorem al_pushBack (a t : Addr) : ASim A P id (pushBack (A.addr a) (A.addr t) : M α _) (pushBack a t) := by unfold pushBack; al
macro_rules | `(tactic| al0) => `(tactic| with_reducible exact al_pushBack _ _)
theorem al_popFront (a : Addr) : ASim A P (Option.map A.addr) (popFront (A.addr a) : M α _) (popFront a) := by unfold popFront; al
macro_rules | `(tactic| al0) => `(tactic| with_reducible exact al_popFront _)
theorem al_popBack (a : Addr) : ASim A P (Option.map A.addr) (popBack (A.addr a) : M α _) (popBack a) := by unfold popBack; al
macro_rules | `(tactic| al0) => `(tactic| with_reducible exact al_popBack _)
theorem al_dropLoop : ∀ (k : Nat) (a : Addr), ASim A P id (dropLoop k (A.addr a) : M α _) (dropLoop k a) := by
  intro k
  induction k with
  | zero => intro a; unfold dropLoop; al
  | succ k ih => intro a; unfold dropLoop; al; exact (ih _).bindId fun _ => ih _
theorem popFront_ub {a : Addr} {h : Heap α} (hl : h.live a = false) : popFront a h = .err .ub h := by
  simp [popFront, getSize, rd, hl]
theorem al_dropRoot (a : Addr) : ASim A P id (dropRoot (A.addr a) : M α _) (dropRoot a) :=
  ASim.fuelledSize (k := fun s => dropLoop (s.descendants + 1) (A.addr a)) (k' := fun s => dropLoop (s.descendants + 1) a)
    (fun s => al_dropLoop _ _) fun H s hl => ⟨H, by simp [dropLoop, popFront_ub hl]⟩
macro_rules | `(tactic| al0) => `(tactic| with_reducible exact al_dropRoot _)
theorem al_setUpLoop (par : Addr) : ∀ (k : Nat) (it : RawIter), ASim A P id (setUpLoop k (it.ren A) (A.addr par) : M α _) (setUpLoop k it par) := by
  intro k
  induction k with
  | zero => intro a; unfold setUpLoop; al
  | succ k ih => intro a; unfold setUpLoop; al; exact ih _
theorem al_forestSetUp (a t : Addr) : ASim A P id (forestSetUp (A.addr a) (A.addr t) : M α _) (forestSetUp a t) := by
  unfold forestSetUp; exact (al_iter a).bind fun it => al_setUpLoop _ _ it
macro_rules | `(tactic| al0) => `(tactic| with_reducible exact al_forestSetUp _ _)
theorem al_forestClear (a : Addr) : ASim A P id (forestClear (A.addr a) : M α _) (forestClear a) := by unfold forestClear; al
macro_rules | `(tactic| al0) => `(tactic| with_reducible exact al_forestClear _)
theorem al_prepend (a t : Addr) : ASim A P id (prepend (A.addr a) (A.addr t) : M α _) (prepend a t) := by unfold prepend; al
theorem al_append (a t : Addr) : ASim A P id (append (A.addr a) (A.addr t) : M α _) (append a t) := by unfold append; al
theorem al_insertPrevSib (a t : Addr) : ASim A P id (insertPrevSib (A.addr a) (A.addr t) : M α _) (insertPrevSib a t) := by unfold insertPrevSib; al
theorem al_insertNextSib (a t : Addr) : ASim A P id (insertNextSib (A.addr a) (A.addr t) : M α _) (insertNextSib a t) := by unfold insertNextSib; al
theorem al_detach (a : Addr) : ASim A P A.addr (detach (A.addr a) : M α _) (detach a) := by
  unfold detach
  repeat' (first | al1 | simp only [Option.isNone_none, Option.isNone_some, Bool.false_eq_true, if_true, if_false] | dsimp only | split)
theorem al_treeNew (d : α) : ASim A (¬ A.Bump) A.addr (treeNewA A d) (treeNew d) := al_makeNode fun n => rfl
theorem al_forestNew : ASim A (¬ A.Bump) A.addr (forestNewA A : M α _) forestNew := al_makeNode fun n => rfl
theorem al_treeIntoIter (a : Addr) : ASim A (¬ A.Bump) A.addr (treeIntoIterA A (A.addr a) : M α _) (treeIntoIter a) := by
  unfold treeIntoIterA treeIntoIter; exact al_forestNew.bind fun f => (al_pushBack f a).bindId fun _ => .pure rfl
theorem al_intoIterDropLoop : ∀ (k : Nat) (a : Addr), ASim A P id (intoIterDropLoop k (A.addr a) : M α _) (intoIterDropLoop k a) := by
  intro k
  induction k with
  | zero => intro a; unfold intoIterDropLoop; al
  | succ k ih => intro a; unfold intoIterDropLoop; al; exact ih _
theorem al_intoIterDrop (a : Addr) : ASim A P id (intoIterDrop (A.addr a) : M α _) (intoIterDrop a) := by
  refine ASim.bindId ?_ (fun _ => al_dropRoot a)
  exact ASim.fuelledSize (k := fun s => intoIterDropLoop (s.degree + 1) (A.addr a)) (k' := fun s => intoIterDropLoop (s.degree + 1) a)
    (fun s => al_intoIterDropLoop _ _) fun H s hl => ⟨H, by simp [intoIterDropLoop, popFront_ub hl]⟩
macro_rules | `(tactic| al0) => `(tactic| with_reducible exact al_intoIterDrop _)
theorem al_modifyData (a : Addr) (f : α → α) : ASim A P id (modifyData (A.addr a) f) (modifyData a f) := by
  unfold modifyData
  refine (al_getData a).bind fun x => ?_
  cases x with
  | none => exact .throw _
  | scatteredNone o => exact .throw _
  | piledNone o => exact .throw _
  | scattered b o => exact al_setData a (.scattered (f b) o)
  | piled b o => exact al_setData a (.piled (f b) o)
theorem al_intoData (a : Addr) : ASim A P id (intoData (A.addr a) : M α _) (intoData a) := by
  unfold intoData
  refine (al_getData a).bind fun x => (al_setData a .none).bindId fun _ => ?_
  cases x with
  | none => exact .throw _
  | scatteredNone o => exact .throw _
  | piledNone o => exact .throw _
  | scattered b o => exact (al_rcDrop o).bindId fun _ => .pure rfl
  | piled b o => exact (al_decrRef o).bindId fun _ => .pure rfl
theorem al_abandon (a : Addr) : ASim A (¬ A.Bump) (fun q => (A.addr q.1, A.addr q.2)) (abandonA A (A.addr a) : M α _) (abandon a) := by
  unfold abandonA abandon
  refine (al_getData a).bind fun x => ?_
  cases x with
  | none => exact .throw _
  | scatteredNone o => exact .throw _
  | piledNone o => exact .throw _
  | scattered b o => exact (al_setData a (.scatteredNone o)).bindId fun _ => (al_treeNew b).bind fun r => .pure rfl
  | piled b o => exact (al_setData a (.piledNone o)).bindId fun _ => (al_treeNew b).bind fun r => .pure rfl

end Trees
