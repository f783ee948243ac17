import Verif.Proof.Nat
/-
Naturality of all the code behind the exclusive-ownership API.
-/
namespace Trees
set_option linter.unusedSimpArgs false
set_option linter.unusedVariables false
variable {α β γ δ κ σ : Type} {C : NCtx β α}

/-- One step of a naturality proof. -/
syntax "nat1" : tactic
macro_rules | `(tactic| nat1) => `(tactic| assumption)
macro_rules | `(tactic| nat1) => `(tactic| split)
macro_rules | `(tactic| nat1) => `(tactic| with_reducible refine LSim.mapEq ?_)
macro_rules | `(tactic| nat1) => `(tactic| with_reducible refine LSim.bindEq ?_ (fun _ => ?_))
macro_rules | `(tactic| nat1) => `(tactic| with_reducible exact LSim.unwrapEq _)
macro_rules | `(tactic| nat1) => `(tactic| with_reducible exact LSim.throw _)
macro_rules | `(tactic| nat1) => `(tactic| with_reducible exact LSim.pureEq _)
macro_rules | `(tactic| nat1) => `(tactic| with_reducible exact nat_getPrev _)
macro_rules | `(tactic| nat1) => `(tactic| with_reducible exact nat_getNext _)
macro_rules | `(tactic| nat1) => `(tactic| with_reducible exact nat_getHead _)
macro_rules | `(tactic| nat1) => `(tactic| with_reducible exact nat_getTail _)
macro_rules | `(tactic| nat1) => `(tactic| with_reducible exact nat_getUp _)
macro_rules | `(tactic| nat1) => `(tactic| with_reducible exact nat_getSize _)
macro_rules | `(tactic| nat1) => `(tactic| with_reducible exact nat_setPrev _ _)
macro_rules | `(tactic| nat1) => `(tactic| with_reducible exact nat_setNext _ _)
macro_rules | `(tactic| nat1) => `(tactic| with_reducible exact nat_setHead _ _)
macro_rules | `(tactic| nat1) => `(tactic| with_reducible exact nat_setTail _ _)
macro_rules | `(tactic| nat1) => `(tactic| with_reducible exact nat_setUp _ _)
macro_rules | `(tactic| nat1) => `(tactic| with_reducible exact nat_setSize _ _)
macro_rules | `(tactic| nat1) => `(tactic| with_reducible exact nat_rcDrop _)
macro_rules | `(tactic| nat1) => `(tactic| with_reducible exact nat_decrRef _)
macro_rules | `(tactic| nat1) => `(tactic| with_reducible exact nat_vecNodeEq _ _)

macro "nat" : tactic => `(tactic| repeat' (first | nat1 | (dsimp only; nat1)))

theorem nat_hasNoChild (a : Addr) : LSim C Eq (hasNoChild a) (hasNoChild a) := by unfold hasNoChild; nat
macro_rules | `(tactic| nat1) => `(tactic| with_reducible exact nat_hasNoChild _)
theorem nat_degree (a : Addr) : LSim C Eq (degree a) (degree a) := by unfold degree; nat
macro_rules | `(tactic| nat1) => `(tactic| with_reducible exact nat_degree _)
theorem nat_isForest (a : Addr) : LSim C Eq (isForest a) (isForest a) := by
  unfold isForest
  exact (nat_getData a).bind fun d d' h => .pure (by rw [← h.1, Data.mapD_isForest])
macro_rules | `(tactic| nat1) => `(tactic| with_reducible exact nat_isForest _)

/-- Related items read from the node at `a`. -/
def IRel (C : NCtx β α) (a : Addr) (d : β) (d' : α) : Prop := C.g d = d' ∧ C.P a d

theorem nat_dataRef (a : Addr) : LSim C (IRel C a) (dataRef a) (dataRef a) := by
  unfold dataRef
  refine (nat_getData a).bind fun d d' h => ?_
  rw [← h.1, Data.mapD_val]
  cases hd : d.val? with
  | none => exact .throw _
  | some b => exact .pure ⟨rfl, h.2 b hd⟩

theorem nat_dataMutSet {a : Addr} {d : β} {d' : α} (h : IRel C a d d') : LSim C Eq (dataMutSet a d) (dataMutSet a d') := by
  unfold dataMutSet
  refine (nat_getData a).bind fun x x' hx => ?_
  obtain ⟨rfl, hx⟩ := hx
  obtain ⟨rfl, h⟩ := h
  cases x with
  | none => exact .throw _
  | scatteredNone o => exact .throw _
  | piledNone o => exact .throw _
  | scattered b o =>
    refine (nat_setData ⟨rfl, ?_⟩).bindEq fun _ => nat_logDrop rfl
    intro y hy; obtain rfl := Option.some.inj hy; exact h
  | piled b o =>
    refine (nat_setData ⟨rfl, ?_⟩).bindEq fun _ => nat_logDrop rfl
    intro y hy; obtain rfl := Option.some.inj hy; exact h

theorem nat_nodeCount (a : Addr) : LSim C Eq (nodeCount a) (nodeCount a) := by unfold nodeCount; nat
macro_rules | `(tactic| nat1) => `(tactic| with_reducible exact nat_nodeCount _)
theorem nat_front (a : Addr) : LSim C Eq (front a) (front a) := nat_getHead a
macro_rules | `(tactic| nat1) => `(tactic| with_reducible exact nat_front _)
theorem nat_back (a : Addr) : LSim C Eq (back a) (back a) := nat_getTail a
macro_rules | `(tactic| nat1) => `(tactic| with_reducible exact nat_back _)
theorem nat_iter (a : Addr) : LSim C Eq (iter a) (iter a) := by unfold iter; nat
macro_rules | `(tactic| nat1) => `(tactic| with_reducible exact nat_iter _)
theorem nat_uncountedNext (a : Option Addr) : LSim C Eq (uncountedNext a) (uncountedNext a) := by unfold uncountedNext; nat
macro_rules | `(tactic| nat1) => `(tactic| with_reducible exact nat_uncountedNext _)
theorem nat_rawNext (it : RawIter) : LSim C Eq (it.next) (it.next) := by unfold RawIter.next; nat
macro_rules | `(tactic| nat1) => `(tactic| with_reducible exact nat_rawNext _)
theorem nat_nth : ∀ (n : Nat) (it : RawIter), LSim C Eq (it.nth n) (it.nth n) := by
  intro n
  induction n with
  | zero => intro it; unfold RawIter.nth; nat
  | succ n ih => intro it; unfold RawIter.nth; nat; exact ih _
macro_rules | `(tactic| nat1) => `(tactic| with_reducible exact nat_nth _ _)
theorem nat_collect : ∀ (n : Nat) (it : RawIter), LSim C Eq (it.collect n) (it.collect n) := by
  intro n
  induction n with
  | zero => intro it; unfold RawIter.collect; nat
  | succ n ih => intro it; unfold RawIter.collect; nat; exact ih _
macro_rules | `(tactic| nat1) => `(tactic| with_reducible exact nat_collect _ _)
theorem nat_children (a : Addr) : LSim C Eq (children a) (children a) := by unfold children; nat
macro_rules | `(tactic| nat1) => `(tactic| with_reducible exact nat_children _)
theorem nat_locate : ∀ (p : Path) (a : Addr), LSim C Eq (locate a p) (locate a p) := by
  intro p
  induction p with
  | nil => intro a; unfold locate; nat
  | cons i p ih => intro a; unfold locate; nat; exact ih _
macro_rules | `(tactic| nat1) => `(tactic| with_reducible exact nat_locate _ _)

theorem nat_connectNext (a b : Addr) : LSim C Eq (connectNext a b) (connectNext a b) := by unfold connectNext; nat
macro_rules | `(tactic| nat1) => `(tactic| with_reducible exact nat_connectNext _ _)
theorem nat_incLoop (cnt : Nat) : ∀ (k : Nat) (o : Option Addr), LSim C Eq (incLoop k o cnt) (incLoop k o cnt) := by
  intro k
  induction k with
  | zero => intro o; cases o <;> unfold incLoop <;> nat
  | succ k ih => intro o; cases o <;> unfold incLoop <;> nat; exact ih _
theorem nat_decLoop (cnt : Nat) : ∀ (k : Nat) (o : Option Addr), LSim C Eq (decLoop k o cnt) (decLoop k o cnt) := by
  intro k
  induction k with
  | zero => intro o; cases o <;> unfold decLoop <;> nat
  | succ k ih => intro o; cases o <;> unfold decLoop <;> nat; exact ih _
theorem nat_incFuel (o : Option Addr) (cnt : Nat) : LSim C Eq (M.fuelled fun h => incLoop h.nextAddr o cnt : M β Unit)
    (M.fuelled fun h => incLoop h.nextAddr o cnt : M α Unit) := .fuelled fun L H r => by rw [r.nextAddr]; exact nat_incLoop _ _ _
macro_rules | `(tactic| nat1) => `(tactic| with_reducible exact nat_incFuel _ _)
theorem nat_decFuel (o : Option Addr) (cnt : Nat) : LSim C Eq (M.fuelled fun h => decLoop h.nextAddr o cnt : M β Unit)
    (M.fuelled fun h => decLoop h.nextAddr o cnt : M α Unit) := .fuelled fun L H r => by rw [r.nextAddr]; exact nat_decLoop _ _ _
macro_rules | `(tactic| nat1) => `(tactic| with_reducible exact nat_decFuel _ _)
theorem nat_incSizes (a : Addr) (d c : Nat) : LSim C Eq (incSizes a d c) (incSizes a d c) := by unfold incSizes; nat
macro_rules | `(tactic| nat1) => `(tactic| with_reducible exact nat_incSizes _ _ _)
theorem nat_decSizes (a : Addr) (d c : Nat) : LSim C Eq (decSizes a d c) (decSizes a d c) := by unfold decSizes; nat
macro_rules | `(tactic| nat1) => `(tactic| with_reducible exact nat_decSizes _ _ _)
theorem nat_treeFromNode (a : Addr) : LSim C Eq (treeFromNode a) (treeFromNode a) := by unfold treeFromNode; nat
macro_rules | `(tactic| nat1) => `(tactic| with_reducible exact nat_treeFromNode _)

theorem drel_none (a : Addr) : DRel C a .none .none := ⟨rfl, by simp [Data.val?]⟩

theorem nat_dropNode (a : Addr) : LSim C Eq (dropNode a) (dropNode a) := by
  unfold dropNode
  refine (nat_getData a).bind fun x x' hx => ?_
  obtain ⟨rfl, hx⟩ := hx
  refine (nat_setData (drel_none a)).bindEq fun _ => ?_
  cases x with
  | none => exact .pureEq _
  | scatteredNone o => exact nat_rcDrop _
  | piledNone o => exact nat_decrRef _
  | scattered b o => exact (nat_rcDrop _).bindEq fun _ => nat_logDrop rfl
  | piled b o => exact (nat_decrRef _).bindEq fun _ => nat_logDrop rfl
macro_rules | `(tactic| nat1) => `(tactic| with_reducible exact nat_dropNode _)

/-- Related data fields to be stored in new nodes. -/
def VRel (C : NCtx β α) (d : Data β) (d' : Data α) : Prop := d.mapD C.g = d' ∧ ∀ b, d.val? = some b → C.V b

theorem nat_vecMakeNode {v : Nat} (hv : C.v0 ≤ v) (par : Option Addr) (i : Nat) {d : Data β} {d' : Data α}
    (h : VRel C d d') (s : Size) : LSim C Eq (vecMakeNode v par i d s) (vecMakeNode v par i d' s) := by
  unfold vecMakeNode
  refine (nat_vecNode v i).bind fun a a' ha => ?_
  obtain ⟨rfl, ha⟩ := ha
  refine (nat_setUp _ _).bindEq fun _ => (nat_setSize _ _).bindEq fun _ => (nat_getData a).bind fun x x' hx => ?_
  refine (nat_setData (a := a) ⟨h.1, fun b hb => C.new a b (ha hv) (h.2 b hb)⟩).bindEq fun _ => ?_
  obtain ⟨rfl, hx⟩ := hx
  rw [Data.mapD_val]
  cases x.val? with
  | none => exact .pureEq _
  | some b => exact (nat_logDrop rfl).bindEq fun _ => .pureEq _

theorem nat_makePiledNode {v : Nat} (hv : C.v0 ≤ v) (par : Option Addr) (i : Nat) {d : β} {d' : α}
    (h : C.g d = d' ∧ C.V d) (s : Size) : LSim C Eq (makePiledNode v par i d s) (makePiledNode v par i d' s) := by
  unfold makePiledNode
  refine nat_vecMakeNode hv par i ⟨by simp [Data.mapD, h.1], ?_⟩ s
  intro b hb; obtain rfl := Option.some.inj hb; exact h.2

theorem nat_appendChild {v : Nat} (hv : C.v0 ≤ v) (par child : Nat) {d : β} {d' : α} (h : C.g d = d' ∧ C.V d) (s : Size) :
    LSim C Eq (appendChild v par child d s) (appendChild v par child d' s) := by
  unfold appendChild
  refine (nat_vecNodeEq _ _).bindEq fun p => (nat_makePiledNode hv _ _ h _).bindEq fun c => ?_
  nat

theorem nat_pushFront (a t : Addr) : LSim C Eq (pushFront a t) (pushFront a t) := by unfold pushFront; nat
macro_rules | `(tactic| nat1) => `(tactic| with_reducible exact nat_pushFront _ _)
theorem nat_pushBack (a t : Addr) : LSim C Eq (pushBack a t) (pushBack a t) := by unfold pushBack; nat
macro_rules | `(tactic| nat1) => `(tactic| with_reducible exact nat_pushBack _ _)
theorem nat_popFront (a : Addr) : LSim C Eq (popFront a) (popFront a) := by unfold popFront; nat
macro_rules | `(tactic| nat1) => `(tactic| with_reducible exact nat_popFront _)
theorem nat_popBack (a : Addr) : LSim C Eq (popBack a) (popBack a) := by unfold popBack; nat
macro_rules | `(tactic| nat1) => `(tactic| with_reducible exact nat_popBack _)
theorem nat_dropLoop : ∀ (k : Nat) (a : Addr), LSim C Eq (dropLoop k a) (dropLoop k a) := by
  intro k
  induction k with
  | zero => intro a; unfold dropLoop; nat
  | succ k ih => intro a; unfold dropLoop; nat <;> exact ih _
theorem nat_dropRoot (a : Addr) : LSim C Eq (dropRoot a) (dropRoot a) :=
  .fuelled fun L H r => by rw [r.size]; exact nat_dropLoop _ _
macro_rules | `(tactic| nat1) => `(tactic| with_reducible exact nat_dropRoot _)
theorem nat_setUpLoop (par : Addr) : ∀ (k : Nat) (it : RawIter), LSim C Eq (setUpLoop k it par) (setUpLoop k it par) := by
  intro k
  induction k with
  | zero => intro a; unfold setUpLoop; nat
  | succ k ih => intro a; unfold setUpLoop; nat; exact ih _
macro_rules | `(tactic| nat1) => `(tactic| with_reducible exact nat_setUpLoop _ _ _)
theorem nat_forestSetUp (a t : Addr) : LSim C Eq (forestSetUp a t) (forestSetUp a t) := by unfold forestSetUp; nat
macro_rules | `(tactic| nat1) => `(tactic| with_reducible exact nat_forestSetUp _ _)
theorem nat_forestClear (a : Addr) : LSim C Eq (forestClear a) (forestClear a) := by unfold forestClear; nat
macro_rules | `(tactic| nat1) => `(tactic| with_reducible exact nat_forestClear _)
theorem nat_prepend (a t : Addr) : LSim C Eq (prepend a t) (prepend a t) := by unfold prepend; nat
macro_rules | `(tactic| nat1) => `(tactic| with_reducible exact nat_prepend _ _)
theorem nat_append (a t : Addr) : LSim C Eq (append a t) (append a t) := by unfold append; nat
macro_rules | `(tactic| nat1) => `(tactic| with_reducible exact nat_append _ _)
theorem nat_insertPrevSib (a t : Addr) : LSim C Eq (insertPrevSib a t) (insertPrevSib a t) := by unfold insertPrevSib; nat
macro_rules | `(tactic| nat1) => `(tactic| with_reducible exact nat_insertPrevSib _ _)
theorem nat_insertNextSib (a t : Addr) : LSim C Eq (insertNextSib a t) (insertNextSib a t) := by unfold insertNextSib; nat
macro_rules | `(tactic| nat1) => `(tactic| with_reducible exact nat_insertNextSib _ _)
theorem nat_detach (a : Addr) : LSim C Eq (detach a) (detach a) := by unfold detach; nat
macro_rules | `(tactic| nat1) => `(tactic| with_reducible exact nat_detach _)
theorem nat_treeNew {d : β} {d' : α} (h : C.g d = d' ∧ C.V d) : LSim C Eq (treeNew d) (treeNew d') := by
  refine nat_makeNode (by simp [Data.mapD, h.1]) ?_
  intro b hb; obtain rfl := Option.some.inj hb; exact h.2
theorem nat_forestNew : LSim C Eq forestNew forestNew := nat_makeNode rfl (by simp [Data.val?])
macro_rules | `(tactic| nat1) => `(tactic| with_reducible exact nat_forestNew)
theorem nat_treeIntoIter (a : Addr) : LSim C Eq (treeIntoIter a) (treeIntoIter a) := by unfold treeIntoIter; nat
macro_rules | `(tactic| nat1) => `(tactic| with_reducible exact nat_treeIntoIter _)
theorem nat_intoIterDropLoop : ∀ (k : Nat) (a : Addr), LSim C Eq (intoIterDropLoop k a) (intoIterDropLoop k a) := by
  intro k
  induction k with
  | zero => intro a; unfold intoIterDropLoop; nat
  | succ k ih => intro a; unfold intoIterDropLoop; nat; exact ih _
theorem nat_intoIterDrop (a : Addr) : LSim C Eq (intoIterDrop a) (intoIterDrop a) := by
  refine LSim.bindEq ?_ (fun _ => nat_dropRoot a)
  exact .fuelled fun L H r => by rw [r.size]; exact nat_intoIterDropLoop _ _
macro_rules | `(tactic| nat1) => `(tactic| with_reducible exact nat_intoIterDrop _)
theorem nat_modifyData (a : Addr) {f : β → β} {f' : α → α} (hf : ∀ b, C.P a b → IRel C a (f b) (f' (C.g b))) :
    LSim C Eq (modifyData a f) (modifyData a f') := by
  unfold modifyData
  refine (nat_getData a).bind fun x x' hx => ?_
  obtain ⟨rfl, hx⟩ := hx
  cases x with
  | none => exact .throw _
  | scatteredNone o => exact .throw _
  | piledNone o => exact .throw _
  | scattered b o =>
    have := hf b (hx b rfl)
    refine nat_setData ⟨by simp [Data.mapD, this.1], ?_⟩
    intro y hy; obtain rfl := Option.some.inj hy; exact this.2
  | piled b o =>
    have := hf b (hx b rfl)
    refine nat_setData ⟨by simp [Data.mapD, this.1], ?_⟩
    intro y hy; obtain rfl := Option.some.inj hy; exact this.2

end Trees
