import Verif.Model.Machine
/-
Naturality: the code of the crate handles data items without looking at them.  Two heaps that differ only in the items,
related by a function `g`, evolve in the same way; moreover a predicate `P a b` on the items `b` stored at the
addresses `a` is maintained.
-/
namespace Trees
set_option linter.unusedSimpArgs false
set_option linter.unusedVariables false
variable {α β γ δ κ σ : Type}

/-- Change the item. -/
def Data.mapD (g : β → α) : Data β → Data α
  | .none => .none
  | .scatteredNone o => .scatteredNone o
  | .scattered d o => .scattered (g d) o
  | .piledNone o => .piledNone o
  | .piled d o => .piled (g d) o

/-- How the items of two heaps are related: `g`; which items may be at which address: `P`; items that the client
supplies: `V`; addresses and blocks from `a0`, `v0` on are new. -/
structure NCtx (β α : Type) where
  g : β → α
  P : Addr → β → Prop
  V : β → Prop
  a0 : Nat
  v0 : Nat
  new : ∀ a b, a0 ≤ a → V b → P a b

/-- `L` is `H` with other items. -/
structure LRel (C : NCtx β α) (L : Heap β) (H : Heap α) : Prop where
  live : L.live = H.live
  prev : L.prev = H.prev
  next : L.next = H.next
  head : L.head = H.head
  tail : L.tail = H.tail
  up : L.up = H.up
  size : L.size = H.size
  count : L.count = H.count
  borrow : L.borrow = H.borrow
  vec : L.vec = H.vec
  nextAddr : L.nextAddr = H.nextAddr
  nextVec : L.nextVec = H.nextVec
  log : L.log.map C.g = H.log
  data : ∀ a, (L.data a).mapD C.g = H.data a
  lab : ∀ a b, (L.data a).val? = some b → C.P a b
  hi : C.a0 ≤ L.nextAddr
  hv : C.v0 ≤ L.nextVec
  blk : ∀ v nv, C.v0 ≤ v → L.vec v = some nv → C.a0 ≤ nv.base

/-- Related results. -/
def LRes (C : NCtx β α) (R : γ → δ → Prop) : Res (Heap β) γ → Res (Heap α) δ → Prop
  | .ok b L, .ok b' H => R b b' ∧ LRel C L H
  | .err e L, .err e' H => e = e' ∧ LRel C L H
  | _, _ => False

/-- Programs that do the same on related heaps. -/
def LSim (C : NCtx β α) (R : γ → δ → Prop) (c : M β γ) (c' : M α δ) : Prop :=
  ∀ L H, LRel C L H → LRes C R (c L) (c' H)

variable {C : NCtx β α}

theorem LSim.pure {R : γ → δ → Prop} {b b'} (h : R b b') : LSim C R (pure b : M β γ) (pure b' : M α δ) :=
  fun _ _ r => ⟨h, r⟩
theorem LSim.pureEq (b : γ) : LSim C Eq (Pure.pure b : M β γ) (Pure.pure b : M α γ) := LSim.pure rfl

theorem LSim.throw {R : γ → δ → Prop} (e : Err) : LSim C R (M.throw e : M β γ) (M.throw e : M α δ) :=
  fun _ _ r => ⟨rfl, r⟩

theorem LSim.bind {γ' δ' : Type} {R : γ → δ → Prop} {R' : γ' → δ' → Prop} {c : M β γ} {c' : M α δ}
    {f : γ → M β γ'} {f' : δ → M α δ'} (hc : LSim C R c c') (hf : ∀ b b', R b b' → LSim C R' (f b) (f' b')) :
    LSim C R' (c >>= f) (c' >>= f') := by
  intro L H r
  have h1 := hc L H r
  simp only [M.bind_apply]
  cases e1 : c L <;> cases e2 : c' H <;> rw [e1, e2] at h1 <;> simp only [LRes] at h1
  · exact hf _ _ h1.1 _ _ h1.2
  · exact h1

theorem LSim.bindEq {γ' δ' : Type} {R' : γ' → δ' → Prop} {c : M β γ} {c' : M α γ}
    {f : γ → M β γ'} {f' : γ → M α δ'} (hc : LSim C Eq c c') (hf : ∀ b, LSim C R' (f b) (f' b)) :
    LSim C R' (c >>= f) (c' >>= f') := hc.bind fun b b' e => e ▸ hf b

theorem LSim.mapEq {γ' : Type} {c : M β γ} {c' : M α γ} {f : γ → γ'} (hc : LSim C Eq c c') :
    LSim C Eq (f <$> c) (f <$> c') := by
  have e1 : (f <$> c) = (c >>= fun b => Pure.pure (f b)) := by funext h; simp
  have e2 : (f <$> c') = (c' >>= fun b => Pure.pure (f b)) := by funext h; simp
  rw [e1, e2]
  exact hc.bindEq fun _ => .pureEq _

theorem LSim.mono {R R' : γ → δ → Prop} {c : M β γ} {c' : M α δ} (hc : LSim C R c c') (h : ∀ b b', R b b' → R' b b') :
    LSim C R' c c' := by
  intro L H r
  have h1 := hc L H r
  cases e1 : c L <;> cases e2 : c' H <;> rw [e1, e2] at h1 <;> simp only [LRes] at h1 ⊢
  · exact ⟨h _ _ h1.1, h1.2⟩
  · exact h1

theorem LSim.fuelled {R : γ → δ → Prop} {f : Heap β → M β γ} {f' : Heap α → M α δ}
    (h : ∀ L H, LRel C L H → LSim C R (f L) (f' H)) : LSim C R (M.fuelled f) (M.fuelled f') :=
  fun L H r => h L H r L H r

theorem LSim.unwrapEq (o : Option γ) : LSim C Eq (unwrap o : M β γ) (unwrap o : M α γ) := by
  cases o
  · exact .throw _
  · exact .pureEq _

theorem LSim.rd {R : γ → δ → Prop} {f : Heap β → Addr → γ} {f' : Heap α → Addr → δ} {a : Addr}
    (hf : ∀ L H, LRel C L H → R (f L a) (f' H a)) : LSim C R (rd f a) (rd f' a) := by
  intro L H r
  simp only [Trees.rd]
  rw [r.live]
  split
  · exact ⟨hf L H r, r⟩
  · exact ⟨rfl, r⟩

theorem LSim.wr {f : Heap β → Heap β} {f' : Heap α → Heap α} {a : Addr}
    (hf : ∀ L H, LRel C L H → LRel C (f L) (f' H)) : LSim C Eq (wr f a) (wr f' a) := by
  intro L H r
  simp only [Trees.wr]
  rw [r.live]
  split
  · exact ⟨rfl, hf L H r⟩
  · exact ⟨rfl, r⟩

theorem nat_getPrev (a : Addr) : LSim C Eq (getPrev a) (getPrev a) := .rd fun L H r => by rw [r.prev]
theorem nat_getNext (a : Addr) : LSim C Eq (getNext a) (getNext a) := .rd fun L H r => by rw [r.next]
theorem nat_getHead (a : Addr) : LSim C Eq (getHead a) (getHead a) := .rd fun L H r => by rw [r.head]
theorem nat_getTail (a : Addr) : LSim C Eq (getTail a) (getTail a) := .rd fun L H r => by rw [r.tail]
theorem nat_getUp (a : Addr) : LSim C Eq (getUp a) (getUp a) := .rd fun L H r => by rw [r.up]
theorem nat_getSize (a : Addr) : LSim C Eq (getSize a) (getSize a) := .rd fun L H r => by rw [r.size]

/-- Related data fields of the node at `a`. -/
def DRel (C : NCtx β α) (a : Addr) (d : Data β) (d' : Data α) : Prop :=
  d.mapD C.g = d' ∧ ∀ b, d.val? = some b → C.P a b

theorem nat_getData (a : Addr) : LSim C (DRel C a) (getData a) (getData a) :=
  .rd fun L H r => ⟨r.data a, r.lab a⟩

theorem nat_setPrev (a : Addr) (v : Option Addr) : LSim C Eq (setPrev a v) (setPrev a v) :=
  .wr fun L H r => { r with prev := by simp only [r.prev] }
theorem nat_setNext (a : Addr) (v : Option Addr) : LSim C Eq (setNext a v) (setNext a v) :=
  .wr fun L H r => { r with next := by simp only [r.next] }
theorem nat_setHead (a : Addr) (v : Option Addr) : LSim C Eq (setHead a v) (setHead a v) :=
  .wr fun L H r => { r with head := by simp only [r.head] }
theorem nat_setTail (a : Addr) (v : Option Addr) : LSim C Eq (setTail a v) (setTail a v) :=
  .wr fun L H r => { r with tail := by simp only [r.tail] }
theorem nat_setUp (a : Addr) (v : Option Addr) : LSim C Eq (setUp a v) (setUp a v) :=
  .wr fun L H r => { r with up := by simp only [r.up] }
theorem nat_setSize (a : Addr) (v : Size) : LSim C Eq (setSize a v) (setSize a v) :=
  .wr fun L H r => { r with size := by simp only [r.size] }

theorem nat_setData {a : Addr} {d : Data β} {d' : Data α} (h : DRel C a d d') : LSim C Eq (setData a d) (setData a d') :=
  .wr fun L H r => { r with
    data := by
      intro b
      simp only [upd_apply]
      split
      · exact h.1
      · exact r.data b
    lab := by
      intro b x
      simp only [upd_apply]
      split
      · rename_i e; subst e; exact h.2 x
      · exact r.lab b x }

theorem nat_logDrop {d : β} {d' : α} (h : C.g d = d') : LSim C Eq (logDrop d) (logDrop d') :=
  fun L H r => ⟨rfl, { r with log := by simp [r.log, h] }⟩

theorem Data.mapD_setOwner (g : β → α) (d : Data β) (a : Addr) : (d.setOwner a).mapD g = (d.mapD g).setOwner a := by
  cases d <;> rfl
theorem Data.setOwner_val (d : Data β) (a : Addr) : (d.setOwner a).val? = d.val? := by
  cases d <;> rfl
theorem Data.mapD_val (g : β → α) (d : Data β) : (d.mapD g).val? = d.val?.map g := by
  cases d <;> rfl
theorem Data.mapD_isNone (g : β → α) (d : Data β) : (d.mapD g).isNone = d.isNone := by
  cases d <;> rfl
theorem Data.mapD_isForest (g : β → α) (d : Data β) : (d.mapD g).isForest = d.isForest := by
  cases d <;> rfl

theorem nat_makeNode {d : Data β} {d' : Data α} (h : d.mapD C.g = d') (hV : ∀ b, d.val? = some b → C.V b) :
    LSim C Eq (makeNode d) (makeNode d') := by
  intro L H r
  refine ⟨r.nextAddr, ?_⟩
  have e := r.nextAddr
  constructor
  case data =>
    intro a
    simp only [upd_apply]
    rw [← e]
    split
    · rw [Data.mapD_setOwner, h]
    · exact r.data a
  case lab =>
    intro a b
    simp only [upd_apply]
    split
    · rename_i ea
      rw [Data.setOwner_val]
      intro hb
      exact C.new a b (ea ▸ r.hi) (hV b hb)
    · exact r.lab a b
  case hi => exact Nat.le_succ_of_le r.hi
  case hv => exact r.hv
  case blk => exact r.blk
  case log => exact r.log
  all_goals simp only [e, r.live, r.prev, r.next, r.head, r.tail, r.up, r.size, r.count, r.borrow, r.vec, r.nextVec]

theorem nat_rcDrop (o : Addr) : LSim C Eq (rcDrop o) (rcDrop o) := by
  intro L H r
  simp only [rcDrop]
  rw [r.live, r.count]
  split
  · split
    · refine ⟨rfl, { r with live := by rw [← r.live], count := by rw [← r.count], log := ?_ }⟩
      simp only [List.map_append, r.log]
      rw [← r.data o, Data.mapD_val]
      cases (L.data o).val? <;> rfl
    · split
      · exact ⟨rfl, r⟩
      · exact ⟨rfl, { r with live := rfl, count := by rw [← r.count] }⟩
  · exact ⟨rfl, r⟩

theorem nat_decrRef (v : Nat) : LSim C Eq (decrRef v) (decrRef v) := by
  intro L H r
  simp only [decrRef]
  rw [r.vec]
  cases hv : H.vec v with
  | none => exact ⟨rfl, r⟩
  | some nv =>
    have hb : C.v0 ≤ v → C.a0 ≤ nv.base := fun h => r.blk v nv h (by rw [r.vec]; exact hv)
    dsimp only
    split
    · exact ⟨rfl, r⟩
    · split
      · refine ⟨rfl, { r with vec := by rw [← r.vec], live := by rw [← r.live], blk := ?_ }⟩
        intro w nw hw
        simp only [upd_apply]
        split
        · simp
        · rw [← r.vec]; exact r.blk w nw hw
      · refine ⟨rfl, { r with vec := by rw [← r.vec], blk := ?_ }⟩
        intro w nw hw
        simp only [upd_apply]
        split
        · rename_i e; subst e
          intro h1; obtain rfl := Option.some.inj h1
          exact hb hw
        · rw [← r.vec]; exact r.blk w nw hw

/-- The number of a new block. -/
def NewVec (C : NCtx β α) (v w : Nat) : Prop := v = w ∧ C.v0 ≤ v

theorem nat_newVec (cap : Nat) : LSim C (NewVec C) (newVec cap) (newVec cap) := by
  intro L H r
  refine ⟨⟨r.nextVec, r.hv⟩, ?_⟩
  have e := r.nextAddr
  constructor
  case data =>
    intro a
    dsimp only
    rw [← e]
    split
    · rfl
    · exact r.data a
  case lab =>
    intro a b
    dsimp only
    split
    · simp [Data.val?]
    · exact r.lab a b
  case hi => exact Nat.le_trans r.hi (Nat.le_add_right _ _)
  case hv => exact Nat.le_succ_of_le r.hv
  case blk =>
    intro w nw hw
    simp only [upd_apply]
    split
    · intro h1; obtain rfl := Option.some.inj h1
      exact r.hi
    · exact r.blk w nw hw
  case log => exact r.log
  all_goals simp only [e, r.live, r.prev, r.next, r.head, r.tail, r.up, r.size, r.count, r.borrow, r.vec, r.nextVec]

/-- The address of a node in a new block. -/
def NewAddr (C : NCtx β α) (v : Nat) (a a' : Addr) : Prop := a = a' ∧ (C.v0 ≤ v → C.a0 ≤ a)

theorem nat_vecNode (v i : Nat) : LSim C (NewAddr C v) (vecNode v i) (vecNode v i) := by
  intro L H r
  simp only [vecNode]
  have := r.blk v
  rw [r.vec] at this ⊢
  cases hv : H.vec v with
  | none => exact ⟨rfl, r⟩
  | some nv =>
    dsimp only
    split
    · exact ⟨⟨rfl, fun h => Nat.le_trans (this nv h hv) (Nat.le_add_right _ _)⟩, r⟩
    · exact ⟨rfl, r⟩
theorem nat_vecNodeEq (v i : Nat) : LSim C Eq (vecNode v i) (vecNode v i) := (nat_vecNode v i).mono fun _ _ h => h.1

end Trees
