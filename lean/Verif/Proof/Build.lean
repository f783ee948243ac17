import Verif.Proof.Frame
import Verif.Proof.BfsSpec
import Verif.Proof.Sim
/-
Construction of contiguous blocks (`NodeVec`): the invariant of a block under construction.
-/
namespace Trees
set_option linter.unusedSimpArgs false
variable {α β γ : Type}

/-! ### Accesses inside the region -/

theorem join_upd' {β : Type} {P : Addr → Bool} {a : Addr} (hp : P a = true) (f g : Addr → β) (v : β) :
    (fun x => if P x = true then upd f a v x else g x) = upd (fun x => if P x = true then f x else g x) a v := by
  funext x
  simp only [upd_apply]
  by_cases hx : x = a
  · subst hx; simp [hp]
  · simp [hx]

section
variable {P : Addr → Bool} {Q : Nat → Bool} {h F : Heap α} {a : Addr}
theorem getPrev_join (hp : P a = true) (hl : F.live a = true) :
    getPrev a (join P Q h F) = .ok (F.prev a) (join P Q h F) := by
  simp [getPrev, rd, join, hp, hl]
theorem setPrev_join (hp : P a = true) (hl : F.live a = true) (x) :
    setPrev a x (join P Q h F) = .ok () (join P Q h { F with prev := upd F.prev a x }) := by
  simp [setPrev, wr, join, hp, hl, join_upd' hp]
theorem getNext_join (hp : P a = true) (hl : F.live a = true) :
    getNext a (join P Q h F) = .ok (F.next a) (join P Q h F) := by
  simp [getNext, rd, join, hp, hl]
theorem setNext_join (hp : P a = true) (hl : F.live a = true) (x) :
    setNext a x (join P Q h F) = .ok () (join P Q h { F with next := upd F.next a x }) := by
  simp [setNext, wr, join, hp, hl, join_upd' hp]
theorem getHead_join (hp : P a = true) (hl : F.live a = true) :
    getHead a (join P Q h F) = .ok (F.head a) (join P Q h F) := by
  simp [getHead, rd, join, hp, hl]
theorem setHead_join (hp : P a = true) (hl : F.live a = true) (x) :
    setHead a x (join P Q h F) = .ok () (join P Q h { F with head := upd F.head a x }) := by
  simp [setHead, wr, join, hp, hl, join_upd' hp]
theorem getTail_join (hp : P a = true) (hl : F.live a = true) :
    getTail a (join P Q h F) = .ok (F.tail a) (join P Q h F) := by
  simp [getTail, rd, join, hp, hl]
theorem setTail_join (hp : P a = true) (hl : F.live a = true) (x) :
    setTail a x (join P Q h F) = .ok () (join P Q h { F with tail := upd F.tail a x }) := by
  simp [setTail, wr, join, hp, hl, join_upd' hp]
theorem getUp_join (hp : P a = true) (hl : F.live a = true) :
    getUp a (join P Q h F) = .ok (F.up a) (join P Q h F) := by
  simp [getUp, rd, join, hp, hl]
theorem setUp_join (hp : P a = true) (hl : F.live a = true) (x) :
    setUp a x (join P Q h F) = .ok () (join P Q h { F with up := upd F.up a x }) := by
  simp [setUp, wr, join, hp, hl, join_upd' hp]
theorem getSize_join (hp : P a = true) (hl : F.live a = true) :
    getSize a (join P Q h F) = .ok (F.size a) (join P Q h F) := by
  simp [getSize, rd, join, hp, hl]
theorem setSize_join (hp : P a = true) (hl : F.live a = true) (x) :
    setSize a x (join P Q h F) = .ok () (join P Q h { F with size := upd F.size a x }) := by
  simp [setSize, wr, join, hp, hl, join_upd' hp]
theorem getData_join (hp : P a = true) (hl : F.live a = true) :
    getData a (join P Q h F) = .ok (F.data a) (join P Q h F) := by
  simp [getData, rd, join, hp, hl]
theorem setData_join (hp : P a = true) (hl : F.live a = true) (x) :
    setData a x (join P Q h F) = .ok () (join P Q h { F with data := upd F.data a x }) := by
  simp [setData, wr, join, hp, hl, join_upd' hp]
theorem degree_join (hp : P a = true) (hl : F.live a = true) :
    degree a (join P Q h F) = .ok (F.size a).degree (join P Q h F) := by
  simp [degree, getSize_join hp hl]
theorem connectNext_join {b : Addr} (hp : P a = true) (hl : F.live a = true) (hp' : P b = true) (hl' : F.live b = true) :
    connectNext a b (join P Q h F) =
      .ok () (join P Q h { F with next := upd F.next a (some b), prev := upd F.prev b (some a) }) := by
  simp only [connectNext, M.bind_apply, setNext_join hp hl, Res.bind_ok]
  exact setPrev_join hp' (by exact hl') _
theorem vecNode_join {v i : Nat} {nv : NodeVec} (hq : Q v = true) (hv : F.vec v = some nv) (hi : i < nv.cap) :
    vecNode v i (join P Q h F) = .ok (nv.base + i) (join P Q h F) := by
  simp [vecNode, join, hq, hv, hi]
end

/-- The region of a block. -/
def blkP (base n : Nat) : Addr → Bool := fun a => decide (base ≤ a ∧ a < base + n)
def blkQ (v : Nat) : Nat → Bool := fun w => decide (w = v)

theorem blkP_iff {base n a : Nat} : blkP base n a = true ↔ base ≤ a ∧ a < base + n := by simp [blkP]
theorem blkP_add {base n i : Nat} (hi : i < n) : blkP base n (base + i) = true := by simp [blkP, hi]
theorem blkQ_self {v : Nat} : blkQ v v = true := by simp [blkQ]

/-- A block under construction, on its own. -/
structure BInv (F : Heap α) (v base n : Nat) (K : Addr → List Addr) : Prop where
  vec : F.vec v = some ⟨base, n, n⟩
  live : ∀ a, F.live a = true ↔ base ≤ a ∧ a < base + n
  l : LInv F K
  raw : ∀ a, ¬ F.Used a → F.head a = none ∧ F.tail a = none ∧ F.prev a = none ∧ F.next a = none
  own : ∀ a, F.Used a → F.data a = .piledNone v ∨ ∃ d, F.data a = .piled d v
  cnt : ∀ a, F.count a = 1

/-- A new block. -/
def rawBlock (v base n : Nat) : Heap α :=
  { (Heap.empty : Heap α) with
    live := blkP base n
    count := fun _ => 1
    vec := fun w => if w = v then some ⟨base, n, n⟩ else none }

/-- The rest of the heap after allocating a block. -/
def bumped (h : Heap α) (n : Nat) : Heap α := { h with nextAddr := h.nextAddr + n, nextVec := h.nextVec + 1 }

theorem newVec_join (h : Heap α) (n : Nat) :
    newVec n h = .ok h.nextVec (join (blkP h.nextAddr n) (blkQ h.nextVec) (bumped h n) (rawBlock h.nextVec h.nextAddr n)) := by
  simp only [newVec, join, Res.ok.injEq, true_and, bumped, rawBlock, Heap.empty, Heap.mk.injEq, and_true, blkP_iff]
  refine ⟨?_, ?_⟩
  · funext a
    by_cases ha : h.nextAddr ≤ a ∧ a < h.nextAddr + n
    · simp [ha, blkP_iff.mpr ha]
    · simp only [ha, if_false]
  · funext w
    by_cases hw : w = h.nextVec
    · subst hw; simp [blkQ]
    · simp [blkQ, upd_apply, hw]

theorem bumped_avoid {h : Heap α} {D} (hS : SInvD h D) (n : Nat) :
    Avoid (blkP h.nextAddr n) (blkQ h.nextVec) (bumped h n) := by
  refine ⟨?_, ?_, ?_, ?_, ?_⟩
  · intro a ha
    have ha := blkP_iff.mp ha
    cases hl : (bumped h n).live a with
    | false => rfl
    | true => exact absurd (hS.liveB a hl) (Nat.not_lt.mpr ha.1)
  · intro a ha; exact (blkP_iff.mp ha).2
  · intro w hw
    simp only [blkQ, decide_eq_true_eq] at hw
    cases hv : (bumped h n).vec w with
    | none => rfl
    | some nv => subst hw; exact absurd (hS.vecB _ nv hv).1 (Nat.lt_irrefl _)
  · intro w hw
    simp only [blkQ, decide_eq_true_eq] at hw
    simp [bumped, hw]
  · intro w nv hw a ha
    cases hp : blkP h.nextAddr n a with
    | false => rfl
    | true =>
      have h1 := blkP_iff.mp hp
      have h2 := (hS.vecB w nv hw).2
      simp only [InVec] at ha
      exact absurd h1.1 (Nat.not_le.mpr (Nat.lt_of_lt_of_le ha.2 h2))

theorem bumped_inv {h : Heap α} {K} (hI : Inv h K) (n : Nat) : Inv (bumped h n) K :=
  ⟨⟨hI.l.head, hI.l.tail, hI.l.mem, hI.l.upU, hI.l.links, hI.l.nodup, hI.l.root⟩, hI.s,
    fun a ha => Nat.lt_of_lt_of_le (hI.b a ha) (Nat.le_add_right _ _)⟩

theorem bumped_sinv {h : Heap α} {D} (hS : SInvD h D) (n : Nat) : SInvD (bumped h n) D :=
  ⟨fun a ha => Nat.lt_of_lt_of_le (hS.liveB a ha) (Nat.le_add_right _ _),
    fun v nv hv => ⟨Nat.lt_succ_of_lt (hS.vecB v nv hv).1, Nat.le_trans (hS.vecB v nv hv).2 (Nat.le_add_right _ _)⟩,
    hS.cnt, hS.pos, hS.disj, hS.owner, hS.tight⟩

/-- The first node of a block. -/
theorem makeRoot_ok {h : Heap α} {v base n : Nat} (hn : 0 < n) {dat : Data α} {sz : Size}
    (hdat : dat = .piledNone v ∨ ∃ d, dat = .piled d v) :
    ∃ F, vecMakeNode v none 0 dat sz (join (blkP base n) (blkQ v) h (rawBlock v base n)) =
        .ok base (join (blkP base n) (blkQ v) h F) ∧
      BInv F v base n (fun _ => []) ∧ (∀ a, F.Used a ↔ a = base) ∧ F.up base = none ∧ F.size base = sz ∧
      F.data base = dat := by
  have hp := blkP_add (base := base) hn
  simp only [Nat.add_zero] at hp
  have hl : (rawBlock v base n : Heap α).live base = true := hp
  have hd : (rawBlock v base n : Heap α).data base = .none := rfl
  have hnn : dat.isNone = false := by rcases hdat with rfl | ⟨d, rfl⟩ <;> rfl
  let F : Heap α := { (rawBlock v base n : Heap α) with
    up := upd (rawBlock v base n : Heap α).up base none
    size := upd (rawBlock v base n : Heap α).size base sz
    data := upd (rawBlock v base n : Heap α).data base dat }
  have hU : ∀ a, F.Used a ↔ a = base := by
    intro a
    simp only [Heap.Used, F, rawBlock, Heap.empty, upd_apply]
    by_cases ha : a = base
    · subst ha; simp [hp, hnn]
    · simp [ha, Data.isNone]
  have e1 : F.up = fun _ => none := by funext a; simp [F, rawBlock, Heap.empty, upd_apply]
  refine ⟨F, ?_, ⟨?_, ?_, ?_, ?_, ?_, fun _ => rfl⟩, hU, by simp [F], by simp [F], by simp [F]⟩
  · have hvn := vecNode_join (P := blkP base n) (h := h) (blkQ_self (v := v)) (F := (rawBlock v base n : Heap α)) (nv := ⟨base, n, n⟩)
      (by simp [rawBlock]) (i := 0) hn
    simp only [vecMakeNode, M.bind_apply, hvn, Res.bind_ok, Nat.add_zero, setUp_join, setSize_join, getData_join,
      setData_join, hp, hl, hd, Data.val?, M.pure_apply]
    rfl
  · simp [F, rawBlock]
  · intro a; simp only [F, rawBlock]; exact blkP_iff
  · refine ⟨?_, ?_, ?_, ?_, ?_, ?_, ?_⟩
    · intro a _; rfl
    · intro a _; rfl
    · intro a c; simp [e1]
    · intro a c _ _ h; simp [e1] at h
    · intro a _; trivial
    · intro a; simp
    · intro c _ _ _; exact ⟨rfl, rfl⟩
  · intro a _; exact ⟨rfl, rfl, rfl, rfl⟩
  · intro a ha
    rw [(hU a).mp ha]
    simpa [F] using hdat

/-- `NodeVec::append_child`. -/
theorem appendChild_ok {h F : Heap α} {v base n : Nat} {K : Addr → List Addr} (B : BInv F v base n K) {p c : Nat}
    (hpn : p < n) (hcn : c < n) (hp : F.Used (base + p)) (hc : ¬ F.Used (base + c)) (d : α) (sz : Size) :
    ∃ F', appendChild v p c d sz (join (blkP base n) (blkQ v) h F) = .ok () (join (blkP base n) (blkQ v) h F') ∧
      BInv F' v base n (upd K (base + p) (K (base + p) ++ [base + c])) ∧ (∀ a, F'.Used a ↔ F.Used a ∨ a = base + c) ∧
      F'.up = upd F.up (base + c) (some (base + p)) ∧ F'.size = upd F.size (base + c) sz ∧
      F'.data = upd F.data (base + c) (.piled d v) := by
  have hPp := blkP_add (base := base) hpn
  have hPc := blkP_add (base := base) hcn
  have hlp : F.live (base + p) = true := hp.1
  have hlc : F.live (base + c) = true := (B.live _).mpr (blkP_iff.mp hPc)
  have hdc : F.data (base + c) = .none := by
    simp only [Heap.Used, hlc, true_and, Bool.not_eq_false] at hc
    cases hd : F.data (base + c) <;> simp [hd, Data.isNone] at hc ⊢
  have hpc : base + p ≠ base + c := fun e => hc (e ▸ hp)
  obtain ⟨r1, r2, r3, r4⟩ := B.raw _ hc
  -- after `make_piled_node`
  let F1 : Heap α := { F with up := upd F.up (base + c) (some (base + p)), size := upd F.size (base + c) sz,
                              data := upd F.data (base + c) (.piled d v) }
  have hU1 : ∀ a, F1.Used a ↔ F.Used a ∨ a = base + c := by
    intro a
    simp only [Heap.Used, F1, upd_apply]
    by_cases ha : a = base + c
    · subst ha; simp [hlc, Data.isNone]
    · simp [ha]
  have hcK : ∀ a, base + c ∉ K a := fun a hm => hc ((B.l.mem a _).mp hm).1
  have hKc : K (base + c) = [] := by
    rw [List.eq_nil_iff_forall_not_mem]
    intro x hx
    have := (B.l.mem _ x).mp hx
    exact hc (B.l.upU _ x this.1 (by simp) this.2.2)
  have L1 : LInvX F1 K [base + c] := by
    refine ⟨?_, ?_, ?_, ?_, ?_, B.l.nodup, ?_⟩
    · intro a ha
      rcases (hU1 a).mp ha with h1 | rfl
      · exact B.l.head a h1
      · rw [hKc]; exact r1
    · intro a ha
      rcases (hU1 a).mp ha with h1 | rfl
      · exact B.l.tail a h1
      · rw [hKc]; exact r2
    · intro a x
      rw [hU1, B.l.mem]
      by_cases hx : x = base + c
      · subst hx; simp [hc]
      · simp [hx, F1, upd_apply]
    · intro a x hx hxX hup
      have hx' : x ≠ base + c := by simpa using hxX
      rw [hU1] at hx ⊢
      simp only [F1, upd_apply, hx', if_false] at hup
      rcases hx with hx | hx
      · exact .inl (B.l.upU a x hx (by simp) hup)
      · exact absurd hx hx'
    · intro a ha
      rcases (hU1 a).mp ha with h1 | rfl
      · exact B.l.links a h1
      · rw [hKc]; trivial
    · intro x hx hxX hup
      have hx' : x ≠ base + c := by simpa using hxX
      simp only [F1, upd_apply, hx', if_false] at hup
      rcases (hU1 x).mp hx with h1 | h1
      · exact B.l.root x h1 (by simp) hup
      · exact absurd h1 hx'
  have run1 : makePiledNode v (some (base + p)) c d sz (join (blkP base n) (blkQ v) h F) =
      .ok (base + c) (join (blkP base n) (blkQ v) h F1) := by
    simp only [makePiledNode, vecMakeNode, M.bind_apply, vecNode_join blkQ_self B.vec (i := c) hcn, Res.bind_ok,
      setUp_join, setSize_join, getData_join, setData_join, hPc, hlc, hdc, Data.val?, M.pure_apply]
    rfl
  have htl := B.l.tail _ hp
  -- the final heap
  let F2 : Heap α := { F1 with
    prev := insPrev F1.prev (K (base + p)) [base + c] []
    next := insNext F1.next (K (base + p)) [base + c] []
    head := upd F1.head (base + p) (K (base + p) ++ [base + c] ++ []).head?
    tail := upd F1.tail (base + p) (K (base + p) ++ [base + c] ++ []).getLast? }
  have hup : F2.up = insUp F1.up [base + c] (base + p) := by
    funext a
    simp only [F2, F1, insUp, upd_apply, List.mem_singleton]
    split <;> rfl
  have L2 := L1.insert (u := base + p) (l := K (base + p)) (r := []) (h' := F2) ((hU1 _).mpr (.inl hp)) (by simp)
    (by simp) (by intro x hx; rw [List.mem_singleton] at hx; exact (hU1 x).mpr (.inr hx)) (by simp)
    ⟨r3, by simpa [F1] using r4, trivial⟩ rfl rfl rfl rfl hup rfl rfl
  have hU2 : ∀ a, F2.Used a ↔ F.Used a ∨ a = base + c := hU1
  rw [List.append_nil] at L2
  refine ⟨F2, ?_, ⟨B.vec, B.live, L2, ?_, ?_, B.cnt⟩, hU2, rfl, rfl, rfl⟩
  · simp only [appendChild, M.bind_apply, vecNode_join blkQ_self B.vec (i := p) hpn, Res.bind_ok, run1]
    rw [getTail_join hPp (F := F1) hlp]
    simp only [Res.bind_ok]
    have ht : F1.tail (base + p) = (K (base + p)).getLast? := htl
    cases hK : (K (base + p)).getLast? with
    | none =>
      rw [ht, hK]
      simp only
      have hnil : K (base + p) = [] := List.getLast?_eq_none_iff.mp hK
      rw [M.bind_apply, setHead_join hPp (F := F1) hlp]
      simp only [Res.bind_ok]
      refine (setTail_join hPp (by exact hlp) _).trans ?_
      congr 2
      simp only [F2, hnil]
      congr 1
      · funext a
        have h1 : F1.prev (base + c) = none := r3
        by_cases ha : a = base + c
        · simp [insPrev, ha, h1]
        · simp [insPrev, Ne.symm ha]
      · funext a
        have h1 : F1.next (base + c) = none := r4
        by_cases ha : a = base + c
        · simp [insNext, ha, h1]
        · simp [insNext, Ne.symm ha]
    | some t =>
      rw [ht, hK]
      simp only
      have htm : t ∈ K (base + p) := List.mem_of_getLast? hK
      have htU := ((B.l.mem _ _).mp htm).1
      have hPt : blkP base n t = true := blkP_iff.mpr ((B.live t).mp htU.1)
      rw [M.bind_apply, connectNext_join hPt (F := F1) htU.1 hPc hlc]
      simp only [Res.bind_ok]
      refine (setTail_join hPp (by exact hlp) _).trans ?_
      have htc : t ≠ base + c := fun e => hc (e ▸ htU)
      have hne : K (base + p) ≠ [] := by intro e; simp [e] at htm
      congr 2
      simp only [F2]
      congr 1
      · funext a
        simp only [insPrev, upd_apply, List.head?_nil, List.head?_cons, hK]
        by_cases ha : a = base + c
        · simp [ha]
        · simp [ha, Ne.symm ha]
      · funext a
        simp only [insNext, upd_apply, List.head?_nil, List.head?_cons, hK]
        by_cases ha : a = t
        · simp [ha]
        · simp only [ha, if_false, Option.some.injEq, Ne.symm ha]
          split
          · rename_i e; simp at e; subst e; exact r4
          · rfl
      · funext a
        simp only [upd_apply]
        split
        · rename_i e; subst e
          have := B.l.head _ hp
          simp only [F1, this]
          simp [List.head?_append, List.head?_eq_none_iff, hne]
          cases hh : K (base + p) with
          | nil => exact absurd hh hne
          | cons x xs => simp
        · rfl
      · simp
  · intro a ha
    rw [hU2, not_or] at ha
    obtain ⟨s1, s2, s3, s4⟩ := B.raw a ha.1
    have hap : a ≠ base + p := fun e => ha.1 (e ▸ hp)
    have hne1 : (K (base + p)).getLast? ≠ some a := fun e =>
      ha.1 ((B.l.mem _ _).mp (List.mem_of_getLast? e)).1
    have hne2 := Ne.symm ha.2
    refine ⟨?_, ?_, ?_, ?_⟩
    · simp [F2, F1, upd_apply, hap, s1]
    · simp [F2, F1, upd_apply, hap, s2]
    · simp [F2, F1, insPrev, hne2, s3]
    · simp [F2, F1, insNext, hne1, hne2, s4]
  · intro a ha
    by_cases hac : a = base + c
    · right; exact ⟨d, by simp [F2, F1, hac]⟩
    · have h1 := (hU2 a).mp ha
      have := B.own a (h1.resolve_right hac)
      simpa [F2, F1, upd_apply, hac] using this

end Trees
