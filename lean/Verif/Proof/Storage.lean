import Verif.Proof.NodeOps
import Verif.Proof.Den
/-
Storage: owners, reference counts of contiguous blocks, release of nodes.
-/
namespace Trees
set_option linter.unusedVariables false
variable {α : Type}

/-- Address `a` is a slot of the block. -/
def InVec (nv : NodeVec) (a : Addr) : Prop := nv.base ≤ a ∧ a < nv.base + nv.cap

/-- Boolean version of `Heap.Used`. -/
def Heap.usedB (h : Heap α) (a : Addr) : Bool := h.live a && !(h.data a).isNone

theorem Heap.usedB_iff {h : Heap α} {a : Addr} : h.usedB a = true ↔ h.Used a := by
  simp [Heap.usedB, Heap.Used]

/-- Number of used slots of a block. -/
def usedCnt (h : Heap α) (nv : NodeVec) : Nat := (List.range' nv.base nv.cap).countP h.usedB

/-- Who is responsible for the memory of a used node. -/
def Owned (h : Heap α) (a : Addr) : Data α → Prop
  | .none => False
  | .scatteredNone o => o = a ∧ h.count a = 1 ∧ ∀ v nv, h.vec v = some nv → ¬ InVec nv a
  | .scattered _ o => o = a ∧ h.count a = 1 ∧ ∀ v nv, h.vec v = some nv → ¬ InVec nv a
  | .piledNone v => h.count a = 1 ∧ ∃ nv, h.vec v = some nv ∧ InVec nv a
  | .piled _ v => h.count a = 1 ∧ ∃ nv, h.vec v = some nv ∧ InVec nv a

/-- Storage invariant. `D v` is the number of slots of block `v` not filled in yet (only non-zero
while a block is being constructed). -/
structure SInvD (h : Heap α) (D : Nat → Nat) : Prop where
  liveB : ∀ a, h.live a = true → a < h.nextAddr
  vecB : ∀ v nv, h.vec v = some nv → v < h.nextVec ∧ nv.base + nv.cap ≤ h.nextAddr
  cnt : ∀ v nv, h.vec v = some nv → nv.refCnt = usedCnt h nv + D v
  pos : ∀ v nv, h.vec v = some nv → 0 < nv.refCnt
  disj : ∀ v nv w nw a, h.vec v = some nv → h.vec w = some nw → InVec nv a → InVec nw a → v = w
  owner : ∀ a, h.Used a → Owned h a (h.data a)
  tight : ∀ a, h.live a = true → h.Used a ∨ ∃ v nv, h.vec v = some nv ∧ InVec nv a

/-- Storage invariant, no block under construction. -/
abbrev SInv (h : Heap α) : Prop := SInvD h (fun _ => 0)

theorem SInvD.same {h h' : Heap α} {D} (hS : SInvD h D) (s : Same h h') : SInvD h' D := by
  obtain ⟨a1, a2, a4, a5, a6, a7, a8⟩ := hS
  have hu : h'.Used = h.Used := by funext a; exact propext (s.used a)
  have hb : h'.usedB = h.usedB := by funext a; simp [Heap.usedB, s.live, s.data]
  have hc : ∀ nv, usedCnt h' nv = usedCnt h nv := by intro nv; simp [usedCnt, hb]
  have ho : ∀ a d, Owned h' a d ↔ Owned h a d := by
    intro a d; cases d <;> simp [Owned, s.count, s.vec]
  refine ⟨?_, ?_, ?_, ?_, ?_, ?_, ?_⟩
  · rwa [s.live, s.nextAddr]
  · rwa [s.vec, s.nextVec, s.nextAddr]
  · intro v nv; rw [s.vec, hc]; exact a4 v nv
  · rwa [s.vec]
  · rwa [s.vec]
  · intro a; rw [hu, s.data, ho]; exact a7 a
  · rwa [s.live, s.vec, hu]

/-- The effect of releasing some nodes: exactly the nodes in `S` are gone, the values `lg` have been
dropped, and nothing else is touched. -/
structure Shrink (h : Heap α) (K : Addr → List Addr) (h' : Heap α) (K' : Addr → List Addr)
    (S : Addr → Prop) (lg : List α) : Prop where
  used : ∀ x, h'.Used x ↔ h.Used x ∧ ¬ S x
  kids : ∀ x, h.Used x → ¬ S x → K' x = K x
  data : ∀ x, h.Used x → ¬ S x → h'.data x = h.data x
  up : ∀ x, h.Used x → ¬ S x → h'.up x = h.up x
  count : ∀ x, h.Used x → ¬ S x → h'.count x = h.count x
  borrow : h'.borrow = h.borrow
  nextAddr : h'.nextAddr = h.nextAddr
  nextVec : h'.nextVec = h.nextVec
  log : h'.log = h.log ++ lg

/-- What the storage looks like after node `a` has been given back. -/
structure Freed (h h' : Heap α) (a : Addr) (lg : List α) : Prop where
  used : ∀ x, h'.Used x ↔ h.Used x ∧ x ≠ a
  prev : h'.prev = h.prev
  next : h'.next = h.next
  head : h'.head = h.head
  tail : h'.tail = h.tail
  up : h'.up = h.up
  size : h'.size = h.size
  data : ∀ x, x ≠ a → h'.data x = h.data x
  count : ∀ x, x ≠ a → h'.count x = h.count x
  borrow : h'.borrow = h.borrow
  nextAddr : h'.nextAddr = h.nextAddr
  nextVec : h'.nextVec = h.nextVec
  log : h'.log = h.log ++ lg

theorem Freed.inv {h h' : Heap α} {a : Addr} {lg : List α} (F : Freed h h' a lg) {K : Addr → List Addr}
    (hI : Inv h K) (hr : h.up a = none) (hk : K a = []) : Inv h' K := by
  refine ⟨⟨?_, ?_, ?_, ?_, ?_, hI.l.nodup, ?_⟩, ?_, ?_⟩
  · intro x hx; rw [F.head]; exact hI.l.head x ((F.used x).mp hx).1
  · intro x hx; rw [F.tail]; exact hI.l.tail x ((F.used x).mp hx).1
  · intro x c
    rw [hI.mem_iff, F.used, F.up]
    simp only [List.not_mem_nil, not_false_eq_true, true_and]
    constructor
    · rintro ⟨h1, h2⟩
      refine ⟨⟨h1, ?_⟩, h2⟩
      rintro rfl; rw [hr] at h2; simp at h2
    · rintro ⟨⟨h1, _⟩, h2⟩; exact ⟨h1, h2⟩
  · intro x c hc _ hup
    rw [F.up] at hup
    have hm : c ∈ K x := hI.mem_iff.mpr ⟨((F.used c).mp hc).1, hup⟩
    refine (F.used x).mpr ⟨hI.used_parent hm, ?_⟩
    rintro rfl; rw [hk] at hm; simp at hm
  · intro x hx; rw [F.prev, F.next]; exact hI.l.links x ((F.used x).mp hx).1
  · intro c hc _ hup; rw [F.up] at hup; rw [F.prev, F.next]; exact hI.l.root c ((F.used c).mp hc).1 (by simp) hup
  · intro x hx; rw [F.size]; exact hI.s x ((F.used x).mp hx).1
  · intro x hx; rw [F.nextAddr]; exact hI.b x ((F.used x).mp hx).1

theorem Freed.shrink {h h' : Heap α} {a : Addr} {lg : List α} (F : Freed h h' a lg) (K : Addr → List Addr) :
    Shrink h K h' K (· = a) lg :=
  ⟨F.used, fun _ _ _ => rfl, fun x _ hx => F.data x hx, fun x _ _ => by rw [F.up],
    fun x _ hx => F.count x hx, F.borrow, F.nextAddr, F.nextVec, F.log⟩

theorem countP_split {p q : Addr → Bool} {a : Addr} {l : List Addr} (nd : l.Nodup) (ha : a ∈ l)
    (hpa : p a = true) (hqa : q a = false) (ho : ∀ x, x ≠ a → q x = p x) : l.countP p = l.countP q + 1 := by
  induction l with
  | nil => simp at ha
  | cons b l ih =>
    have nd' := List.nodup_cons.mp nd
    rcases List.mem_cons.mp ha with rfl | hal
    · have : l.countP p = l.countP q := by
        apply List.countP_congr
        intro x hx
        have : x ≠ a := fun e => nd'.1 (e ▸ hx)
        rw [ho x this]
      rw [List.countP_cons, List.countP_cons, this]; simp [hpa, hqa]
    · have hb : b ≠ a := fun e => nd'.1 (e ▸ hal)
      rw [List.countP_cons, List.countP_cons, ih nd'.2 hal, ho b hb]; omega

theorem mem_vec_range {nv : NodeVec} {a : Addr} : a ∈ List.range' nv.base nv.cap ↔ InVec nv a := by
  simp [InVec]

theorem rcDrop_freed {h : Heap α} {D} (hS : SInvD h D) {a : Addr} (ha : h.Used a)
    (hc : h.count a = 1) (hout : ∀ v nv, h.vec v = some nv → ¬ InVec nv a) (lg : List α) (nd : Data α) :
    let h' : Heap α := { h with data := upd h.data a nd, live := upd h.live a false,
                                count := upd h.count a 0, log := h.log ++ lg }
    Freed h h' a lg ∧ SInvD h' D := by
  intro h'
  have hU : ∀ x, h'.Used x ↔ h.Used x ∧ x ≠ a := by
    intro x
    simp only [Heap.Used, h', upd_apply]
    by_cases hx : x = a <;> simp [hx]
  refine ⟨⟨hU, rfl, rfl, rfl, rfl, rfl, rfl, ?_, ?_, rfl, rfl, rfl, rfl⟩, ?_⟩
  · intro x hx; simp [h', upd_apply, hx]
  · intro x hx; simp [h', upd_apply, hx]
  · refine ⟨?_, hS.vecB, ?_, hS.pos, hS.disj, ?_, ?_⟩
    · intro x hx
      simp only [h', upd_apply] at hx
      split at hx
      · simp at hx
      · exact hS.liveB x hx
    · intro v nv hv
      rw [hS.cnt v nv hv]
      congr 1
      apply List.countP_congr
      intro x hx
      have : x ≠ a := by rintro rfl; exact hout v nv hv (mem_vec_range.mp hx)
      simp [Heap.usedB, h', upd_apply, this]
    · intro x hx
      have hx' := (hU x).mp hx
      have := hS.owner x hx'.1
      have hd : h'.data x = h.data x := by simp [h', upd_apply, hx'.2]
      rw [hd]
      cases hdx : h.data x <;> rw [hdx] at this <;> simp [Owned, h', upd_apply, hx'.2] at this ⊢ <;> exact this
    · intro x hx
      simp only [h', upd_apply] at hx
      split at hx
      · simp at hx
      · rcases hS.tight x hx with h1 | h1
        · left; exact (hU x).mpr ⟨h1, by assumption⟩
        · right; exact h1

theorem decrRef_freed {h : Heap α} {D} (hS : SInvD h D) {a : Addr} (ha : h.Used a) {v : Nat} {nv : NodeVec}
    (hv : h.vec v = some nv) (hin : InVec nv a) (lg : List α) :
    ∃ h', decrRef v { h with data := upd h.data a .none } = .ok () h' ∧
      Freed h { h' with log := h'.log ++ lg } a lg ∧ SInvD { h' with log := h'.log ++ lg } D := by
  have hpos := hS.pos v nv hv
  have hcnt := hS.cnt v nv hv
  have hne : ¬ nv.refCnt = 0 := by omega
  have hB : ∀ x, x ≠ a → ({ h with data := upd h.data a Data.none }).usedB x = h.usedB x := by
    intro x hx; simp [Heap.usedB, upd_apply, hx]
  have hBa : ({ h with data := upd h.data a Data.none }).usedB a = false := by
    simp [Heap.usedB, Data.isNone]
  have hspl := countP_split (p := h.usedB) (List.nodup_range' (step := 1)) (mem_vec_range.mpr hin)
    (Heap.usedB_iff.mpr ha) hBa hB
  have howner : ∀ x, h.Used x → x ≠ a → ∀ w nw, h.vec w = some nw → InVec nw x →
      (∃ d, h.data x = .piled d w) ∨ h.data x = .piledNone w := by
    intro x hx _ w nw hw hxin
    have := hS.owner x hx
    cases hdx : h.data x with
    | none => rw [hdx] at this; exact this.elim
    | scattered d o => rw [hdx] at this; exact absurd hxin (this.2.2 w nw hw)
    | scatteredNone o => rw [hdx] at this; exact absurd hxin (this.2.2 w nw hw)
    | piled d w' =>
      rw [hdx] at this
      obtain ⟨-, nw', h1, h2⟩ := this
      rw [hS.disj w nw w' nw' x hw h1 hxin h2]; simp
    | piledNone w' =>
      rw [hdx] at this
      obtain ⟨-, nw', h1, h2⟩ := this
      rw [hS.disj w nw w' nw' x hw h1 hxin h2]; simp
  by_cases h1 : nv.refCnt - 1 = 0
  · refine ⟨_, by simp only [decrRef, hv, hne, h1, if_true, if_false]; rfl, ?_, ?_⟩
    · refine ⟨?_, rfl, rfl, rfl, rfl, rfl, rfl, ?_, ?_, rfl, rfl, rfl, rfl⟩
      · intro x
        by_cases hx : x = a
        · subst hx; simp [Heap.Used, Data.isNone]
        · simp only [Heap.Used, killRange, upd_apply, hx, if_false, ne_eq, not_false_eq_true, and_true]
          by_cases hxr : InVec nv x
          · have h2 : usedCnt { h with data := upd h.data a Data.none } nv = 0 := by
              simp only [usedCnt] at hcnt ⊢; omega
            have h3 : ({ h with data := upd h.data a Data.none }).usedB x = false := by
              have := List.countP_eq_zero.mp h2 x (mem_vec_range.mpr hxr)
              simpa using this
            rw [hB x hx] at h3
            have h4 : ¬ h.Used x := by rw [← Heap.usedB_iff, h3]; simp
            simp only [InVec] at hxr
            simp only [Heap.Used] at h4
            simp [hxr, h4]
          · simp only [InVec] at hxr
            simp [hxr]
      · intro x hx; simp [upd_apply, hx]
      · intro x hx; rfl
    · have hvec : ∀ {w nw}, upd h.vec v none w = some nw → w ≠ v ∧ h.vec w = some nw := by
        intro w nw hw
        simp only [upd_apply] at hw
        split at hw
        · simp at hw
        · exact ⟨by assumption, hw⟩
      have hout : ∀ {w nw}, w ≠ v → h.vec w = some nw → ∀ x, InVec nw x → ¬ InVec nv x := by
        intro w nw hne hw x hx hx'
        exact hne (hS.disj w nw v nv x hw hv hx hx')
      refine ⟨?_, ?_, ?_, ?_, ?_, ?_, ?_⟩
      · intro x hx
        simp only [killRange] at hx
        split at hx
        · simp at hx
        · exact hS.liveB x hx
      · intro w nw hw; exact hS.vecB w nw (hvec hw).2
      · intro w nw hw
        have hw' := hvec hw
        show _ = usedCnt _ nw + D w
        rw [hS.cnt w nw hw'.2]
        congr 1
        apply List.countP_congr
        intro x hx
        have hx' := mem_vec_range.mp hx
        have hxv := hout hw'.1 hw'.2 x hx'
        have hxa : x ≠ a := by rintro rfl; exact hxv hin
        simp only [InVec] at hxv
        simp [Heap.usedB, killRange, hxv, upd_apply, hxa]
      · intro w nw hw; exact hS.pos w nw (hvec hw).2
      · intro w nw w' nw' x hw hw' h1 h2; exact hS.disj w nw w' nw' x (hvec hw).2 (hvec hw').2 h1 h2
      · intro x hx
        have hxa : x ≠ a := by rintro rfl; simp [Heap.Used, Data.isNone] at hx
        have hxl : h.Used x ∧ ¬ InVec nv x := by
          simp only [Heap.Used, killRange, upd_apply, hxa, if_false, InVec] at hx ⊢
          by_cases hh : nv.base ≤ x ∧ x < nv.base + nv.cap
          · simp [hh] at hx
          · simp only [hh, if_false] at hx; exact ⟨hx, hh⟩
        have := hS.owner x hxl.1
        have hd : upd h.data a Data.none x = h.data x := by simp [upd_apply, hxa]
        show Owned _ x (upd h.data a Data.none x)
        rw [hd]
        cases hdx : h.data x <;> rw [hdx] at this
        · exact this
        · exact ⟨this.1, this.2.1, fun w nw hw => this.2.2 w nw (hvec hw).2⟩
        · exact ⟨this.1, this.2.1, fun w nw hw => this.2.2 w nw (hvec hw).2⟩
        all_goals
          obtain ⟨h0, nw, h1, h2⟩ := this
          refine ⟨h0, nw, ?_, h2⟩
          simp only [upd_apply]
          split
          · rename_i e; subst e; rw [hv] at h1; obtain rfl := Option.some.inj h1; exact absurd h2 hxl.2
          · exact h1
      · intro x hx
        simp only [killRange] at hx
        split at hx
        · simp at hx
        · rename_i hnr
          rcases hS.tight x hx with h1 | ⟨w, nw, h1, h2⟩
          · left
            have hxa : x ≠ a := by rintro rfl; exact hnr hin
            simp only [Heap.Used, killRange, hnr, if_false, upd_apply, hxa]
            exact h1
          · right
            refine ⟨w, nw, ?_, h2⟩
            simp only [upd_apply]
            split
            · rename_i e; subst e; rw [hv] at h1; obtain rfl := Option.some.inj h1; exact absurd h2 hnr
            · exact h1
  · refine ⟨_, by simp only [decrRef, hv, hne, h1, if_false]; rfl, ?_, ?_⟩
    · refine ⟨?_, rfl, rfl, rfl, rfl, rfl, rfl, ?_, ?_, rfl, rfl, rfl, rfl⟩
      · intro x
        by_cases hx : x = a
        · subst hx; simp [Heap.Used, Data.isNone]
        · simp [Heap.Used, upd_apply, hx]
      · intro x hx; simp [upd_apply, hx]
      · intro x hx; rfl
    · have hvec : ∀ {w nw}, upd h.vec v (some { nv with refCnt := nv.refCnt - 1 }) w = some nw →
          ∃ nw', h.vec w = some nw' ∧ nw.base = nw'.base ∧ nw.cap = nw'.cap ∧
            (if w = v then nw.refCnt = nw'.refCnt - 1 else nw.refCnt = nw'.refCnt) := by
        intro w nw hw
        simp only [upd_apply] at hw
        split at hw
        · rename_i e
          obtain rfl := Option.some.inj hw
          exact ⟨nv, by rw [e]; exact hv, rfl, rfl, by simp [e]⟩
        · rename_i e
          exact ⟨nw, hw, rfl, rfl, by simp [e]⟩
      have hvec' : ∀ {w nw}, h.vec w = some nw → ∃ nw', upd h.vec v (some { nv with refCnt := nv.refCnt - 1 }) w = some nw'
          ∧ nw'.base = nw.base ∧ nw'.cap = nw.cap := by
        intro w nw hw
        simp only [upd_apply]
        split
        · rename_i e; subst e; rw [hv] at hw; obtain rfl := Option.some.inj hw; exact ⟨_, rfl, rfl, rfl⟩
        · exact ⟨nw, hw, rfl, rfl⟩
      have hinv : ∀ {nw nw' : NodeVec} {x}, nw.base = nw'.base → nw.cap = nw'.cap → (InVec nw x ↔ InVec nw' x) := by
        intro nw nw' x h1 h2; simp [InVec, h1, h2]
      refine ⟨hS.liveB, ?_, ?_, ?_, ?_, ?_, ?_⟩
      · intro w nw hw
        obtain ⟨nw', h1, h2, h3, -⟩ := hvec hw
        show _ ∧ nw.base + nw.cap ≤ _
        rw [h2, h3]; exact hS.vecB w nw' h1
      · intro w nw hw
        obtain ⟨nw', h1, h2, h3, h4⟩ := hvec hw
        have h5 := hS.cnt w nw' h1
        by_cases hwv : w = v
        · subst hwv
          rw [hv] at h1; obtain rfl := Option.some.inj h1
          simp only [if_true] at h4
          have h6 : usedCnt h nv = usedCnt { h with data := upd h.data a Data.none } nv + 1 := hspl
          show nw.refCnt = (List.range' nw.base nw.cap).countP ({ h with data := upd h.data a Data.none }).usedB + D w
          rw [h2, h3]
          simp only [usedCnt] at h5 h6
          omega
        · simp only [hwv, if_false] at h4
          show nw.refCnt = (List.range' nw.base nw.cap).countP ({ h with data := upd h.data a Data.none }).usedB + D w
          rw [h2, h3, h4, h5]
          congr 1
          apply List.countP_congr
          intro x hx
          have hxa : x ≠ a := by
            rintro rfl; exact hwv (hS.disj w nw' v nv x h1 hv (mem_vec_range.mp hx) hin)
          rw [hB x hxa]
      · intro w nw hw
        obtain ⟨nw', h1', h2, h3, h4⟩ := hvec hw
        by_cases hwv : w = v
        · subst hwv
          rw [hv] at h1'; obtain rfl := Option.some.inj h1'
          simp only [if_true] at h4; omega
        · simp only [hwv, if_false] at h4; rw [h4]; exact hS.pos w nw' h1'
      · intro w nw w' nw' x hw hw' hx hx'
        obtain ⟨m, h1, h2, h3, -⟩ := hvec hw
        obtain ⟨m', h1', h2', h3', -⟩ := hvec hw'
        exact hS.disj w m w' m' x h1 h1' ((hinv h2 h3).mp hx) ((hinv h2' h3').mp hx')
      · intro x hx
        have hxa : x ≠ a := by rintro rfl; simp [Heap.Used, Data.isNone] at hx
        have hxU : h.Used x := by simpa [Heap.Used, upd_apply, hxa] using hx
        have := hS.owner x hxU
        have hd : upd h.data a Data.none x = h.data x := by simp [upd_apply, hxa]
        show Owned _ x (upd h.data a Data.none x)
        rw [hd]
        cases hdx : h.data x <;> rw [hdx] at this
        · exact this
        · refine ⟨this.1, this.2.1, fun w nw hw => ?_⟩
          obtain ⟨m, h1, h2, h3, -⟩ := hvec hw
          rw [hinv h2 h3]; exact this.2.2 w m h1
        · refine ⟨this.1, this.2.1, fun w nw hw => ?_⟩
          obtain ⟨m, h1, h2, h3, -⟩ := hvec hw
          rw [hinv h2 h3]; exact this.2.2 w m h1
        all_goals
          obtain ⟨h0, nw, h1, h2⟩ := this
          obtain ⟨m, g1, g2, g3⟩ := hvec' h1
          exact ⟨h0, m, g1, (hinv g2 g3).mpr h2⟩
      · intro x hx
        rcases hS.tight x hx with h1 | ⟨w, nw, h1, h2⟩
        · by_cases hxa : x = a
          · right
            subst hxa
            obtain ⟨m, g1, g2, g3⟩ := hvec' hv
            exact ⟨v, m, g1, (hinv g2 g3).mpr hin⟩
          · left; simpa [Heap.Used, upd_apply, hxa] using h1
        · right
          obtain ⟨m, g1, g2, g3⟩ := hvec' h1
          exact ⟨w, m, g1, (hinv g2 g3).mpr h2⟩

/-- The user value at an address. -/
def Heap.val (h : Heap α) (a : Addr) : Option α := (h.data a).val?

theorem dropNode_freed {h : Heap α} {D} (hS : SInvD h D) {a : Addr} (ha : h.Used a) :
    ∃ h', dropNode a h = .ok () h' ∧ Freed h h' a (h.val a).toList ∧ SInvD h' D := by
  have hl := ha.1
  have ho := hS.owner a ha
  simp only [dropNode, M.bind_apply, getData_ok hl, Res.bind_ok, setData_ok hl]
  cases hd : h.data a with
  | none => rw [hd] at ho; exact ho.elim
  | scatteredNone o =>
    rw [hd] at ho
    obtain ⟨rfl, h2, h3⟩ := ho
    have := rcDrop_freed hS ha h2 h3 [] .none
    refine ⟨_, ?_, by simpa [Heap.val, hd, Data.val?] using this⟩
    simp [rcDrop, hl, h2, Data.val?]
  | scattered d o =>
    rw [hd] at ho
    obtain ⟨rfl, h2, h3⟩ := ho
    have := rcDrop_freed hS ha h2 h3 [d] .none
    refine ⟨_, ?_, by simpa [Heap.val, hd, Data.val?] using this⟩
    simp [rcDrop, hl, h2, Data.val?, logDrop]
  | piledNone v =>
    rw [hd] at ho
    obtain ⟨-, nv, h2, h3⟩ := ho
    obtain ⟨h', e, f1, f2⟩ := decrRef_freed hS ha h2 h3 []
    simp only [List.append_nil] at f1 f2
    exact ⟨h', e, by simpa [Heap.val, hd, Data.val?] using ⟨f1, f2⟩⟩
  | piled d v =>
    rw [hd] at ho
    obtain ⟨-, nv, h2, h3⟩ := ho
    obtain ⟨h', e, f1, f2⟩ := decrRef_freed hS ha h2 h3 [d]
    refine ⟨_, ?_, by simpa [Heap.val, hd, Data.val?] using ⟨f1, f2⟩⟩
    simp only [M.bind_apply, e, Res.bind_ok, logDrop]

/-- `into_data`: the node is given back, its value is returned and not dropped. -/
theorem intoData_freed {h : Heap α} {D} (hS : SInvD h D) {a : Addr} (ha : h.Used a) {d : α}
    (hv : h.val a = some d) :
    ∃ h', intoData a h = .ok d h' ∧ Freed h h' a [] ∧ SInvD h' D := by
  have hl := ha.1
  have ho := hS.owner a ha
  simp only [intoData, M.bind_apply, getData_ok hl, Res.bind_ok, setData_ok hl]
  unfold Heap.val at hv
  cases hd : h.data a with
  | none => rw [hd] at ho; exact ho.elim
  | scatteredNone o => simp [hd, Data.val?] at hv
  | piledNone o => simp [hd, Data.val?] at hv
  | scattered d' o =>
    rw [hd] at ho
    simp [hd, Data.val?] at hv; subst hv
    obtain ⟨rfl, h2, h3⟩ := ho
    have := rcDrop_freed hS ha h2 h3 [] .none
    refine ⟨_, ?_, this⟩
    simp [rcDrop, hl, h2, Data.val?]
  | piled d' v =>
    rw [hd] at ho
    simp [hd, Data.val?] at hv; subst hv
    obtain ⟨-, nv, h2, h3⟩ := ho
    obtain ⟨h', e, f1, f2⟩ := decrRef_freed hS ha h2 h3 []
    simp only [List.append_nil] at f1 f2
    refine ⟨h', ?_, f1, f2⟩
    simp only [M.bind_apply, e, Res.bind_ok, M.pure_apply]

end Trees
