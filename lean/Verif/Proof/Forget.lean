import Verif.Proof.Crash
/-
Forgetting nodes: a closed set of nodes can be taken out of the picture; what is left is a well-formed heap, the full
heap is that plus leaked memory.
-/
namespace Trees
set_option linter.unusedSimpArgs false
set_option linter.unusedVariables false
variable {α : Type}
open Classical

/-- Part of the nodes in `T` has been released, the rest of `T` may have changed its shape; nothing else is touched. -/
structure Part (h : Heap α) (K : Addr → List Addr) (h' : Heap α) (K' : Addr → List Addr) (T : Addr → Prop) (lg : List α) (D : Nat → Nat) : Prop where
  inv : Inv h' K'
  st : SInvD h' D
  usedI : ∀ x, h'.Used x → h.Used x
  used : ∀ x, h.Used x → ¬ T x → h'.Used x
  kids : ∀ x, h.Used x → ¬ T x → K' x = K x
  data : ∀ x, h'.Used x → h'.data x = h.data x
  up : ∀ x, h.Used x → ¬ T x → h'.up x = h.up x
  count : ∀ x, h.Used x → ¬ T x → h'.count x = h.count x
  closed : ∀ a c, c ∈ K' a → (T a ↔ T c)
  borrow : h'.borrow = h.borrow
  nextAddr : h'.nextAddr = h.nextAddr
  nextVec : h'.nextVec = h.nextVec
  log : h'.log = h.log ++ lg

theorem Part.trans {h h1 h2 : Heap α} {K K1 K2 : Addr → List Addr} {T T1 : Addr → Prop} {l1 l2 : List α} {D : Nat → Nat}
    (p : Part h K h1 K1 T l1 D) (q : Part h1 K1 h2 K2 T1 l2 D) (hT : ∀ x, T1 x → T x) : Part h K h2 K2 T (l1 ++ l2) D where
  inv := q.inv
  st := q.st
  usedI x hx := p.usedI x (q.usedI x hx)
  used x hx hn := q.used x (p.used x hx hn) (fun h => hn (hT x h))
  kids x hx hn := (q.kids x (p.used x hx hn) (fun h => hn (hT x h))).trans (p.kids x hx hn)
  data x hx := (q.data x hx).trans (p.data x (q.usedI x hx))
  up x hx hn := (q.up x (p.used x hx hn) (fun h => hn (hT x h))).trans (p.up x hx hn)
  count x hx hn := (q.count x (p.used x hx hn) (fun h => hn (hT x h))).trans (p.count x hx hn)
  closed a c hc := by
    by_cases ha : T1 a
    · have := (q.closed a c hc).mp ha
      exact iff_of_true (hT a ha) (hT c this)
    · rw [q.kids a (q.usedI a (q.inv.used_parent hc)) ha] at hc
      exact p.closed a c hc
  borrow := q.borrow.trans p.borrow
  nextAddr := q.nextAddr.trans p.nextAddr
  nextVec := q.nextVec.trans p.nextVec
  log := by rw [q.log, p.log, List.append_assoc]

/-- Only the part about a set that contains the nodes touched. -/
theorem Part.mono {h h1 : Heap α} {K K1 : Addr → List Addr} {T T' : Addr → Prop} {l : List α} {D : Nat → Nat}
    (p : Part h K h1 K1 T l D) (hT : ∀ x, T x → T' x) (hc : ∀ a c, c ∈ K1 a → (T' a ↔ T' c)) : Part h K h1 K1 T' l D where
  inv := p.inv
  st := p.st
  usedI := p.usedI
  used x hx hn := p.used x hx (fun h => hn (hT x h))
  kids x hx hn := p.kids x hx (fun h => hn (hT x h))
  data := p.data
  up x hx hn := p.up x hx (fun h => hn (hT x h))
  count x hx hn := p.count x hx (fun h => hn (hT x h))
  closed := hc
  borrow := p.borrow
  nextAddr := p.nextAddr
  nextVec := p.nextVec
  log := p.log

/-- The nodes below a root. -/
theorem Inv.reach_closed {h : Heap α} {K : Addr → List Addr} (hI : Inv h K) {r : Addr} (hr : h.up r = none) {a c : Addr} (hc : c ∈ K a) :
    Reach K r a ↔ Reach K r c := by
  constructor
  · intro h1; exact h1.trans (.step hc (.refl _))
  · intro h1
    rcases h1.cases_tail with e | ⟨q, h2, h3⟩
    · rw [← e] at hc; exact absurd hc (hI.not_mem_of_root hr)
    · rw [hI.eq_of_mem hc h3]; exact h2

theorem Dropped.part {h h' : Heap α} {K K' : Addr → List Addr} {r : Addr} {lg : List α} {D : Nat → Nat} (hI : Inv h K) (hr : h.up r = none)
    (d : Dropped h K r lg h' K' D) : Part h K h' K' (Reach K r) lg D where
  inv := d.inv
  st := d.st
  usedI x hx := ((d.sh.used x).mp hx).1
  used x hx hn := (d.sh.used x).mpr ⟨hx, hn⟩
  kids := d.sh.kids
  data x hx := d.sh.data x ((d.sh.used x).mp hx).1 ((d.sh.used x).mp hx).2
  up := d.sh.up
  count := d.sh.count
  closed a c hc := by
    have ha := (d.sh.used a).mp (d.inv.used_parent hc)
    rw [d.sh.kids a ha.1 ha.2] at hc
    exact hI.reach_closed hr hc
  borrow := d.sh.borrow
  nextAddr := d.sh.nextAddr
  nextVec := d.sh.nextVec
  log := d.sh.log

/-! ### Cutting out a set of nodes -/

/-- The number of used slots of a block in / outside of the set. -/
noncomputable def cntIn (h : Heap α) (P : Addr → Prop) (nv : NodeVec) : Nat := (List.range' nv.base nv.cap).countP fun a => h.usedB a && decide (P a)
noncomputable def cntOut (h : Heap α) (P : Addr → Prop) (nv : NodeVec) : Nat := (List.range' nv.base nv.cap).countP fun a => h.usedB a && !decide (P a)

theorem cnt_split (h : Heap α) (P : Addr → Prop) (nv : NodeVec) : usedCnt h nv = cntOut h P nv + cntIn h P nv := by
  have : ∀ l : List Addr, l.countP h.usedB = l.countP (fun a => h.usedB a && !decide (P a)) + l.countP (fun a => h.usedB a && decide (P a)) := by
    intro l
    induction l with
    | nil => rfl
    | cons a l ih =>
      simp only [List.countP_cons, ih]
      cases h.usedB a <;> by_cases hp : P a <;> simp [hp] <;> omega
  exact this _

theorem cntOut_pos {h : Heap α} {P : Addr → Prop} {nv : NodeVec} {a : Addr} (ha : InVec nv a) (hu : h.Used a) (hp : ¬ P a) : 0 < cntOut h P nv :=
  List.countP_pos_iff.mpr ⟨a, mem_vec_range.mpr ha, by simp [Heap.usedB_iff.mpr hu, hp]⟩

theorem cntIn_pos {h : Heap α} {P : Addr → Prop} {nv : NodeVec} {a : Addr} (ha : InVec nv a) (hu : h.Used a) (hp : P a) : 0 < cntIn h P nv :=
  List.countP_pos_iff.mpr ⟨a, mem_vec_range.mpr ha, by simp [Heap.usedB_iff.mpr hu, hp]⟩

/-- A block without the slots in the set. -/
noncomputable def cutHVec (h : Heap α) (P : Addr → Prop) (nv : NodeVec) : Option NodeVec :=
  if cntOut h P nv = 0 then none else some { nv with refCnt := cntOut h P nv }

/-- The heap without the nodes in the set. -/
noncomputable def cutH (h : Heap α) (P : Addr → Prop) : Heap α :=
  { h with
    live := fun a => h.live a && !decide (P a) && !decide (∃ v nv, h.vec v = some nv ∧ InVec nv a ∧ cntOut h P nv = 0)
    vec := fun v => (h.vec v).bind (cutHVec h P) }

/-- What is cutH out. -/
noncomputable def cutHCtx (h : Heap α) (P : Addr → Prop) : Ctx α :=
  ⟨fun a => decide (P a), h, fun _ => 0, fun v => (h.vec v).bind fun nv => if cntIn h P nv = 0 then none else some { nv with refCnt := cntIn h P nv }⟩

section
variable {h : Heap α} {P : Addr → Prop}

theorem cutH_live {a : Addr} : (cutH h P).live a = true ↔ h.live a = true ∧ ¬ P a ∧ ¬ ∃ v nv, h.vec v = some nv ∧ InVec nv a ∧ cntOut h P nv = 0 := by
  simp only [cutH, Bool.and_eq_true, Bool.not_eq_true', decide_eq_false_iff_not, and_assoc]

theorem cutH_used {a : Addr} : (cutH h P).Used a ↔ h.Used a ∧ ¬ P a := by
  constructor
  · intro hu; exact ⟨⟨(cutH_live.mp hu.1).1, hu.2⟩, (cutH_live.mp hu.1).2.1⟩
  · rintro ⟨hu, hp⟩
    refine ⟨cutH_live.mpr ⟨hu.1, hp, ?_⟩, hu.2⟩
    rintro ⟨v, nv, h1, h2, h3⟩
    have := cntOut_pos h2 hu hp
    omega

theorem cutH_vec {v : Nat} {nw : NodeVec} : (cutH h P).vec v = some nw ↔ ∃ nv, h.vec v = some nv ∧ 0 < cntOut h P nv ∧ nw = { nv with refCnt := cntOut h P nv } := by
  simp only [cutH, Option.bind_eq_some_iff, cutHVec]
  refine exists_congr fun nv => and_congr_right fun _ => ?_
  split
  · rename_i h0; simp [h0]
  · rename_i h0
    have : 0 < cntOut h P nv := Nat.pos_of_ne_zero h0
    simp [this, eq_comm]

theorem cutH_usedCnt (nv : NodeVec) : usedCnt (cutH h P) nv = cntOut h P nv := by
  unfold usedCnt cntOut
  apply List.countP_congr
  intro a _
  rw [Heap.usedB_iff, cutH_used]
  simp [Heap.usedB_iff]

theorem cutH_st (hS : SInv h) : SInv (cutH h P) := by
  refine ⟨?_, ?_, ?_, ?_, ?_, ?_, ?_⟩
  · intro a ha; exact hS.liveB a (cutH_live.mp ha).1
  · intro v nw e
    obtain ⟨nv, h1, h2, rfl⟩ := cutH_vec.mp e
    exact hS.vecB v nv h1
  · intro v nw e
    obtain ⟨nv, h1, h2, rfl⟩ := cutH_vec.mp e
    exact (cutH_usedCnt nv).symm
  · intro v nw e
    obtain ⟨nv, h1, h2, rfl⟩ := cutH_vec.mp e
    exact h2
  · intro v nv w nw a e1 e2 h3 h4
    obtain ⟨nv', g1, g2, rfl⟩ := cutH_vec.mp e1
    obtain ⟨nw', g3, g4, rfl⟩ := cutH_vec.mp e2
    exact hS.disj v nv' w nw' a g1 g3 h3 h4
  · intro a ha
    obtain ⟨hu, hp⟩ := cutH_used.mp ha
    have ho := hS.owner a hu
    have hd : (cutH h P).data a = h.data a := rfl
    have hcnt : (cutH h P).count a = h.count a := rfl
    rw [hd]
    have sc : ∀ v nw, (∀ v nv, h.vec v = some nv → ¬ InVec nv a) → (cutH h P).vec v = some nw → ¬ InVec nw a := by
      intro v nw hh e
      obtain ⟨nv, h1, h2, rfl⟩ := cutH_vec.mp e
      exact hh v nv h1
    have pl : ∀ v, (∃ nv, h.vec v = some nv ∧ InVec nv a) → ∃ nv, (cutH h P).vec v = some nv ∧ InVec nv a := by
      rintro v ⟨nv, h1, h2⟩
      exact ⟨_, cutH_vec.mpr ⟨nv, h1, cntOut_pos h2 hu hp, rfl⟩, h2⟩
    cases hda : h.data a with
    | none => rw [hda] at ho; exact ho
    | scatteredNone o => rw [hda] at ho; exact ⟨ho.1, ho.2.1, fun v nw => sc v nw ho.2.2⟩
    | scattered d o => rw [hda] at ho; exact ⟨ho.1, ho.2.1, fun v nw => sc v nw ho.2.2⟩
    | piledNone v => rw [hda] at ho; exact ⟨ho.1, pl v ho.2⟩
    | piled d v => rw [hda] at ho; exact ⟨ho.1, pl v ho.2⟩
  · intro a ha
    obtain ⟨h1, h2, h3⟩ := cutH_live.mp ha
    rcases hS.tight a h1 with hu | ⟨v, nv, h4, h5⟩
    · exact .inl (cutH_used.mpr ⟨hu, h2⟩)
    · refine .inr ⟨v, _, cutH_vec.mpr ⟨nv, h4, ?_, rfl⟩, h5⟩
      apply Nat.pos_of_ne_zero
      intro h0
      exact h3 ⟨v, nv, h4, h5, h0⟩

theorem cutH_rel (hS : SInv h) (hP : ∀ a, P a → h.Used a) : HRel (cutHCtx h P) (cutH h P) h := by
  have pk : ∀ {β : Type} (b : Bool) (x : β), x = pick b x x := by intro β b x; cases b <;> rfl
  refine ⟨fun a => pk _ _, fun a => pk _ _, fun a => pk _ _, fun a => pk _ _, fun a => pk _ _, fun a => pk _ _, fun a => pk _ _, fun a => pk _ _,
    fun a => pk _ _, ?_, rfl, rfl, rfl, fun a _ => rfl, ?_, ?_, ?_, ?_, ?_, ?_, ?_, ?_⟩
  · intro v
    simp only [cutH, cutHCtx]
    cases hv : h.vec v with
    | none => rfl
    | some nv =>
      simp only [Option.bind_some, cutHVec]
      have h1 := hS.cnt v nv hv
      have h2 := cnt_split h P nv
      have h3 := hS.pos v nv hv
      simp only [Nat.add_zero] at h1
      by_cases e1 : cntOut h P nv = 0
      · have e2 : cntIn h P nv ≠ 0 := by omega
        have e3 : cntIn h P nv = nv.refCnt := by omega
        rw [if_pos e1, if_neg e2, e3]; rfl
      · rw [if_neg e1]
        by_cases e2 : cntIn h P nv = 0
        · have e3 : cntOut h P nv = nv.refCnt := by omega
          rw [if_pos e2, e3]; rfl
        · have e3 : cntOut h P nv + cntIn h P nv = nv.refCnt := by omega
          rw [if_neg e2]
          simp only [addVec, e3]
  · intro a ha; exact (cutH_live.mp ha).1
  · intro a ha hl
    have ha' : ¬ P a := by simpa [cutHCtx] using ha
    by_cases hx : ∃ v nv, h.vec v = some nv ∧ InVec nv a ∧ cntOut h P nv = 0
    · obtain ⟨v, nv, h1, h2, h3⟩ := hx
      have h4 := hS.cnt v nv h1
      have h5 := cnt_split h P nv
      have h6 := hS.pos v nv h1
      simp only [Nat.add_zero] at h4
      refine .inr ⟨v, { nv with refCnt := cntIn h P nv }, ?_, ?_, h2⟩
      · have : cntIn h P nv ≠ 0 := by omega
        simp [cutHCtx, h1, this]
      · simp [cutH, cutHVec, h1, h3]
    · exact .inl (cutH_live.mpr ⟨hl, ha', hx⟩)
  · intro a ha
    have ha' : P a := by simpa [cutHCtx] using ha
    cases hl : (cutH h P).live a with
    | false => rfl
    | true => exact absurd ha' (cutH_live.mp hl).2.1
  · intro a ha
    have ha' : P a := by simpa [cutHCtx] using ha
    exact hS.liveB a (hP a ha').1
  · intro a ha; exact absurd rfl ha
  · intro v b hb
    simp only [cutHCtx, Option.bind_eq_some_iff] at hb
    obtain ⟨nv, h1, h2⟩ := hb
    split at h2
    · simp at h2
    · rename_i h0
      cases h2
      exact ⟨(hS.vecB v nv h1).1, Nat.pos_of_ne_zero h0⟩
  · intro v x y hx hy
    obtain ⟨nv, h1, h2, rfl⟩ := cutH_vec.mp hx
    simp only [cutHCtx, h1, Option.bind_some] at hy
    split at hy
    · simp at hy
    · cases hy; exact ⟨rfl, rfl, h2⟩
  · intro v x hx hr a ha
    obtain ⟨nv, h1, h2, rfl⟩ := cutH_vec.mp hx
    simp only [cutHCtx, h1, Option.bind_some] at hr
    split at hr
    · rename_i h0
      simp only [cutHCtx, decide_eq_false_iff_not]
      intro hp
      have := cntIn_pos (nv := nv) ha (hP a hp) hp
      omega
    · simp at hr

/-- The child lists without the nodes in the set. -/
noncomputable def cutHK (P : Addr → Prop) (K : Addr → List Addr) : Addr → List Addr := fun a => if P a then [] else K a

theorem cutHK_of {K : Addr → List Addr} {a : Addr} (hp : ¬ P a) : cutHK P K a = K a := by simp [cutHK, hp]

theorem cutH_inv {K : Addr → List Addr} (hI : Inv h K) (hc : ∀ a c, c ∈ K a → (P a ↔ P c)) : Inv (cutH h P) (cutHK P K) := by
  refine ⟨⟨?_, ?_, ?_, ?_, ?_, ?_, ?_⟩, ?_, ?_⟩
  · intro a ha; obtain ⟨hu, hp⟩ := cutH_used.mp ha; rw [cutHK_of hp]; exact hI.l.head a hu
  · intro a ha; obtain ⟨hu, hp⟩ := cutH_used.mp ha; rw [cutHK_of hp]; exact hI.l.tail a hu
  · intro a c
    simp only [List.not_mem_nil, not_false_eq_true, true_and]
    have hup : (cutH h P).up = h.up := rfl
    rw [cutH_used, hup, and_right_comm, ← hI.mem_iff]
    by_cases hp : P a
    · simp only [cutHK, if_pos hp, List.not_mem_nil, false_iff, not_and, not_not]
      intro h1; exact (hc a c h1).mp hp
    · rw [cutHK_of hp]
      exact ⟨fun h1 => ⟨h1, fun h2 => hp ((hc a c h1).mpr h2)⟩, And.left⟩
  · intro a c hcu _ hup
    obtain ⟨hu, hp⟩ := cutH_used.mp hcu
    have hm : c ∈ K a := hI.mem_iff.mpr ⟨hu, hup⟩
    exact cutH_used.mpr ⟨hI.used_parent hm, fun h2 => hp ((hc a c hm).mp h2)⟩
  · intro a ha; obtain ⟨hu, hp⟩ := cutH_used.mp ha; rw [cutHK_of hp]; exact hI.l.links a hu
  · intro a; unfold cutHK; split
    · exact List.nodup_nil
    · exact hI.l.nodup a
  · intro c hcu _ hup; exact hI.l.root c (cutH_used.mp hcu).1 (by simp) hup
  · intro a ha; obtain ⟨hu, hp⟩ := cutH_used.mp ha; rw [cutHK_of hp]; exact hI.s a hu
  · intro a ha; exact hI.b a (cutH_used.mp ha).1

end

/-- After a partial drop, what is left of the tree can be forgotten: the rest of the heap is as after a complete drop. -/
theorem Part.forget {h h' : Heap α} {K K' : Addr → List Addr} {r : Addr} {lg : List α} (p : Part h K h' K' (Reach K r) lg (fun _ => 0)) :
    ∃ X K'', Leak X h' ∧ Dropped h K r lg X K'' (fun _ => 0) := by
  let P : Addr → Prop := fun a => h'.Used a ∧ Reach K r a
  have hP : ∀ a, h'.Used a → (P a ↔ Reach K r a) := fun a ha => ⟨And.right, fun h => ⟨ha, h⟩⟩
  have hc : ∀ a c, c ∈ K' a → (P a ↔ P c) := by
    intro a c hc
    rw [hP a (p.inv.used_parent hc), hP c (p.inv.used_of_mem hc)]
    exact p.closed a c hc
  have hnP : ∀ {x}, ¬ Reach K r x → ¬ P x := fun hn hh => hn hh.2
  refine ⟨cutH h' P, cutHK P K', .more (ρ := cutHCtx h' P) (fun _ => rfl) (cutH_rel p.st fun a ha => ha.1) (.refl _), cutH_inv p.inv hc, cutH_st p.st, ?_⟩
  refine ⟨?_, ?_, ?_, ?_, ?_, p.borrow, p.nextAddr, p.nextVec, p.log⟩
  · intro x
    rw [cutH_used]
    constructor
    · rintro ⟨h1, h2⟩; exact ⟨p.usedI x h1, fun h3 => h2 ⟨h1, h3⟩⟩
    · rintro ⟨h1, h2⟩; exact ⟨p.used x h1 h2, hnP h2⟩
  · intro x hx hn; rw [cutHK_of (hnP hn)]; exact p.kids x hx hn
  · intro x hx hn; exact p.data x (p.used x hx hn)
  · exact p.up
  · exact p.count

theorem Part.refl {h : Heap α} {K : Addr → List Addr} {r : Addr} (hI : Inv h K) (hS : SInv h) (hr : h.up r = none) :
    Part h K h K (Reach K r) [] (fun _ => 0) :=
  ⟨hI, hS, fun _ h => h, fun _ h _ => h, fun _ _ _ => rfl, fun _ _ => rfl, fun _ _ _ => rfl, fun _ _ _ => rfl, fun _ _ hc => hI.reach_closed hr hc,
    rfl, rfl, rfl, by simp⟩

end Trees
