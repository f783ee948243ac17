import Verif.Proof.Build
/-
A completed block next to the rest of the heap.
-/
namespace Trees
set_option linter.unusedSimpArgs false
variable {α β γ : Type}

/-- Child lists of the joined heap. -/
def joinK (P : Addr → Bool) (K KF : Addr → List Addr) : Addr → List Addr := fun a => if P a then KF a else K a

section
variable {hs F : Heap α} {K KF : Addr → List Addr} {v base n : Nat}

theorem join_used_in {P : Addr → Bool} {Q : Nat → Bool} {a : Addr} (hp : P a = true) :
    (join P Q hs F).Used a ↔ F.Used a := by simp [Heap.Used, join, hp]
theorem join_used_out {P : Addr → Bool} {Q : Nat → Bool} {a : Addr} (hp : P a = false) :
    (join P Q hs F).Used a ↔ hs.Used a := by simp [Heap.Used, join, hp]

theorem BInv.inP (B : BInv F v base n KF) {a : Addr} (ha : F.Used a) : blkP base n a = true :=
  blkP_iff.mpr ((B.live a).mp ha.1)

theorem join_used (A : Avoid (blkP base n) (blkQ v) hs) (B : BInv F v base n KF) {a : Addr} :
    (join (blkP base n) (blkQ v) hs F).Used a ↔ hs.Used a ∨ F.Used a := by
  cases hp : blkP base n a with
  | true =>
    rw [join_used_in hp]
    constructor
    · exact .inr
    · rintro (h | h)
      · rw [A.notP h.1] at hp; simp at hp
      · exact h
  | false =>
    rw [join_used_out hp]
    constructor
    · exact .inl
    · rintro (h | h)
      · exact h
      · rw [B.inP h] at hp; simp at hp

theorem join_val_in {P : Addr → Bool} {Q : Nat → Bool} {a : Addr} (hp : P a = true) :
    (join P Q hs F).val a = F.val a := by simp [Heap.val, join, hp]
theorem join_val_out {P : Addr → Bool} {Q : Nat → Bool} {a : Addr} (hp : P a = false) :
    (join P Q hs F).val a = hs.val a := by simp [Heap.val, join, hp]

theorem dsum_congr_mem {s s' : Addr → Size} {ks} (h : ∀ c ∈ ks, s' c = s c) : dsum s' ks = dsum s ks :=
  dsum_congr (fun c hc => by rw [h c hc])

theorem assemble_inv (hI : Inv hs K) (A : Avoid (blkP base n) (blkQ v) hs) (B : BInv F v base n KF)
    (hsz : ∀ a, F.Used a → F.size a = ⟨(KF a).length, dsum F.size (KF a)⟩) :
    Inv (join (blkP base n) (blkQ v) hs F) (joinK (blkP base n) K KF) := by
  have outK : ∀ {a c}, c ∈ K a → blkP base n c = false := fun hc => A.notP (hI.used_of_mem hc).1
  have outKp : ∀ {a c}, c ∈ K a → blkP base n a = false := fun hc => A.notP (hI.used_parent hc).1
  have inKF : ∀ {a c}, c ∈ KF a → F.Used c ∧ F.Used a ∧ F.up c = some a := by
    intro a c hc
    have h1 := (B.l.mem a c).mp hc
    exact ⟨h1.1, B.l.upU a c h1.1 (by simp) h1.2.2, h1.2.2⟩
  refine ⟨⟨?_, ?_, ?_, ?_, ?_, ?_, ?_⟩, ?_, ?_⟩
  · intro a ha
    cases hp : blkP base n a with
    | true => rw [join_used_in hp] at ha; simpa [join, joinK, hp] using B.l.head a ha
    | false => rw [join_used_out hp] at ha; simpa [join, joinK, hp] using hI.l.head a ha
  · intro a ha
    cases hp : blkP base n a with
    | true => rw [join_used_in hp] at ha; simpa [join, joinK, hp] using B.l.tail a ha
    | false => rw [join_used_out hp] at ha; simpa [join, joinK, hp] using hI.l.tail a ha
  · intro a c
    simp only [joinK, List.not_mem_nil, not_false_eq_true, true_and]
    cases hp : blkP base n a with
    | true =>
      simp only [if_true]
      constructor
      · intro hc
        obtain ⟨h1, h2, h3⟩ := inKF hc
        have := B.inP h1
        exact ⟨(join_used_in this).mpr h1, by simpa [join, this] using h3⟩
      · rintro ⟨h1, h2⟩
        cases hpc : blkP base n c with
        | true =>
          rw [join_used_in hpc] at h1
          simp only [join, hpc, if_true] at h2
          exact (B.l.mem a c).mpr ⟨h1, by simp, h2⟩
        | false =>
          rw [join_used_out hpc] at h1
          simp only [join, hpc, if_false, Bool.false_eq_true] at h2
          have := outKp (hI.mem_iff.mpr ⟨h1, h2⟩)
          rw [hp] at this; simp at this
    | false =>
      simp only [Bool.false_eq_true, if_false]
      constructor
      · intro hc
        have := outK hc
        exact ⟨(join_used_out this).mpr (hI.used_of_mem hc), by simpa [join, this] using hI.up_of_mem hc⟩
      · rintro ⟨h1, h2⟩
        cases hpc : blkP base n c with
        | true =>
          rw [join_used_in hpc] at h1
          simp only [join, hpc, if_true] at h2
          have := B.inP (B.l.upU a c h1 (by simp) h2)
          rw [hp] at this; simp at this
        | false =>
          rw [join_used_out hpc] at h1
          simp only [join, hpc, if_false, Bool.false_eq_true] at h2
          exact hI.mem_iff.mpr ⟨h1, h2⟩
  · intro a c hc _ hup
    rw [join_used A B]
    cases hpc : blkP base n c with
    | true =>
      rw [join_used_in hpc] at hc
      simp only [join, hpc, if_true] at hup
      exact .inr (B.l.upU a c hc (by simp) hup)
    | false =>
      rw [join_used_out hpc] at hc
      simp only [join, hpc, if_false, Bool.false_eq_true] at hup
      exact .inl (hI.l.upU a c hc (by simp) hup)
  · intro a ha
    cases hp : blkP base n a with
    | true =>
      rw [join_used_in hp] at ha
      simp only [joinK, hp, if_true]
      refine (B.l.links a ha).congr (fun c hc => ?_)
      simp [join, B.inP (inKF hc).1]
    | false =>
      rw [join_used_out hp] at ha
      simp only [joinK, hp, if_false, Bool.false_eq_true]
      refine (hI.l.links a ha).congr (fun c hc => ?_)
      simp [join, outK hc]
  · intro a
    simp only [joinK]
    split
    · exact B.l.nodup a
    · exact hI.l.nodup a
  · intro c hc _ hup
    cases hp : blkP base n c with
    | true =>
      rw [join_used_in hp] at hc
      simp only [join, hp, if_true] at hup ⊢
      exact B.l.root c hc (by simp) hup
    | false =>
      rw [join_used_out hp] at hc
      simp only [join, hp, if_false, Bool.false_eq_true] at hup ⊢
      exact hI.l.root c hc (by simp) hup
  · intro a ha
    cases hp : blkP base n a with
    | true =>
      rw [join_used_in hp] at ha
      simp only [joinK, hp, if_true]
      have h1 := hsz a ha
      have h2 : dsum (join (blkP base n) (blkQ v) hs F).size (KF a) = dsum F.size (KF a) :=
        dsum_congr_mem (fun c hc => by simp [join, B.inP (inKF hc).1])
      rw [h2, ← h1]; simp [join, hp]
    | false =>
      rw [join_used_out hp] at ha
      simp only [joinK, hp, if_false, Bool.false_eq_true]
      have h1 := hI.s a ha
      have h2 : dsum (join (blkP base n) (blkQ v) hs F).size (K a) = dsum hs.size (K a) :=
        dsum_congr_mem (fun c hc => by simp [join, outK hc])
      rw [h2, ← h1]; simp [join, hp]
  · intro a ha
    rcases (join_used A B).mp ha with h1 | h1
    · exact hI.b a h1
    · exact A.addr a (B.inP h1)

theorem assemble_sinv (hS : SInv hs) (A : Avoid (blkP base n) (blkQ v) hs) (B : BInv F v base n KF)
    (hn : 0 < n) (hall : ∀ a, blkP base n a = true → F.Used a) : SInv (join (blkP base n) (blkQ v) hs F) := by
  have hvec : ∀ {w nw}, (join (blkP base n) (blkQ v) hs F).vec w = some nw →
      (w = v ∧ nw = ⟨base, n, n⟩) ∨ (w ≠ v ∧ hs.vec w = some nw) := by
    intro w nw hw
    by_cases hwv : w = v
    · left
      subst hwv
      simp only [join, blkQ_self, if_true, B.vec, Option.some.injEq] at hw
      exact ⟨rfl, hw.symm⟩
    · right
      have : blkQ v w = false := by simp [blkQ, hwv]
      simp only [join, this, if_false, Bool.false_eq_true] at hw
      exact ⟨hwv, hw⟩
  have hvec' : ∀ {w nw}, hs.vec w = some nw → (join (blkP base n) (blkQ v) hs F).vec w = some nw := by
    intro w nw hw
    simp [join, A.notQ hw, hw]
  have hvecv : (join (blkP base n) (blkQ v) hs F).vec v = some ⟨base, n, n⟩ := by
    simp [join, blkQ_self, B.vec]
  have hin : ∀ {a}, InVec ⟨base, n, n⟩ a ↔ blkP base n a = true := by intro a; rw [blkP_iff]; rfl
  refine ⟨?_, ?_, ?_, ?_, ?_, ?_, ?_⟩
  · intro a ha
    cases hp : blkP base n a with
    | true => exact A.addr a hp
    | false => simp only [join, hp, if_false, Bool.false_eq_true] at ha; exact hS.liveB a ha
  · intro w nw hw
    rcases hvec hw with ⟨rfl, rfl⟩ | ⟨_, h1⟩
    · refine ⟨A.vecN _ blkQ_self, ?_⟩
      have := A.addr (base + (n - 1)) (blkP_add (by omega))
      simp only [join]
      have e : base + n = base + (n - 1) + 1 := by omega
      show base + n ≤ _
      rw [e]; exact this
    · exact hS.vecB w nw h1
  · intro w nw hw
    rcases hvec hw with ⟨rfl, rfl⟩ | ⟨_, h1⟩
    · simp only [usedCnt, Nat.add_zero]
      have : (List.range' base n).countP (join (blkP base n) (blkQ w) hs F).usedB = (List.range' base n).length := by
        rw [List.countP_eq_length]
        intro a ha
        have hp : blkP base n a = true := by rw [blkP_iff]; simpa using ha
        exact Heap.usedB_iff.mpr ((join_used_in hp).mpr (hall a hp))
      rw [this]; simp
    · rw [hS.cnt w nw h1]
      congr 1
      apply List.countP_congr
      intro a ha
      have := A.blk w nw h1 a (mem_vec_range.mp ha)
      simp [Heap.usedB, join, this]
  · intro w nw hw
    rcases hvec hw with ⟨rfl, rfl⟩ | ⟨_, h1⟩
    · exact hn
    · exact hS.pos w nw h1
  · intro w nw w' nw' a hw hw' ha ha'
    rcases hvec hw with ⟨rfl, rfl⟩ | ⟨_, h1⟩ <;> rcases hvec hw' with ⟨rfl, rfl⟩ | ⟨_, h1'⟩
    · rfl
    · rw [hin] at ha; rw [A.blk _ _ h1' a ha'] at ha; simp at ha
    · rw [hin] at ha'; rw [A.blk _ _ h1 a ha] at ha'; simp at ha'
    · exact hS.disj w nw w' nw' a h1 h1' ha ha'
  · intro a ha
    cases hp : blkP base n a with
    | true =>
      rw [join_used_in hp] at ha
      simp only [join, hp, if_true]
      rcases B.own a ha with h1 | ⟨d, h1⟩
      · rw [h1]; exact ⟨by simp [join, hp, B.cnt], _, hvecv, hin.mpr hp⟩
      · rw [h1]; exact ⟨by simp [join, hp, B.cnt], _, hvecv, hin.mpr hp⟩
    | false =>
      rw [join_used_out hp] at ha
      simp only [join, hp, if_false, Bool.false_eq_true]
      have := hS.owner a ha
      have hcnt : (join (blkP base n) (blkQ v) hs F).count a = hs.count a := by simp [join, hp]
      have hno : (∀ w nw, hs.vec w = some nw → ¬ InVec nw a) → ∀ w nw, (join (blkP base n) (blkQ v) hs F).vec w = some nw → ¬ InVec nw a := by
        intro hh w nw hw
        rcases hvec hw with ⟨rfl, rfl⟩ | ⟨_, h1⟩
        · rw [hin, hp]; simp
        · exact hh w nw h1
      cases hd : hs.data a <;> rw [hd] at this
      · exact this
      · exact ⟨this.1, by simpa [join, hp] using this.2.1, hno this.2.2⟩
      · exact ⟨this.1, by simpa [join, hp] using this.2.1, hno this.2.2⟩
      · obtain ⟨h0, nw, h1, h2⟩ := this
        exact ⟨hcnt.trans h0, nw, hvec' h1, h2⟩
      · obtain ⟨h0, nw, h1, h2⟩ := this
        exact ⟨hcnt.trans h0, nw, hvec' h1, h2⟩
  · intro a ha
    cases hp : blkP base n a with
    | true => left; exact (join_used_in hp).mpr (hall a hp)
    | false =>
      simp only [join, hp, if_false, Bool.false_eq_true] at ha
      rcases hS.tight a ha with h1 | ⟨w, nw, h1, h2⟩
      · left; exact (join_used_out hp).mpr h1
      · right; exact ⟨w, nw, hvec' h1, h2⟩

end

/-- Trees from a coherent labelling of nodes by subtrees. -/
theorem den_of_plan {val : Addr → Option α} {K : Addr → List Addr} (sub : Addr → RTree α → Prop)
    (H : ∀ a t, sub a t → val a = some t.data ∧ List.Forall₂ sub (K a) t.kids) :
    ∀ t a, sub a t → Den val K a t := by
  intro t
  induction t using RTree.ind with
  | h d ks ih =>
    intro a ha
    obtain ⟨h1, h2⟩ := H a _ ha
    rw [Den_node]
    refine ⟨h1, ?_⟩
    rw [DenL_forall₂]
    simp only [RTree.kids_node] at h2
    clear ha h1
    revert ih h2
    generalize K a = cs
    intro ih h2
    induction h2 with
    | nil => exact .nil
    | cons h3 _ ih2 =>
      exact .cons (ih _ (by simp) _ h3) (ih2 (fun t ht => ih t (by simp [ht])))

/-- Sizes that agree with the denoted subtrees are locally consistent. -/
theorem sz_of_den {val : Addr → Option α} {K : Addr → List Addr} {s : Addr → Size} {U : Addr → Prop}
    (hK : ∀ a c, c ∈ K a → U c)
    (H : ∀ a, U a → ∃ ts, DenL val K (K a) ts ∧ s a = ⟨ts.length, RTree.countL ts⟩) {a : Addr} (ha : U a) :
    s a = ⟨(K a).length, dsum s (K a)⟩ := by
  obtain ⟨ts, h1, h2⟩ := H a ha
  rw [h2, h1.length]
  congr 1
  have : ∀ cs us, (∀ c ∈ cs, U c) → DenL val K cs us → RTree.countL us = dsum s cs := by
    intro cs
    induction cs with
    | nil => intro us _ h; simp at h; simp [h]
    | cons c cs ih =>
      intro us hc h
      rw [DenL_cons_left] at h
      obtain ⟨t, us, rfl, h3, h4⟩ := h
      rw [dsum_cons, RTree.countL, ← ih us (fun x hx => hc x (by simp [hx])) h4]
      congr 1
      obtain ⟨ws, h5, h6⟩ := H c (hc c (by simp))
      cases t with
      | node d ks =>
        rw [Den_node] at h3
        rw [h6, h3.2.unique h5]
        rfl
  exact this _ _ (fun c hc => hK a c hc) h1

end Trees
