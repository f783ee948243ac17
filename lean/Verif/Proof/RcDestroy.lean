import Verif.Proof.RcDrop
import Verif.Proof.Drop
/-
The recursion of `Drop for RcNode`.
-/
namespace Trees
set_option linter.unusedSimpArgs false
set_option linter.unusedVariables false
variable {α β γ : Type}

/-- Data items with identities. -/
def Heap.lab (h : Heap α) (a : Addr) : Option (Addr × α) := (h.val a).map fun d => (a, d)

theorem Heap.lab_some {h : Heap α} {a : Addr} {x : Addr × α} : h.lab a = some x ↔ x.1 = a ∧ h.val a = some x.2 := by
  simp only [Heap.lab, Option.map_eq_some_iff]
  constructor
  · rintro ⟨d, h1, rfl⟩; exact ⟨rfl, h1⟩
  · rintro ⟨rfl, h2⟩; exact ⟨x.2, h2, rfl⟩

theorem lab_congr {G G' : Heap α} {x : Addr} (h : G'.data x = G.data x) : G'.lab x = G.lab x := by
  simp only [Heap.lab, Heap.val, h]

/-- Nodes that go with the last owner of `a`. -/
inductive Dead (K : Addr → List Addr) (e : Addr → Nat) : Addr → Addr → Prop
  | here {a} : e a = 0 → Dead K e a a
  | step {a c x} : e a = 0 → c ∈ K a → Dead K e c x → Dead K e a x

/-- Nodes that become roots when the last owner of `a` goes. -/
inductive Orph (K : Addr → List Addr) (e : Addr → Nat) : Addr → Addr → Prop
  | here {a} : e a ≠ 0 → Orph K e a a
  | step {a c x} : e a = 0 → c ∈ K a → Orph K e c x → Orph K e a x

theorem Dead.reach {K : Addr → List Addr} {e : Addr → Nat} {a x : Addr} (h : Dead K e a x) : Reach K a x := by
  induction h with
  | here => exact .refl _
  | step _ hm _ ih => exact .step hm ih

theorem Orph.reach {K : Addr → List Addr} {e : Addr → Nat} {a x : Addr} (h : Orph K e a x) : Reach K a x := by
  induction h with
  | here => exact .refl _
  | step _ hm _ ih => exact .step hm ih

theorem Dead.zero {K : Addr → List Addr} {e : Addr → Nat} {a x : Addr} (h : Dead K e a x) : e x = 0 := by
  induction h with
  | here h => exact h
  | step _ _ _ ih => exact ih

theorem Orph.pos {K : Addr → List Addr} {e : Addr → Nat} {a x : Addr} (h : Orph K e a x) : e x ≠ 0 := by
  induction h with
  | here h => exact h
  | step _ _ _ ih => exact ih

theorem dead_iff {K : Addr → List Addr} {e : Addr → Nat} {a x : Addr} (h0 : e a = 0) :
    Dead K e a x ↔ x = a ∨ ∃ c ∈ K a, Dead K e c x := by
  constructor
  · intro h
    cases h with
    | here => exact .inl rfl
    | step _ hm h => exact .inr ⟨_, hm, h⟩
  · rintro (rfl | ⟨c, h1, h2⟩)
    · exact .here h0
    · exact .step h0 h1 h2

theorem orph_iff {K : Addr → List Addr} {e : Addr → Nat} {a x : Addr} (h0 : e a = 0) :
    Orph K e a x ↔ ∃ c ∈ K a, Orph K e c x := by
  constructor
  · intro h
    cases h with
    | here h => exact absurd h0 h
    | step _ hm h => exact ⟨_, hm, h⟩
  · rintro ⟨c, h1, h2⟩; exact .step h0 h1 h2

theorem dead_congr {K K' : Addr → List Addr} {e e' : Addr → Nat} {a x : Addr}
    (h : ∀ b, Reach K a b → K' b = K b ∧ e' b = e b) : Dead K' e' a x ↔ Dead K e a x := by
  constructor
  · intro hr
    induction hr with
    | here h0 => exact .here (by rw [← (h _ (.refl _)).2]; exact h0)
    | step h0 hm _ ih =>
      rename_i a c x _
      have hm' : c ∈ K a := by rw [← (h a (.refl _)).1]; exact hm
      exact .step (by rw [← (h a (.refl _)).2]; exact h0) hm' (ih fun b hb => h b (.step hm' hb))
  · intro hr
    induction hr with
    | here h0 => exact .here (by rw [(h _ (.refl _)).2]; exact h0)
    | step h0 hm _ ih =>
      rename_i a c x _
      exact .step (by rw [(h a (.refl _)).2]; exact h0) (by rw [(h a (.refl _)).1]; exact hm) (ih fun b hb => h b (.step hm hb))

theorem orph_congr {K K' : Addr → List Addr} {e e' : Addr → Nat} {a x : Addr}
    (h : ∀ b, Reach K a b → K' b = K b ∧ e' b = e b) : Orph K' e' a x ↔ Orph K e a x := by
  constructor
  · intro hr
    induction hr with
    | here h0 => exact .here (by rw [← (h _ (.refl _)).2]; exact h0)
    | step h0 hm _ ih =>
      rename_i a c x _
      have hm' : c ∈ K a := by rw [← (h a (.refl _)).1]; exact hm
      exact .step (by rw [← (h a (.refl _)).2]; exact h0) hm' (ih fun b hb => h b (.step hm' hb))
  · intro hr
    induction hr with
    | here h0 => exact .here (by rw [(h _ (.refl _)).2]; exact h0)
    | step h0 hm _ ih =>
      rename_i a c x _
      exact .step (by rw [(h a (.refl _)).2]; exact h0) (by rw [(h a (.refl _)).1]; exact hm) (ih fun b hb => h b (.step hm hb))

/-- The effect of releasing the nodes `S`; the nodes `O` become roots and lose an owner. (The children of the nodes `X`
may have changed.) -/
structure Gone (G : Heap α) (K : Addr → List Addr) (e : Addr → Nat) (G' : Heap α) (K' : Addr → List Addr) (e' : Addr → Nat)
    (X S O : Addr → Prop) (lg : List α) : Prop where
  inv : Inv G' K'
  st : SInv G'
  used : ∀ x, G'.Used x ↔ G.Used x ∧ ¬ S x
  live : ∀ x, G'.live x = true → G.live x = true ∧ ¬ S x
  kids : ∀ x, G.Used x → ¬ S x → ¬ X x → K' x = K x
  data : ∀ x, G.Used x → ¬ S x → G'.data x = G.data x
  upO : ∀ x, O x → G'.up x = none
  upN : ∀ x, G.Used x → ¬ S x → ¬ O x → G'.up x = G.up x
  eO : ∀ x, O x → e' x + 1 = e x
  eN : ∀ x, ¬ O x → e' x = e x
  vecs : VecSub G' G
  borrow : G'.borrow = G.borrow
  nextAddr : G'.nextAddr = G.nextAddr
  nextVec : G'.nextVec = G.nextVec
  log : G'.log = G.log ++ lg

/-- The heap and the additional handles before a release. -/
structure Pre (G : Heap α) (K : Addr → List Addr) (e : Addr → Nat) : Prop where
  inv : Inv G K
  st : SInv G
  hE : ∀ x, e x ≠ 0 → G.Used x

theorem RcRef.Is.keep {G G' : Heap α} {r : RcRef} {a : Addr} (h : r.Is G a) (hu : G'.Used a) (hS : SInv G') (hd : G'.data a = G.data a)
    (hV : VecSub G' G) : r.Is G' a := by
  cases r with
  | scattered o => exact ⟨h.1, by rw [hd]; exact h.2⟩
  | piled v i =>
    obtain ⟨nv, d, h1, h2, h3, h4⟩ := h
    obtain ⟨nv', g1, g2⟩ := hS.hasBlk hu (w := v) (by rw [hd, h4]; rfl)
    obtain ⟨n0, f1, f2, f3⟩ := hV v nv' g1
    rw [h1] at f1; cases f1
    exact ⟨nv', d, g1, by rw [f3]; exact h2, by rw [f2]; exact h3, by rw [hd]; exact h4⟩

/-- The nodes that are still owned otherwise. -/
def heldB (e : Addr → Nat) (a : Addr) : Bool := decide (e a ≠ 0)

theorem Pre.gone {G : Heap α} {K e G' K' e' X S O lg} (P : Pre G K e) (g : Gone G K e G' K' e' X S O lg) (hS : ∀ x, S x → e x = 0) : Pre G' K' e' := by
  refine ⟨g.inv, g.st, fun x hx => ?_⟩
  have : e x ≠ 0 := by
    by_cases ho : O x
    · have := g.eO x ho; omega
    · rw [← g.eN x ho]; exact hx
  exact (g.used x).mpr ⟨P.hE x this, fun h => this (hS x h)⟩

mutual
theorem released_congr {h h' : Addr → Bool} : ∀ (t : RTree (Addr × α)), (∀ x ∈ t.pre, h' x.1 = h x.1) → t.released h' = t.released h
  | .node x ts, hx => by
    simp only [RTree.released, hx x (by simp)]
    rw [releasedL_congr ts fun y hy => hx y (by simp [hy])]
theorem releasedL_congr {h h' : Addr → Bool} : ∀ (ts : List (RTree (Addr × α))), (∀ x ∈ RTree.preL ts, h' x.1 = h x.1) →
    RTree.releasedL h' ts = RTree.releasedL h ts
  | [], _ => rfl
  | t :: ts, hx => by
    simp only [RTree.releasedL]
    rw [released_congr t fun y hy => hx y (by simp [hy]), releasedL_congr ts fun y hy => hx y (by simp [hy])]
end

mutual
theorem den_pre_reach {h : Heap α} {K} : ∀ {a} {t : RTree (Addr × α)}, Den h.lab K a t → ∀ x ∈ t.pre, Reach K a x.1
  | a, .node d ts, hd, x, hx => by
    simp only [Den_node] at hd
    simp only [RTree.pre, List.mem_cons] at hx
    rcases hx with rfl | hx
    · rw [(Heap.lab_some.mp hd.1).1]; exact .refl _
    · obtain ⟨c, hc, hr⟩ := denL_pre_reach hd.2 x hx
      exact .step hc hr
theorem denL_pre_reach {h : Heap α} {K} : ∀ {cs} {ts : List (RTree (Addr × α))}, DenL h.lab K cs ts → ∀ x ∈ RTree.preL ts,
    ∃ c ∈ cs, Reach K c x.1
  | [], ts, hd, x, hx => by simp at hd; subst hd; simp at hx
  | c :: cs, [], hd, x, hx => by simp at hd
  | c :: cs, t :: ts, hd, x, hx => by
    simp only [DenL_cons] at hd
    simp only [RTree.preL, List.mem_append] at hx
    rcases hx with hx | hx
    · exact ⟨c, by simp, den_pre_reach hd.1 x hx⟩
    · obtain ⟨c', h1, h2⟩ := denL_pre_reach hd.2 x hx
      exact ⟨c', by simp [h1], h2⟩
end

theorem destroy : ∀ (k : Nat),
    (∀ (Z : Addr → Bool) (G : Heap α) (K : Addr → List Addr) (e : Addr → Nat) (a : Addr) (r : RcRef) (t : RTree (Addr × α)),
      Pre G K e → G.Used a → G.up a = none → r.Is G a → (∀ x, Reach K a x → Z x = false) → (∀ x, Dead K e a x → G.borrow x = 0) →
      Den G.lab K a t → 2 * (G.size a).descendants + 2 ≤ k →
      ∃ G' K' e', dropRc k r (bumpZ Z e G) = .ok () (bumpZ Z e' G') ∧
        Gone G K e G' K' e' (fun _ => False) (Dead K e a) (Orph K e a) ((t.released (heldB e)).map Prod.snd)) ∧
    (∀ (Z : Addr → Bool) (G : Heap α) (K : Addr → List Addr) (e : Addr → Nat) (a : Addr) (r : RcRef) (ts : List (RTree (Addr × α))),
      Pre G K e → G.Used a → r.Is G a → (∀ c ∈ K a, ∀ x, Reach K c x → Z x = false) → G.borrow a = 0 →
      (∀ c ∈ K a, ∀ x, Dead K e c x → G.borrow x = 0) → DenL G.lab K (K a) ts → 2 * (G.size a).descendants + 1 ≤ k →
      ∃ G' K' e', drainRc k r (bumpZ Z e G) = .ok () (bumpZ Z e' G') ∧
        Gone G K e G' K' e' (· = a) (fun x => ∃ c ∈ K a, Dead K e c x) (fun x => ∃ c ∈ K a, Orph K e c x)
          ((RTree.releasedL (heldB e) ts).map Prod.snd) ∧ K' a = []) := by
  intro k
  induction k with
  | zero => exact ⟨by intros; omega, by intros; omega⟩
  | succ k ih =>
    refine ⟨?_, ?_⟩
    · intro Z G K e a r t P hu hup hr hZ hb hden hk
      have hza := hZ a (.refl _)
      by_cases he : e a = 0
      · cases t with
        | node x ts =>
        simp only [Den_node] at hden
        obtain ⟨hx1, hx2⟩ := Heap.lab_some.mp hden.1
        have hba := hb a (.here he)
        -- the common part: drain with the count of `a` possibly zero already
        have hdr : ∀ Z' : Addr → Bool, (∀ c ∈ K a, ∀ x, Reach K c x → Z' x = false) → _ := fun Z' hZ' =>
          ih.2 Z' G K e a r ts P hu hr hZ' hba (fun c hc y hy => hb y (.step he hc hy)) hden.2 (by omega)
        have hfin : ∀ {G1 K1 e1 G2}, Gone G K e G1 K1 e1 (· = a) (fun x => ∃ c ∈ K a, Dead K e c x) (fun x => ∃ c ∈ K a, Orph K e c x)
            ((RTree.releasedL (heldB e) ts).map Prod.snd) → K1 a = [] → Freed G1 G2 a [x.2] → SInv G2 → VecSub G2 G1 →
            (∀ y, G2.live y = true → G1.live y = true ∧ y ≠ a) →
            Gone G K e G2 K1 e1 (fun _ => False) (Dead K e a) (Orph K e a) (((RTree.node x ts).released (heldB e)).map Prod.snd) := by
          intro G1 K1 e1 G2 g1 hK1 F S2 V2 L2
          have hna : ¬ ∃ c ∈ K a, Dead K e c a := by
            rintro ⟨c, hc, h⟩; exact P.inv.not_reach_up hc h.reach
          have hno : ¬ ∃ c ∈ K a, Orph K e c a := by
            rintro ⟨c, hc, h⟩; exact P.inv.not_reach_up hc h.reach
          have hua : G1.Used a := (g1.used a).mpr ⟨hu, hna⟩
          have hup1 : G1.up a = none := by rw [g1.upN a hu hna hno]; exact hup
          have hns : ∀ {y}, ¬ Dead K e a y → y ≠ a ∧ ¬ ∃ c ∈ K a, Dead K e c y := by
            intro y hy
            rw [dead_iff he] at hy
            exact ⟨fun h => hy (.inl h), fun h => hy (.inr h)⟩
          refine ⟨F.inv g1.inv hup1 hK1, S2, ?_, ?_, ?_, ?_, ?_, ?_, ?_, ?_, V2.trans g1.vecs, F.borrow.trans g1.borrow,
            F.nextAddr.trans g1.nextAddr, F.nextVec.trans g1.nextVec, ?_⟩
          · intro y
            rw [F.used, g1.used, dead_iff he]
            generalize (∃ c ∈ K a, Dead K e c y) = P1
            grind
          · intro y hy
            obtain ⟨l1, l2⟩ := L2 y hy
            obtain ⟨l3, l4⟩ := g1.live y l1
            refine ⟨l3, ?_⟩
            rw [dead_iff he]; rintro (h | h)
            · exact l2 h
            · exact l4 h
          · intro y hy hn _
            exact g1.kids y hy (hns hn).2 (hns hn).1
          · intro y hy hn
            rw [F.data y (hns hn).1]; exact g1.data y hy (hns hn).2
          · intro y ho
            rw [F.up]; exact g1.upO y ((orph_iff he).mp ho)
          · intro y hy hn ho
            rw [F.up]; exact g1.upN y hy (hns hn).2 (fun h => ho ((orph_iff he).mpr h))
          · intro y ho; exact g1.eO y ((orph_iff he).mp ho)
          · intro y ho; exact g1.eN y (fun h => ho ((orph_iff he).mpr h))
          · rw [F.log, g1.log]
            have : heldB e x.1 = false := by rw [hx1]; simp [heldB, he]
            simp [RTree.released, this]
        have hna : ∀ {y}, y = a → ¬ ∃ c ∈ K a, Dead K e c y := by
          rintro y rfl ⟨c, hc, h⟩; exact P.inv.not_reach_up hc h.reach
        have hno : ¬ ∃ c ∈ K a, Orph K e c a := by
          rintro ⟨c, hc, h⟩; exact P.inv.not_reach_up hc h.reach
        cases r with
        | scattered o =>
          obtain ⟨rfl, d, hd⟩ := hr
          obtain ⟨G1, K1, e1, r1, g1, hK1⟩ := hdr Z (fun c hc y hy => hZ y (.step hc hy))
          have hu1 : G1.Used o := (g1.used o).mpr ⟨hu, hna rfl⟩
          have hd1 : G1.data o = .scattered d o := by rw [g1.data o hu (hna rfl)]; exact hd
          obtain ⟨G2, r2, F, S2, V2, L2⟩ := free_scattered (Z := Z) (e := e1) g1.st hu1 hza (by rw [g1.eN o hno]; exact he) hd1
          have hdx : d = x.2 := by simp [Heap.val, hd, Data.val?] at hx2; exact hx2
          subst hdx
          refine ⟨G2, K1, e1, ?_, hfin g1 hK1 F S2 V2 L2⟩
          have hs : (RcRef.scattered o).slot (bumpZ Z e G) = .ok o (bumpZ Z e G) := by simp [RcRef.slot, hu.1]
          have hc1 : (bumpZ Z e G).count o = 1 := by simp [hza, P.st.count1 hu, he]
          simp only [dropRc, M.bind_apply, hs, Res.bind_ok, getCount, hc1, if_true, r1, r2]
        | piled v i =>
          have hr' := hr
          obtain ⟨nv, d, h1, h2, h3, h4⟩ := hr
          have hZ' : ∀ c ∈ K a, ∀ y, Reach K c y → (Z y || decide (y = a)) = false := by
            intro c hc y hy
            have : y ≠ a := by rintro rfl; exact P.inv.not_reach_up hc hy
            simp [hZ y (.step hc hy), this]
          obtain ⟨G1, K1, e1, r1, g1, hK1⟩ := hdr _ hZ'
          have hu1 : G1.Used a := (g1.used a).mpr ⟨hu, hna rfl⟩
          have hd1 : G1.data a = .piled d v := by rw [g1.data a hu (hna rfl)]; exact h4
          have P1 : Pre G1 K1 e1 := P.gone g1 (by rintro y ⟨c, hc, h⟩; exact h.zero)
          obtain ⟨G2, r2, F, S2, V2, L2⟩ := free_piled (Z := Z) (e := e1) g1.st (fun _ => rfl) hu1 hza (by rw [g1.eN a hno]; exact he) P1.hE hd1
          have hdx : d = x.2 := by simp [Heap.val, h4, Data.val?] at hx2; exact hx2
          subst hdx
          refine ⟨G2, K1, e1, ?_, hfin g1 hK1 F S2 V2 L2⟩
          have hvn : vecNode v i (bumpZ Z e G) = .ok a (bumpZ Z e G) := by simp [vecNode, bumpVec_some h1, h2, h3]
          have hdc : decrCount a (bumpZ Z e G) = .ok 0 (bumpZ (fun x => Z x || decide (x = a)) e G) := by
            have hc1 : (bumpZ Z e G).count a = 1 := by simp [hza, P.st.count1 hu, he]
            simp only [decrCount, hc1]
            rw [if_neg (by omega)]
            congr 1
            refine heap_ext rfl rfl rfl rfl rfl rfl rfl rfl ?_ rfl rfl rfl rfl rfl
            funext y
            simp only [upd_apply, bumpZ_count]
            by_cases hy : y = a
            · subst hy; simp
            · simp [hy]
          simp only [M.bind_apply] at r2
          simp only [dropRc, M.bind_apply, hvn, Res.bind_ok, hdc, if_true, r1]
          cases hq : dropInPlace a (bumpZ (fun x => Z x || decide (x = a)) e1 G1) with
          | err q s => rw [hq] at r2; simp at r2
          | ok q s =>
            rw [hq] at r2
            simpa using r2
      · -- another owner
        refine ⟨G, K, upd e a (e a - 1), dropRc_more P.st hu hza hr he k, ?_⟩
        have hnd : ∀ x, ¬ Dead K e a x := by
          intro x h; cases h with
          | here h => exact he h
          | step h => exact he h
        have hor : ∀ x, Orph K e a x ↔ x = a := by
          intro x
          constructor
          · intro h; cases h with
            | here => rfl
            | step h => exact absurd h he
          · rintro rfl; exact .here he
        refine ⟨P.inv, P.st, fun x => ⟨fun h => ⟨h, hnd x⟩, fun h => h.1⟩, fun x h => ⟨h, hnd x⟩, fun _ _ _ _ => rfl, fun _ _ _ => rfl, ?_,
          fun _ _ _ _ => rfl, ?_, ?_, .refl _, rfl, rfl, rfl, ?_⟩
        · intro x hx; rw [(hor x).mp hx]; exact hup
        · intro x hx; rw [(hor x).mp hx]; simp; omega
        · intro x hx; have : x ≠ a := fun h => hx ((hor x).mpr h); simp [upd_apply, this]
        · cases t with
          | node x ts =>
            simp only [Den_node] at hden
            have hx1 := (Heap.lab_some.mp hden.1).1
            have : heldB e x.1 = true := by rw [hx1]; simp [heldB, he]
            simp [RTree.released, this]
    · intro Z G K e a r ts P hu hr hZ hba hb hden hk
      cases hK : K a with
      | nil =>
        rw [hK] at hden
        simp only [DenL_nil] at hden
        subst hden
        refine ⟨G, K, e, ?_, ?_, hK⟩
        · simp only [drainRc, M.bind_apply, popFrontRc_nil P.inv hr hu hba hK, Res.bind_ok, M.pure_apply]
        · refine ⟨P.inv, P.st, by simp, by simp, fun _ _ _ _ => rfl, fun _ _ _ => rfl, by simp, fun _ _ _ _ => rfl, by simp, by simp, .refl _, rfl, rfl, rfl, ?_⟩
          simp [RTree.releasedL]
      | cons c cs =>
        rw [hK, DenL_cons_left] at hden
        obtain ⟨t, ts, rfl, d1, d2⟩ := hden
        have hcK : c ∈ K a := by rw [hK]; simp
        have hUc := P.inv.used_of_mem hcK
        have hvc : G.IsVal c := by
          cases t with
          | node x us =>
            simp only [Den_node] at d1
            have := (Heap.lab_some.mp d1.1).2
            exact Heap.isVal_iff.mpr ⟨_, this⟩
        obtain ⟨q, G1, r1, hq, R⟩ := popFrontRc_ok (Z := Z) (e := e) P.inv P.st hr hba hK hvc
        obtain ⟨same, hup1, hI1⟩ := R
        have hS1 : SInv G1 := P.st.same same
        have P1 : Pre G1 (upd K a cs) e := ⟨hI1, hS1, fun x hx => (same.used x).mpr (P.hE x hx)⟩
        have hac : a ≠ c := by rintro rfl; exact P.inv.not_self hcK
        have hr1 : ∀ {x}, Reach (upd K a cs) c x ↔ Reach K c x := Removed.reach (h' := G1) P.inv hcK
        have hupK : ∀ b, b ≠ a → upd K a cs b = K b := fun b hb => by simp [upd_apply, hb]
        have hlab : ∀ x, G1.lab x = G.lab x := fun x => lab_congr (by rw [same.data])
        have hcong1 : ∀ b, Reach K c b → upd K a cs b = K b ∧ e b = e b := fun b hb =>
          ⟨hupK b (by intro h; subst h; exact P.inv.not_reach_up hcK (by assumption)), rfl⟩
        have hden1 : Den G1.lab (upd K a cs) c t := d1.congr fun b hb => ⟨(hcong1 b hb).1, hlab b⟩
        have hdl := P.inv.desc_lt hcK
        have hsz1 : (G1.size c).descendants = (G.size c).descendants := by
          have g1 := P.inv.desc_eq hUc d1
          have g2 := hI1.desc_eq ((same.used c).mpr hUc) hden1
          omega
        obtain ⟨G2, K2, e2, r2, g2⟩ := ih.1 Z G1 (upd K a cs) e c q t P1 ((same.used c).mpr hUc) (by rw [hup1]; simp) hq
          (fun x hx => hZ c hcK x (hr1.mp hx))
          (fun x hx => by rw [same.borrow]; exact hb c hcK x ((dead_congr hcong1).mp hx)) hden1 (by omega)
        have hde : ∀ x, Dead (upd K a cs) e c x ↔ Dead K e c x := fun x => dead_congr hcong1
        have hoe : ∀ x, Orph (upd K a cs) e c x ↔ Orph K e c x := fun x => orph_congr hcong1
        -- the rest
        have hnd := P.inv.l.nodup a
        rw [hK] at hnd
        have hrest : ∀ x ∈ cs, ∀ b, Reach K x b → G.Used b ∧ ¬ Reach K c b ∧ b ≠ a := by
          intro x hx b hb
          have hxK : x ∈ K a := by rw [hK]; simp [hx]
          refine ⟨P.inv.reach_used (P.inv.used_of_mem hxK) hb, ?_, ?_⟩
          · intro hcb
            have := P.inv.sib_disjoint hxK hcK hb hcb
            subst this
            exact (List.nodup_cons.mp hnd).1 hx
          · intro h; subst h; exact P.inv.not_reach_up hxK (by assumption)
        have hnda : ¬ Dead (upd K a cs) e c a := fun h => P.inv.not_reach_up hcK (hr1.mp h.reach)
        have hnoa : ¬ Orph (upd K a cs) e c a := fun h => P.inv.not_reach_up hcK (hr1.mp h.reach)
        have hUa1 := (same.used a).mpr hu
        have hUa2 : G2.Used a := (g2.used a).mpr ⟨hUa1, hnda⟩
        have hK2 : K2 a = cs := by rw [g2.kids a hUa1 hnda (fun h => h)]; simp
        have hcong2 : ∀ x ∈ cs, ∀ b, Reach K x b → K2 b = K b ∧ e2 b = e b ∧ G2.data b = G.data b ∧ ¬ Dead K e c b ∧ ¬ Orph K e c b := by
          intro x hx b hb
          obtain ⟨f1, f2, f3⟩ := hrest x hx b hb
          have n1 : ¬ Dead (upd K a cs) e c b := fun h => f2 (hr1.mp h.reach)
          have n2 : ¬ Orph (upd K a cs) e c b := fun h => f2 (hr1.mp h.reach)
          refine ⟨by rw [g2.kids b ((same.used b).mpr f1) n1 (fun h => h), hupK b f3], g2.eN b n2, ?_, fun h => n1 ((hde b).mpr h), fun h => n2 ((hoe b).mpr h)⟩
          rw [g2.data b ((same.used b).mpr f1) n1, same.data]
        have P2 : Pre G2 K2 e2 := P1.gone g2 fun x h => h.zero
        have hden2 : DenL G2.lab K2 (K2 a) ts := by
          rw [hK2]; exact d2.congr fun x hx b hb => ⟨(hcong2 x hx b hb).1, lab_congr (hcong2 x hx b hb).2.2.1⟩
        have hr2 : r.Is G2 a := by
          have : r.Is G1 a := hr.same same
          exact this.keep hUa2 g2.st (g2.data a hUa1 hnda) g2.vecs
        have hsz2 : 2 * (G2.size a).descendants + 1 ≤ k := by
          have g1 := P2.inv.dsum_eq (fun x hx => P2.inv.used_of_mem hx) hden2
          have g3 := P.inv.dsum_eq (v := G.lab) (cs := cs) (ts := ts)
            (fun x hx => P.inv.used_of_mem (a := a) (by rw [hK]; simp [hx])) d2
          have g4 := P.inv.s a hu
          have g5 := P2.inv.s a hUa2
          rw [g5]
          rw [g4, hK] at hk
          rw [hK2] at g1
          simp only [dsum_cons, hK2] at hk ⊢
          omega
        obtain ⟨G3, K3, e3, r3, g3, hK3⟩ := ih.2 Z G2 K2 e2 a r ts P2 hUa2 hr2
          (by rw [hK2]; intro x hx b hb
              have hb' : Reach K x b := (reach_congr fun y hy => (hcong2 x hx y hy).1).mp hb
              exact hZ x (by rw [hK]; simp [hx]) b hb')
          (by rw [g2.borrow, same.borrow]; exact hba)
          (by rw [hK2]; intro x hx b hb'
              rw [g2.borrow, same.borrow]
              exact hb x (by rw [hK]; simp [hx]) b ((dead_congr fun y hy => ⟨(hcong2 x hx y hy).1, (hcong2 x hx y hy).2.1⟩).mp hb'))
          hden2 hsz2
        have hS2 : ∀ x, (∃ y ∈ K2 a, Dead K2 e2 y x) ↔ ∃ y ∈ cs, Dead K e y x := by
          intro x; rw [hK2]
          exact exists_congr fun y => and_congr_right fun hy => dead_congr fun b hb => ⟨(hcong2 y hy b hb).1, (hcong2 y hy b hb).2.1⟩
        have hO2 : ∀ x, (∃ y ∈ K2 a, Orph K2 e2 y x) ↔ ∃ y ∈ cs, Orph K e y x := by
          intro x; rw [hK2]
          exact exists_congr fun y => and_congr_right fun hy => orph_congr fun b hb => ⟨(hcong2 y hy b hb).1, (hcong2 y hy b hb).2.1⟩
        -- nodes below `cs` are neither released nor orphaned by the first part, and vice versa
        have hdisjO : ∀ x, Orph K e c x → ¬ (∃ y ∈ cs, Orph K e y x) ∧ ¬ (∃ y ∈ cs, Dead K e y x) ∧ ¬ Dead K e c x := by
          intro x hx
          refine ⟨?_, ?_, fun h => hx.pos h.zero⟩
          · rintro ⟨y, hy, h⟩; exact (hrest y hy x h.reach).2.1 hx.reach
          · rintro ⟨y, hy, h⟩; exact (hrest y hy x h.reach).2.1 hx.reach
        refine ⟨G3, K3, e3, ?_, ?_, hK3⟩
        · simp only [drainRc, M.bind_apply, r1, Res.bind_ok, r2, r3]
        · have hSall : ∀ x, (∃ y ∈ c :: cs, Dead K e y x) ↔ Dead K e c x ∨ ∃ y ∈ cs, Dead K e y x := by simp
          have hOall : ∀ x, (∃ y ∈ c :: cs, Orph K e y x) ↔ Orph K e c x ∨ ∃ y ∈ cs, Orph K e y x := by simp
          refine ⟨g3.inv, g3.st, ?_, ?_, ?_, ?_, ?_, ?_, ?_, ?_, g3.vecs.trans (g2.vecs.trans fun v nv h => ⟨nv, by rw [← same.vec]; exact h, rfl, rfl⟩),
            g3.borrow.trans (g2.borrow.trans same.borrow), g3.nextAddr.trans (g2.nextAddr.trans same.nextAddr),
            g3.nextVec.trans (g2.nextVec.trans same.nextVec), ?_⟩
          · intro x
            rw [g3.used, g2.used, same.used, hS2, hde, hSall, not_or, and_assoc]
          · intro x hx
            obtain ⟨l1, l2⟩ := g3.live x hx
            obtain ⟨l3, l4⟩ := g2.live x l1
            rw [hSall, not_or]
            rw [hS2] at l2
            rw [hde] at l4
            exact ⟨by rw [← same.live]; exact l3, l4, l2⟩
          · intro x hx hn hxa
            rw [hSall, not_or] at hn
            have u1 := (same.used x).mpr hx
            have n1 : ¬ Dead (upd K a cs) e c x := by rw [hde]; exact hn.1
            rw [g3.kids x ((g2.used x).mpr ⟨u1, n1⟩) (by rw [hS2]; exact hn.2) hxa, g2.kids x u1 n1 (fun h => h), hupK x hxa]
          · intro x hx hn
            rw [hSall, not_or] at hn
            have u1 := (same.used x).mpr hx
            have n1 : ¬ Dead (upd K a cs) e c x := by rw [hde]; exact hn.1
            rw [g3.data x ((g2.used x).mpr ⟨u1, n1⟩) (by rw [hS2]; exact hn.2), g2.data x u1 n1, same.data]
          · intro x hx
            rw [hOall] at hx
            rcases hx with hx | hx
            · obtain ⟨n1, n2, n3⟩ := hdisjO x hx
              have u0 : G.Used x := P.inv.reach_used hUc hx.reach
              have u2 : G2.Used x := (g2.used x).mpr ⟨(same.used x).mpr u0, by rw [hde]; exact n3⟩
              rw [g3.upN x u2 (by rw [hS2]; exact n2) (by rw [hO2]; exact n1)]
              exact g2.upO x ((hoe x).mpr hx)
            · exact g3.upO x ((hO2 x).mpr hx)
          · intro x hx hn ho
            rw [hSall, not_or] at hn
            rw [hOall, not_or] at ho
            have u1 := (same.used x).mpr hx
            have n1 : ¬ Dead (upd K a cs) e c x := by rw [hde]; exact hn.1
            have hxc : x ≠ c := by
              rintro rfl
              by_cases h0 : e x = 0
              · exact hn.1 (.here h0)
              · exact ho.1 (.here h0)
            rw [g3.upN x ((g2.used x).mpr ⟨u1, n1⟩) (by rw [hS2]; exact hn.2) (by rw [hO2]; exact ho.2),
              g2.upN x u1 n1 (by rw [hoe]; exact ho.1), hup1, upd_of_ne _ _ hxc]
          · intro x hx
            rw [hOall] at hx
            rcases hx with hx | hx
            · obtain ⟨n1, n2, n3⟩ := hdisjO x hx
              rw [g3.eN x (by rw [hO2]; exact n1)]
              exact g2.eO x ((hoe x).mpr hx)
            · rw [g3.eO x ((hO2 x).mpr hx)]
              obtain ⟨y, hy, h⟩ := hx
              exact (hcong2 y hy x h.reach).2.1
          · intro x hx
            rw [hOall, not_or] at hx
            rw [g3.eN x (by rw [hO2]; exact hx.2), g2.eN x (by rw [hoe]; exact hx.1)]
          · rw [g3.log, g2.log, same.log]
            have : RTree.releasedL (heldB e2) ts = RTree.releasedL (heldB e) ts := by
              refine releasedL_congr ts fun x hx => ?_
              obtain ⟨y, hy, hr⟩ := denL_pre_reach d2 x hx
              simp [heldB, (hcong2 y hy x.1 hr).2.1]
            rw [this]
            simp [RTree.releasedL]

end Trees
