import Verif.Model.RcPanic
import Verif.Proof.RcRelease
import Verif.Proof.RcRead
/-
Dropping shared nodes when a destructor panics.
-/
namespace Trees
set_option linter.unusedSimpArgs false
set_option linter.unusedVariables false
variable {α β γ : Type}

/-! ### Nodes that are not affected -/

/-- The node itself is as before. -/
structure KeptAt (H H' : Heap α) (x : Addr) : Prop where
  live : H'.live x = H.live x
  data : H'.data x = H.data x
  count : H'.count x = H.count x
  vec : ∀ v nv, (H.data x).blk = some v → H.vec v = some nv → ∃ nv', H'.vec v = some nv' ∧ nv'.base = nv.base ∧ nv'.cap = nv.cap

/-- … and its links, too. -/
structure SparedAt (H H' : Heap α) (x : Addr) : Prop extends KeptAt H H' x where
  up : H'.up x = H.up x
  prev : H'.prev x = H.prev x
  next : H'.next x = H.next x
  head : H'.head x = H.head x
  tail : H'.tail x = H.tail x
  size : H'.size x = H.size x
  borrow : H'.borrow x = H.borrow x

theorem KeptAt.trans {H H' H'' : Heap α} {x} (h : KeptAt H H' x) (h' : KeptAt H' H'' x) : KeptAt H H'' x :=
  ⟨h'.live.trans h.live, h'.data.trans h.data, h'.count.trans h.count, fun v nv hb hv => by
    obtain ⟨n1, e1, e2, e3⟩ := h.vec v nv hb hv
    obtain ⟨n2, f1, f2, f3⟩ := h'.vec v n1 (by rw [h.data]; exact hb) e1
    exact ⟨n2, f1, f2.trans e2, f3.trans e3⟩⟩

theorem SparedAt.trans {H H' H'' : Heap α} {x} (h : SparedAt H H' x) (h' : SparedAt H' H'' x) : SparedAt H H'' x :=
  ⟨h.toKeptAt.trans h'.toKeptAt, h'.up.trans h.up, h'.prev.trans h.prev, h'.next.trans h.next, h'.head.trans h.head, h'.tail.trans h.tail,
    h'.size.trans h.size, h'.borrow.trans h.borrow⟩

theorem KeptAt.refl (H : Heap α) (x) : KeptAt H H x := ⟨rfl, rfl, rfl, fun _ nv _ h => ⟨nv, h, rfl, rfl⟩⟩
theorem SparedAt.refl (H : Heap α) (x) : SparedAt H H x := ⟨.refl H x, rfl, rfl, rfl, rfl, rfl, rfl, rfl⟩

/-- The links of a node are determined by the shape. -/
theorem links_mem {pv nx pv' nx' : Addr → Option Addr} : ∀ {l : List Addr} {p r : Option Addr}, Links pv nx p l r → Links pv' nx' p l r →
    ∀ c ∈ l, pv' c = pv c ∧ nx' c = nx c
  | [], _, _, _, _, c, hc => by simp at hc
  | b :: l, _, _, h1, h2, c, hc => by
    rcases List.mem_cons.mp hc with rfl | hc
    · exact ⟨h2.1.trans h1.1.symm, h2.2.1.trans h1.2.1.symm⟩
    · exact links_mem h1.2.2 h2.2.2 c hc

/-- Two heaps in which the nodes outside of the whole trees `R` have the same children and parents. -/
structure Outside (G : Heap α) (K : Addr → List Addr) (G' : Heap α) (K' : Addr → List Addr) (R : Addr → Prop) : Prop where
  inv : Inv G K
  inv' : Inv G' K'
  keep : ∀ x, G.Used x → ¬ R x → G'.Used x ∧ K' x = K x ∧ G'.up x = G.up x
  whole : ∀ p x, x ∈ K p → (R x ↔ R p)

theorem Outside.size {G : Heap α} {K G' K' R} (o : Outside G K G' K' R) : ∀ (n : Nat) (x : Addr), (G.size x).descendants ≤ n → G.Used x → ¬ R x →
    G'.size x = G.size x := by
  intro n
  induction n using Nat.strongRecOn with
  | ind n ih =>
    intro x hn hu hr
    obtain ⟨u', k', -⟩ := o.keep x hu hr
    rw [o.inv'.s x u', o.inv.s x hu, k']
    congr 1
    refine dsum_congr fun c hc => ?_
    have := o.inv.desc_lt hc
    rw [ih (G.size c).descendants (by omega) c (Nat.le_refl _) (o.inv.used_of_mem hc) (fun h => hr ((o.whole x c hc).mp h))]

theorem Outside.spared {G : Heap α} {K G' K' R Z e e'} (o : Outside G K G' K' R) {x : Addr} (hu : G.Used x) (hr : ¬ R x)
    (hk : KeptAt (bumpZ Z e G) (bumpZ Z e' G') x) (hb : G'.borrow x = G.borrow x) : SparedAt (bumpZ Z e G) (bumpZ Z e' G') x := by
  obtain ⟨u', k', up'⟩ := o.keep x hu hr
  have hl : G'.prev x = G.prev x ∧ G'.next x = G.next x := by
    cases hup : G.up x with
    | none =>
      have h1 := o.inv.l.root x hu (by simp) hup
      have h2 := o.inv'.l.root x u' (by simp) (up'.trans hup)
      rw [h1.1, h1.2, h2.1, h2.2]; exact ⟨rfl, rfl⟩
    | some p =>
      have hm : x ∈ K p := o.inv.mem_iff.mpr ⟨hu, hup⟩
      have hpu := o.inv.used_parent hm
      obtain ⟨pu', pk', -⟩ := o.keep p hpu (fun h => hr ((o.whole p x hm).mpr h))
      have h2 := o.inv'.l.links p pu'
      rw [pk'] at h2
      exact links_mem (o.inv.l.links p hpu) h2 x hm
  exact ⟨hk, up', hl.1, hl.2, (o.inv'.l.head x u').trans (by rw [k']; exact (o.inv.l.head x hu).symm),
    (o.inv'.l.tail x u').trans (by rw [k']; exact (o.inv.l.tail x hu).symm), o.size _ x (Nat.le_refl _) hu hr, hb⟩

theorem kept_bump {G G' : Heap α} {Z e e'} (hS : SInv G) (hS' : SInv G') {x : Addr} (hu : G.Used x) (hu' : G'.Used x) (hd : G'.data x = G.data x)
    (he : e' x = e x) (hv : VecSub G' G) : KeptAt (bumpZ Z e G) (bumpZ Z e' G') x := by
  refine ⟨?_, hd, ?_, ?_⟩
  · rw [bumpZ_live, bumpZ_live, hu.1, hu'.1]
  · simp only [bumpZ_count, hS.count1 hu, hS'.count1 hu', he]
  · intro v nv hb hv1
    obtain ⟨n1, f1, f2⟩ := hS'.hasBlk hu' (w := v) (by rw [hd]; exact hb)
    obtain ⟨n0, g1, g2, g3⟩ := hv v n1 f1
    simp only [bumpZ_vec, bumpVec, g1, Option.map_some, Option.some.injEq] at hv1
    subst hv1
    exact ⟨{ n1 with refCnt := n1.refCnt + esum e' n1 }, by simp [bumpVec, f1], g2, g3⟩

theorem Gone.kept {G : Heap α} {K e G' K' e' X S O lg Z} (P : Pre G K e) (g : Gone G K e G' K' e' X S O lg) {x : Addr} (hu : G.Used x)
    (hs : ¬ S x) (ho : ¬ O x) : KeptAt (bumpZ Z e G) (bumpZ Z e' G') x :=
  kept_bump P.st g.st hu ((g.used x).mpr ⟨hu, hs⟩) (g.data x hu hs) (g.eN x ho) g.vecs

theorem whole_reach {G : Heap α} {K : Addr → List Addr} (hI : Inv G K) {a : Addr} (hup : G.up a = none) : ∀ p x, x ∈ K p → (Reach K a x ↔ Reach K a p) := by
  intro p x hx
  constructor
  · intro h
    rcases h.cases_tail with e | ⟨q, hq, hqx⟩
    · exact absurd (e ▸ hx) (hI.not_mem_of_root hup)
    · rw [← hI.eq_of_mem hqx hx]; exact hq
  · intro h; exact h.trans (.step hx (.refl _))

theorem Gone.spared {G : Heap α} {K e G' K' e' X S O lg Z} {R : Addr → Prop} (P : Pre G K e) (g : Gone G K e G' K' e' X S O lg)
    (hw : ∀ p x, x ∈ K p → (R x ↔ R p)) (hS : ∀ x, S x → R x) (hO : ∀ x, O x → R x) (hX : ∀ x, X x → R x) {x : Addr} (hu : G.Used x)
    (hr : ¬ R x) : SparedAt (bumpZ Z e G) (bumpZ Z e' G') x := by
  have o : Outside G K G' K' R := ⟨P.inv, g.inv, fun y hy hn => ⟨(g.used y).mpr ⟨hy, fun h => hn (hS y h)⟩, g.kids y hy (fun h => hn (hS y h)) (fun h => hn (hX y h)),
    g.upN y hy (fun h => hn (hS y h)) (fun h => hn (hO y h))⟩, hw⟩
  exact o.spared hu hr (g.kept P hu (fun h => hr (hS x h)) (fun h => hr (hO x h))) (by rw [g.borrow])

/-! ### The recursion -/

/-- The destructor run that panics is among the next `len`. -/
def Hits (n : Option Nat) (s len : Nat) : Prop := ∃ j, n = some (s + j) ∧ j < len

theorem panicked_false {n : Option Nat} {h h' : Heap α} {len : Nat} (hl : h'.log.length = h.log.length + len) (hn : ¬ Hits n h.log.length len) :
    panicked n h h' = false := by
  cases n with
  | none => rfl
  | some n =>
    simp only [panicked, decide_eq_false_iff_not]
    rintro ⟨h1, h2⟩
    exact hn ⟨n - h.log.length, by congr 1; omega, by omega⟩

theorem panicked_true {h h' : Heap α} {len j : Nat} (hl : h'.log.length = h.log.length + len) (hj : j < len) :
    panicked (some (h.log.length + j)) h h' = true := by
  simp only [panicked, decide_eq_true_eq]; omega

/-- `dropRc` and `dropRcP` step by step: as long as no destructor panics both do the same; if one does the call panics, the
nodes of other trees are not affected, and no item is destroyed twice. -/
theorem destroyP (n : Option Nat) : ∀ (k : Nat),
    (∀ (Z : Addr → Bool) (G : Heap α) (K : Addr → List Addr) (e : Addr → Nat) (a : Addr) (r : RcRef) (t : RTree (Addr × α)),
      Pre G K e → G.Used a → G.up a = none → r.Is G a → (∀ x, Reach K a x → Z x = false) → (∀ x, Dead K e a x → G.borrow x = 0) →
      Den G.lab K a t → 2 * (G.size a).descendants + 2 ≤ k →
      (¬ Hits n G.log.length (t.released (heldB e)).length → dropRcP n k r (bumpZ Z e G) = dropRc k r (bumpZ Z e G)) ∧
      ∀ j, n = some (G.log.length + j) → j < (t.released (heldB e)).length →
        ∃ H' l, dropRcP n k r (bumpZ Z e G) = .err .panic H' ∧ (∀ x, G.Used x → ¬ Reach K a x → SparedAt (bumpZ Z e G) H' x) ∧
          H'.log = G.log ++ l ∧ l.Sublist ((t.released (heldB e)).map Prod.snd) ∧ ((t.released (heldB e)).map Prod.snd).take (j + 1) <+: l) ∧
    (∀ (Z : Addr → Bool) (G : Heap α) (K : Addr → List Addr) (e : Addr → Nat) (a : Addr) (r : RcRef) (ts : List (RTree (Addr × α))),
      Pre G K e → G.Used a → G.up a = none → r.Is G a → (∀ c ∈ K a, ∀ x, Reach K c x → Z x = false) → G.borrow a = 0 →
      (∀ c ∈ K a, ∀ x, Dead K e c x → G.borrow x = 0) → DenL G.lab K (K a) ts → 2 * (G.size a).descendants + 1 ≤ k →
      (¬ Hits n G.log.length (RTree.releasedL (heldB e) ts).length → drainRcP n k r (bumpZ Z e G) = drainRc k r (bumpZ Z e G)) ∧
      ∀ j, n = some (G.log.length + j) → j < (RTree.releasedL (heldB e) ts).length →
        ∃ H' l, drainRcP n k r (bumpZ Z e G) = .err .panic H' ∧ KeptAt (bumpZ Z e G) H' a ∧
          (∀ x, G.Used x → ¬ Reach K a x → SparedAt (bumpZ Z e G) H' x) ∧
          H'.log = G.log ++ l ∧ l.Sublist ((RTree.releasedL (heldB e) ts).map Prod.snd) ∧
          ((RTree.releasedL (heldB e) ts).map Prod.snd).take (j + 1) <+: l) := by
  intro k
  induction k with
  | zero => exact ⟨by intros; omega, by intros; omega⟩
  | succ k ih =>
    refine ⟨?_, ?_⟩
    · intro Z G K e a r t P hu hup hr hZ hb hden hk
      have hza := hZ a (.refl _)
      by_cases he : e a = 0
      · cases t with
        | node x ts =>
        have hden0 := hden
        simp only [Den_node] at hden
        obtain ⟨hx1, hx2⟩ := Heap.lab_some.mp hden.1
        have hba := hb a (.here he)
        have hrel : (RTree.node x ts).released (heldB e) = RTree.releasedL (heldB e) ts ++ [x] := by
          have : heldB e x.1 = false := by rw [hx1]; simp [heldB, he]
          simp [RTree.released, this]
        have hdr : ∀ Z' : Addr → Bool, (∀ c ∈ K a, ∀ x, Reach K c x → Z' x = false) → _ := fun Z' hZ' =>
          (destroy k).2 Z' G K e a r ts P hu hr hZ' hba (fun c hc y hy => hb y (.step he hc hy)) hden.2 (by omega)
        have hdrP : ∀ Z' : Addr → Bool, (∀ c ∈ K a, ∀ x, Reach K c x → Z' x = false) → _ := fun Z' hZ' =>
          ih.2 Z' G K e a r ts P hu hup hr hZ' hba (fun c hc y hy => hb y (.step he hc hy)) hden.2 (by omega)
        have hna : ¬ ∃ c ∈ K a, Dead K e c a := by
          rintro ⟨c, hc, h⟩; exact P.inv.not_reach_up hc h.reach
        have hno : ¬ ∃ c ∈ K a, Orph K e c a := by
          rintro ⟨c, hc, h⟩; exact P.inv.not_reach_up hc h.reach
        have hsp1 : ∀ {Z' G1 K1 e1}, Gone G K e G1 K1 e1 (· = a) (fun x => ∃ c ∈ K a, Dead K e c x) (fun x => ∃ c ∈ K a, Orph K e c x)
            ((RTree.releasedL (heldB e) ts).map Prod.snd) → ∀ y, G.Used y → ¬ Reach K a y → SparedAt (bumpZ Z' e G) (bumpZ Z' e1 G1) y := by
          intro Z' G1 K1 e1 g1 y hy hn
          refine g1.spared P (whole_reach P.inv hup) ?_ ?_ ?_ hy hn
          · rintro z ⟨c, hc, h⟩; exact .step hc h.reach
          · rintro z ⟨c, hc, h⟩; exact .step hc h.reach
          · rintro z rfl; exact .refl _
        rw [hrel]
        simp only [List.length_append, List.length_singleton, List.map_append, List.map_cons, List.map_nil]
        generalize hL : RTree.releasedL (heldB e) ts = L at *
        cases r with
        | scattered o =>
          obtain ⟨rfl, d, hd⟩ := hr
          have hdx : d = x.2 := by simp [Heap.val, hd, Data.val?] at hx2; exact hx2
          subst hdx
          have hs : (RcRef.scattered o).slot (bumpZ Z e G) = .ok o (bumpZ Z e G) := by simp [RcRef.slot, hu.1]
          have hc1 : (bumpZ Z e G).count o = 1 := by simp [hza, P.st.count1 hu, he]
          have hZ' : ∀ c ∈ K o, ∀ y, Reach K c y → Z y = false := fun c hc y hy => hZ y (.step hc hy)
          obtain ⟨G1, K1, e1, r1, g1, hK1⟩ := hdr Z hZ'
          obtain ⟨q1, q2⟩ := hdrP Z hZ'
          have hlg : G1.log.length = G.log.length + L.length := by rw [g1.log]; simp
          have hu1 : G1.Used o := (g1.used o).mpr ⟨hu, hna⟩
          have hd1 : G1.data o = .scattered x.2 o := by rw [g1.data o hu hna]; exact hd
          have hc2 : (bumpZ Z e1 G1).count o = 1 := by simp [hza, g1.st.count1 hu1, g1.eN o hno, he]
          -- the last step
          have hfin : ∀ (H : Heap α), H.live o = true → H.count o = 1 → H.data o = .scattered x.2 o →
              rcDrop o H = .ok () { H with live := upd H.live o false, count := upd H.count o 0, log := H.log ++ [x.2] } := by
            intro H h1 h2 h3
            simp only [rcDrop, h1, h2, if_true, h3, Data.val?, Option.toList]
          have hspf : ∀ (H : Heap α) (y : Addr), y ≠ o → SparedAt H { H with live := upd H.live o false, count := upd H.count o 0, log := H.log ++ [x.2] } y := by
            intro H y hy
            exact ⟨⟨by simp [upd_of_ne _ _ hy], rfl, by simp [upd_of_ne _ _ hy], fun _ nv _ h => ⟨nv, h, rfl, rfl⟩⟩, rfl, rfl, rfl, rfl, rfl, rfl, rfl⟩
          have hne : ∀ y, ¬ Reach K o y → y ≠ o := by rintro y h rfl; exact h (.refl _)
          have hstep : dropRcP n (k+1) (.scattered o) (bumpZ Z e G) = thenFields (drainRcP n k (.scattered o)) (rcDropP n o) (bumpZ Z e G) := by
            simp only [dropRcP, M.bind_apply, hs, Res.bind_ok]
            simp only [thenFields, M.bind_apply, getCount, Res.bind_ok, hc1, if_true]
          have hstep0 : dropRc (k+1) (.scattered o) (bumpZ Z e G) = rcDrop o (bumpZ Z e1 G1) := by
            simp only [dropRc, M.bind_apply, hs, Res.bind_ok, getCount, hc1, if_true, r1]
          have hf1 := hfin (bumpZ Z e1 G1) hu1.1 hc2 hd1
          refine ⟨?_, ?_⟩
          · intro hn
            rw [hstep, hstep0]
            simp only [thenFields, q1 (by rintro ⟨j, h1, h2⟩; exact hn ⟨j, h1, by omega⟩), r1, rcDropP]
            rw [hf1]
            simp only [Res.bind_ok]
            rw [panicked_false (len := 1) (by simp)]
            · simp
            · rintro ⟨j, h1, h2⟩
              refine hn ⟨L.length, ?_, by omega⟩
              rw [h1]; congr 1
              show G1.log.length + j = _
              omega
          · intro j hj hlt
            by_cases hjL : j < L.length
            · obtain ⟨H', l, p1, p2, p3, p4, p5, p6⟩ := q2 j hj hjL
              have l1 : H'.live o = true := by rw [p2.live]; exact hu.1
              have l2 : H'.count o = 1 := by rw [p2.count]; exact hc1
              have l3 : H'.data o = .scattered x.2 o := by rw [p2.data]; exact hd
              refine ⟨{ H' with live := upd H'.live o false, count := upd H'.count o 0, log := H'.log ++ [x.2] }, l ++ [x.2], ?_, ?_, ?_, ?_, ?_⟩
              · rw [hstep]
                simp only [thenFields, p1, rcDropP, hfin H' l1 l2 l3, Res.bind_ok]
                rw [panicked_false (len := 1) (by simp)]
                · simp
                · rintro ⟨i, h1, h2⟩
                  rw [hj, p4] at h1
                  have h3 := p6.length_le
                  simp only [List.length_take, List.length_map, List.length_append, Option.some.injEq] at h1 h3
                  omega
              · intro y hy hn
                exact (p3 y hy hn).trans (hspf H' y (hne y hn))
              · simp [p4]
              · exact p5.append (List.Sublist.refl _)
              · rw [List.take_append_of_le_length (by simp; omega)]
                exact p6.trans (List.prefix_append _ _)
            · have hjj : j = L.length := by omega
              subst hjj
              refine ⟨{ bumpZ Z e1 G1 with live := upd G1.live o false, count := upd (bumpZ Z e1 G1).count o 0, log := G1.log ++ [x.2] },
                L.map Prod.snd ++ [x.2], ?_, ?_, ?_, List.Sublist.refl _, ?_⟩
              · rw [hstep]
                simp only [thenFields, q1 (by rintro ⟨i, h1, h2⟩; rw [hj] at h1; simp at h1; omega), r1, rcDropP]
                rw [hf1]
                simp only [Res.bind_ok]
                rw [hj, show G.log.length + L.length = (bumpZ Z e1 G1).log.length + 0 by show _ = G1.log.length + 0; omega, panicked_true (len := 1) (by simp) (by omega)]
                simp only [if_true]
                rfl
              · intro y hy hn
                exact (hsp1 g1 y hy hn).trans (hspf _ y (hne y hn))
              · show G1.log ++ [x.2] = _
                rw [g1.log]; simp
              · exact (List.take_prefix _ _)
        | piled v i =>
          have hr' := hr
          obtain ⟨nv, d, h1, h2, h3, h4⟩ := hr
          have hdx : d = x.2 := by simp [Heap.val, h4, Data.val?] at hx2; exact hx2
          subst hdx
          have hZ' : ∀ c ∈ K a, ∀ y, Reach K c y → (Z y || decide (y = a)) = false := by
            intro c hc y hy
            have : y ≠ a := by rintro rfl; exact P.inv.not_reach_up hc hy
            simp [hZ y (.step hc hy), this]
          obtain ⟨G1, K1, e1, r1, g1, hK1⟩ := hdr _ hZ'
          obtain ⟨q1, q2⟩ := hdrP _ hZ'
          have hlg : G1.log.length = G.log.length + L.length := by rw [g1.log]; simp
          have hu1 : G1.Used a := (g1.used a).mpr ⟨hu, hna⟩
          have hd1 : G1.data a = .piled x.2 v := by rw [g1.data a hu hna]; exact h4
          have hvn : vecNode v i (bumpZ Z e G) = .ok a (bumpZ Z e G) := by simp [vecNode, bumpVec_some h1, h2, h3]
          have hdc : decrCount a (bumpZ Z e G) = .ok 0 (bumpZ (fun x => Z x || decide (x = a)) e G) := by
            have hc1 : (bumpZ Z e G).count a = 1 := by simp [hza, P.st.count1 hu, he]
            simp only [decrCount, hc1]
            rw [if_neg (by omega)]
            congr 1
            refine heap_ext rfl rfl rfl rfl rfl rfl rfl rfl ?_ rfl rfl rfl rfl rfl
            funext y
            simp only [upd_apply, bumpZ_count]
            by_cases hy : y = a
            · subst hy; simp
            · simp [hy]
          have hne : ∀ y, ¬ Reach K a y → y ≠ a := by rintro y h rfl; exact h (.refl _)
          have hspz : ∀ y, y ≠ a → SparedAt (bumpZ Z e G) (bumpZ (fun x => Z x || decide (x = a)) e G) y := by
            intro y hy
            exact ⟨⟨rfl, rfl, by simp [hy], fun _ nv _ h => ⟨nv, h, rfl, rfl⟩⟩, rfl, rfl, rfl, rfl, rfl, rfl, rfl⟩
          generalize hW : (fun x => Z x || decide (x = a)) = W at *
          have hdip : dropInPlace a (bumpZ W e1 G1) = .ok () { bumpZ W e1 G1 with live := upd G1.live a false, log := G1.log ++ [x.2] } := by
            rw [dropInPlace_ok (h := bumpZ W e1 G1) hu1.1]
            simp only [bumpZ_data, hd1, Data.val?, Option.toList]
            rfl
          refine ⟨?_, ?_⟩
          · intro hn
            simp only [dropRcP, dropRc, M.bind_apply, hvn, Res.bind_ok, hdc, if_true, r1]
            rw [q1 (by rintro ⟨j, h1, h2⟩; exact hn ⟨j, h1, by omega⟩), r1]
            simp only [Res.bind_ok, dropInPlaceP, hdip]
            rw [panicked_false (len := 1) (by simp)]
            · simp
            · rintro ⟨j, h1, h2⟩
              refine hn ⟨L.length, ?_, by omega⟩
              rw [h1]; congr 1
              show G1.log.length + j = _
              omega
          · intro j hj hlt
            by_cases hjL : j < L.length
            · obtain ⟨H', l, p1, p2, p3, p4, p5, p6⟩ := q2 j hj hjL
              refine ⟨H', l, ?_, ?_, p4, p5.trans (List.sublist_append_left _ _), ?_⟩
              · simp only [dropRcP, M.bind_apply, hvn, Res.bind_ok, hdc, if_true, p1, Res.bind_err]
              · intro y hy hn
                exact (hspz y (hne y hn)).trans (p3 y hy hn)
              · rw [List.take_append_of_le_length (by simp; omega)]
                exact p6
            · have hjj : j = L.length := by omega
              subst hjj
              refine ⟨{ bumpZ W e1 G1 with live := upd G1.live a false, log := G1.log ++ [x.2] },
                L.map Prod.snd ++ [x.2], ?_, ?_, ?_, List.Sublist.refl _, ?_⟩
              · simp only [dropRcP, M.bind_apply, hvn, Res.bind_ok, hdc, if_true]
                rw [q1 (by rintro ⟨i, h1, h2⟩; rw [hj] at h1; simp at h1; omega), r1]
                simp only [Res.bind_ok, dropInPlaceP, hdip]
                rw [hj, show G.log.length + L.length = (bumpZ W e1 G1).log.length + 0 by show _ = G1.log.length + 0; omega, panicked_true (len := 1) (by simp) (by omega)]
                simp only [if_true]
                rfl
              · intro y hy hn
                refine ((hspz y (hne y hn)).trans (hsp1 g1 y hy hn)).trans ?_
                exact ⟨⟨by simp [upd_of_ne _ _ (hne y hn)], rfl, rfl, fun _ nv _ h => ⟨nv, h, rfl, rfl⟩⟩, rfl, rfl, rfl, rfl, rfl, rfl, rfl⟩
              · show G1.log ++ [x.2] = _
                rw [g1.log]; simp
              · exact (List.take_prefix _ _)
      · -- another owner
        have hnil : t.released (heldB e) = [] := by
          cases t with
          | node x ts =>
            simp only [Den_node] at hden
            have hx1 := (Heap.lab_some.mp hden.1).1
            have : heldB e x.1 = true := by rw [hx1]; simp [heldB, he]
            simp [RTree.released, this]
        refine ⟨fun _ => ?_, fun j _ hj => by rw [hnil] at hj; simp at hj⟩
        have hc1 : (bumpZ Z e G).count a = 1 + e a := by simp [hza, P.st.count1 hu]
        cases r with
        | scattered o =>
          obtain ⟨rfl, d, hd⟩ := hr
          have hs : (RcRef.scattered o).slot (bumpZ Z e G) = .ok o (bumpZ Z e G) := by simp [RcRef.slot, hu.1]
          simp only [dropRcP, dropRc, M.bind_apply, hs, Res.bind_ok, getCount, hc1]
          simp only [thenFields, M.bind_apply, getCount, Res.bind_ok, hc1]
          simp only [if_neg (show ¬ 1 + e o = 1 by omega)]
          simp only [M.pure_apply, rcDropP, Res.bind_ok]
          have hrd : rcDrop o (bumpZ Z e G) = .ok () { bumpZ Z e G with count := upd (bumpZ Z e G).count o (1 + e o - 1) } := by
            simp only [rcDrop, bumpZ_live, hu.1, if_true, hc1]
            rw [if_neg (by omega), if_neg (by omega)]
          rw [hrd, Res.bind_ok, panicked_false (len := 0) (by simp) (by rintro ⟨j, -, h⟩; omega)]
          simp only [Bool.false_eq_true, if_false]
        | piled v i =>
          obtain ⟨nv, d, h1, h2, h3, h4⟩ := hr
          have hvn : vecNode v i (bumpZ Z e G) = .ok a (bumpZ Z e G) := by simp [vecNode, bumpVec_some h1, h2, h3]
          simp only [dropRcP, dropRc, M.bind_apply, hvn, Res.bind_ok, decrCount, hc1]
          rw [if_neg (by omega)]
          simp only [Res.bind_ok]
          rw [if_neg (by omega), if_neg (by omega)]
    · intro Z G K e a r ts P hu hup hr hZ hba hb hden hk
      cases hK : K a with
      | nil =>
        rw [hK] at hden
        simp only [DenL_nil] at hden
        subst hden
        refine ⟨fun _ => ?_, fun j _ hj => by simp [RTree.releasedL] at hj⟩
        simp only [drainRcP, drainRc, M.bind_apply, popFrontRc_nil P.inv hr hu hba hK, Res.bind_ok, M.pure_apply]
      | cons c cs =>
        rw [hK, DenL_cons_left] at hden
        obtain ⟨t, ts, rfl, d1, d2⟩ := hden
        have hcK : c ∈ K a := by rw [hK]; simp
        have hUc := P.inv.used_of_mem hcK
        have hvc : G.IsVal c := by
          cases t with
          | node x us =>
            simp only [Den_node] at d1
            have := (Heap.lab_some.mp d1.1).2
            exact Heap.isVal_iff.mpr ⟨_, this⟩
        obtain ⟨q, G1, r1, hq, R⟩ := popFrontRc_ok (Z := Z) (e := e) P.inv P.st hr hba hK hvc
        obtain ⟨same, hup1, hI1⟩ := R
        have hS1 : SInv G1 := P.st.same same
        have P1 : Pre G1 (upd K a cs) e := ⟨hI1, hS1, fun x hx => (same.used x).mpr (P.hE x hx)⟩
        have hac : a ≠ c := by rintro rfl; exact P.inv.not_self hcK
        have hr1 : ∀ {x}, Reach (upd K a cs) c x ↔ Reach K c x := Removed.reach (h' := G1) P.inv hcK
        have hupK : ∀ b, b ≠ a → upd K a cs b = K b := fun b hb => by simp [upd_apply, hb]
        have hlab : ∀ x, G1.lab x = G.lab x := fun x => lab_congr (by rw [same.data])
        have hcong1 : ∀ b, Reach K c b → upd K a cs b = K b ∧ e b = e b := fun b hb =>
          ⟨hupK b (by intro h; subst h; exact P.inv.not_reach_up hcK (by assumption)), rfl⟩
        have hden1 : Den G1.lab (upd K a cs) c t := d1.congr fun b hb => ⟨(hcong1 b hb).1, hlab b⟩
        have hdl := P.inv.desc_lt hcK
        have hsz1 : (G1.size c).descendants = (G.size c).descendants := by
          have g1 := P.inv.desc_eq hUc d1
          have g2 := hI1.desc_eq ((same.used c).mpr hUc) hden1
          omega
        have a1 : ∀ x, Reach (upd K a cs) c x → Z x = false := fun x hx => hZ c hcK x (hr1.mp hx)
        have a2 : ∀ x, Dead (upd K a cs) e c x → G1.borrow x = 0 := fun x hx => by
          rw [same.borrow]; exact hb c hcK x ((dead_congr hcong1).mp hx)
        have a3 : 2 * (G1.size c).descendants + 2 ≤ k := by omega
        have hupc : G1.up c = none := by rw [hup1]; simp
        obtain ⟨G2, K2, e2, r2, g2⟩ := (destroy k).1 Z G1 (upd K a cs) e c q t P1 ((same.used c).mpr hUc) hupc hq a1 a2 hden1 a3
        obtain ⟨f1, f2⟩ := ih.1 Z G1 (upd K a cs) e c q t P1 ((same.used c).mpr hUc) hupc hq a1 a2 hden1 a3
        have hde : ∀ x, Dead (upd K a cs) e c x ↔ Dead K e c x := fun x => dead_congr hcong1
        have hoe : ∀ x, Orph (upd K a cs) e c x ↔ Orph K e c x := fun x => orph_congr hcong1
        have hnd := P.inv.l.nodup a
        rw [hK] at hnd
        have hrest : ∀ x ∈ cs, ∀ b, Reach K x b → G.Used b ∧ ¬ Reach K c b ∧ b ≠ a := by
          intro x hx b hb
          have hxK : x ∈ K a := by rw [hK]; simp [hx]
          refine ⟨P.inv.reach_used (P.inv.used_of_mem hxK) hb, ?_, ?_⟩
          · intro hcb
            have := P.inv.sib_disjoint hxK hcK hb hcb
            subst this
            exact (List.nodup_cons.mp hnd).1 hx
          · intro h; subst h; exact P.inv.not_reach_up hxK (by assumption)
        have hnda : ¬ Dead (upd K a cs) e c a := fun h => P.inv.not_reach_up hcK (hr1.mp h.reach)
        have hnoa : ¬ Orph (upd K a cs) e c a := fun h => P.inv.not_reach_up hcK (hr1.mp h.reach)
        have hUa1 := (same.used a).mpr hu
        have hUa2 : G2.Used a := (g2.used a).mpr ⟨hUa1, hnda⟩
        have hK2 : K2 a = cs := by rw [g2.kids a hUa1 hnda (fun h => h)]; simp
        have hcong2 : ∀ x ∈ cs, ∀ b, Reach K x b → K2 b = K b ∧ e2 b = e b ∧ G2.data b = G.data b ∧ ¬ Dead K e c b ∧ ¬ Orph K e c b := by
          intro x hx b hb
          obtain ⟨f1, f2, f3⟩ := hrest x hx b hb
          have n1 : ¬ Dead (upd K a cs) e c b := fun h => f2 (hr1.mp h.reach)
          have n2 : ¬ Orph (upd K a cs) e c b := fun h => f2 (hr1.mp h.reach)
          refine ⟨by rw [g2.kids b ((same.used b).mpr f1) n1 (fun h => h), hupK b f3], g2.eN b n2, ?_, fun h => n1 ((hde b).mpr h), fun h => n2 ((hoe b).mpr h)⟩
          rw [g2.data b ((same.used b).mpr f1) n1, same.data]
        have P2 : Pre G2 K2 e2 := P1.gone g2 fun x h => h.zero
        have hden2 : DenL G2.lab K2 (K2 a) ts := by
          rw [hK2]; exact d2.congr fun x hx b hb => ⟨(hcong2 x hx b hb).1, lab_congr (hcong2 x hx b hb).2.2.1⟩
        have hr2 : r.Is G2 a := by
          have : r.Is G1 a := hr.same same
          exact this.keep hUa2 g2.st (g2.data a hUa1 hnda) g2.vecs
        have hsz2 : 2 * (G2.size a).descendants + 1 ≤ k := by
          have g1 := P2.inv.dsum_eq (fun x hx => P2.inv.used_of_mem hx) hden2
          have g3 := P.inv.dsum_eq (v := G.lab) (cs := cs) (ts := ts)
            (fun x hx => P.inv.used_of_mem (a := a) (by rw [hK]; simp [hx])) d2
          have g4 := P.inv.s a hu
          have g5 := P2.inv.s a hUa2
          rw [g5]
          rw [g4, hK] at hk
          rw [hK2] at g1
          simp only [dsum_cons, hK2] at hk ⊢
          omega
        have hup2 : G2.up a = none := by
          rw [g2.upN a hUa1 hnda hnoa, hup1, upd_of_ne _ _ hac]; exact hup
        obtain ⟨s1, s2⟩ := ih.2 Z G2 K2 e2 a r ts P2 hUa2 hup2 hr2
          (by rw [hK2]; intro x hx b hb
              have hb' : Reach K x b := (reach_congr fun y hy => (hcong2 x hx y hy).1).mp hb
              exact hZ x (by rw [hK]; simp [hx]) b hb')
          (by rw [g2.borrow, same.borrow]; exact hba)
          (by rw [hK2]; intro x hx b hb'
              rw [g2.borrow, same.borrow]
              exact hb x (by rw [hK]; simp [hx]) b ((dead_congr fun y hy => ⟨(hcong2 x hx y hy).1, (hcong2 x hx y hy).2.1⟩).mp hb'))
          hden2 hsz2
        have hreq : RTree.releasedL (heldB e2) ts = RTree.releasedL (heldB e) ts := by
          refine releasedL_congr ts fun x hx => ?_
          obtain ⟨y, hy, hr⟩ := denL_pre_reach d2 x hx
          simp [heldB, (hcong2 y hy x.1 hr).2.1]
        rw [hreq] at s1 s2
        rw [same.log] at f1 f2
        have hl2 : G2.log = G.log ++ (t.released (heldB e)).map Prod.snd := by rw [g2.log, same.log]
        have hl2' : G2.log.length = G.log.length + (t.released (heldB e)).length := by rw [hl2]; simp
        rw [hl2'] at s1 s2
        -- what the steps leave alone
        have hw := whole_reach P.inv hup
        have hw1 : ∀ p x, x ∈ upd K a cs p → (Reach K a x ↔ Reach K a p) := by
          intro p x hx
          by_cases hp : p = a
          · subst hp
            simp only [upd_self] at hx
            exact hw p x (by rw [hK]; simp [hx])
          · rw [hupK p hp] at hx; exact hw p x hx
        have sp1 : ∀ x, G.Used x → ¬ Reach K a x → SparedAt (bumpZ Z e G) (bumpZ Z e G1) x := by
          intro x hx hn
          have o : Outside G K G1 (upd K a cs) (Reach K a) := by
            refine ⟨P.inv, hI1, fun y hy hyn => ⟨(same.used y).mpr hy, hupK y (by rintro rfl; exact hyn (.refl _)), ?_⟩, hw⟩
            rw [hup1, upd_of_ne _ _ (by rintro rfl; exact hyn (.step hcK (.refl _)))]
          exact o.spared hx hn (kept_bump P.st hS1 hx ((same.used x).mpr hx) (by rw [same.data]) rfl fun v nv h => ⟨nv, by rw [← same.vec]; exact h, rfl, rfl⟩)
            (by rw [same.borrow])
        have kp1 : KeptAt (bumpZ Z e G) (bumpZ Z e G1) a :=
          kept_bump P.st hS1 hu hUa1 (by rw [same.data]) rfl fun v nv h => ⟨nv, by rw [← same.vec]; exact h, rfl, rfl⟩
        have hcr : ∀ x, Reach K c x → Reach K a x := fun x h => .step hcK h
        have sp2 : ∀ x, G.Used x → ¬ Reach K a x → SparedAt (bumpZ Z e G1) (bumpZ Z e2 G2) x := by
          intro x hx hn
          exact g2.spared P1 hw1 (fun y h => hcr y (hr1.mp h.reach)) (fun y h => hcr y (hr1.mp h.reach)) (fun _ h => h.elim) ((same.used x).mpr hx) hn
        have kp2 : KeptAt (bumpZ Z e G1) (bumpZ Z e2 G2) a := g2.kept P1 hUa1 hnda hnoa
        have hreach2 : ∀ x, Reach K2 a x → Reach K a x := by
          intro x hx
          cases hx with
          | refl => exact .refl _
          | step hm h =>
            rw [hK2] at hm
            exact .step (by rw [hK]; simp [hm]) ((reach_congr fun y hy => (hcong2 _ hm y hy).1).mp h)
        have u2 : ∀ x, G.Used x → ¬ Reach K a x → G2.Used x := fun x hx hn =>
          (g2.used x).mpr ⟨(same.used x).mpr hx, fun h => hn (hcr x (hr1.mp h.reach))⟩
        simp only [RTree.releasedL, List.length_append, List.map_append]
        generalize hA : t.released (heldB e) = A at *
        generalize hB : RTree.releasedL (heldB e) ts = B at *
        refine ⟨?_, ?_⟩
        · intro hn
          simp only [drainRcP, drainRc, M.bind_apply, r1, Res.bind_ok]
          rw [f1 (by rintro ⟨j, h1, h2⟩; exact hn ⟨j, h1, by omega⟩), r2]
          simp only [Res.bind_ok]
          exact s1 (by rintro ⟨j, h1, h2⟩; exact hn ⟨A.length + j, by rw [h1]; congr 1; omega, by omega⟩)
        · intro j hj hlt
          by_cases hjA : j < A.length
          · obtain ⟨H', l, p1, p3, p4, p5, p6⟩ := f2 j hj hjA
            refine ⟨H', l, ?_, kp1.trans (p3 a hUa1 (fun h => P.inv.not_reach_up hcK (hr1.mp h))).toKeptAt, ?_, p4, p5.trans (List.sublist_append_left _ _), ?_⟩
            · simp only [drainRcP, M.bind_apply, r1, Res.bind_ok, p1, Res.bind_err]
            · intro x hx hn
              exact (sp1 x hx hn).trans (p3 x ((same.used x).mpr hx) fun h => hn (hcr x (hr1.mp h)))
            · rw [List.take_append_of_le_length (by simp; omega)]; exact p6
          · obtain ⟨i, rfl⟩ : ∃ i, j = A.length + i := ⟨j - A.length, by omega⟩
            obtain ⟨H', l, p1, p2, p3, p4, p5, p6⟩ := s2 i (by rw [hj]; congr 1; omega) (by omega)
            refine ⟨H', A.map Prod.snd ++ l, ?_, (kp1.trans kp2).trans p2, ?_, ?_, (List.Sublist.refl _).append p5, ?_⟩
            · simp only [drainRcP, M.bind_apply, r1, Res.bind_ok]
              rw [f1 (by rintro ⟨j', h1, h2⟩; rw [hj] at h1; simp at h1; omega), r2]
              simpa only [Res.bind_ok] using p1
            · intro x hx hn
              exact ((sp1 x hx hn).trans (sp2 x hx hn)).trans (p3 x (u2 x hx hn) fun h => hn (hreach2 x h))
            · rw [p4, hl2]; simp
            · rw [show A.length + i + 1 = (A.map Prod.snd).length + (i + 1) by simp; omega, List.take_length_add_append]
              exact (List.prefix_append_right_inj _).mpr p6

/-! ### What the other handles show -/

section
variable {G H : Heap α} {K : Addr → List Addr}

theorem children_spared (hI : Inv G K) {a : Addr} (ha : G.Used a) (h : ∀ x, Reach K a x → SparedAt G H x) : children a H = .ok (K a) H := by
  have h0 := h a (.refl _)
  have hc : ∀ c ∈ K a, SparedAt G H c := fun c hc => h c (.step hc (.refl _))
  have hit : ∃ it, iter a H = .ok it H ∧ it.At H (K a) := by
    have hla : H.live a = true := by rw [h0.live]; exact ha.1
    have hh : H.head a = (K a).head? := by rw [h0.head]; exact hI.l.head a ha
    have hs : H.size a = ⟨(K a).length, dsum G.size (K a)⟩ := by rw [h0.size]; exact hI.s a ha
    have hl : ∀ c ∈ K a, H.live c = true := fun c hm => by rw [(hc c hm).live]; exact (hI.used_of_mem hm).1
    have hk : Links H.prev H.next none (K a) none := (hI.l.links a ha).congr fun c hm => ⟨(hc c hm).prev, (hc c hm).next⟩
    cases hK : K a with
    | nil =>
      rw [hK] at hh
      exact ⟨⟨none, 0⟩, by simp [iter, hla, hh], rfl, by simp, by simp, none, none, trivial⟩
    | cons c cs =>
      rw [hK] at hh hl hk hs
      refine ⟨⟨some c, (H.size a).degree⟩, by simp [iter, hla, hh], by simp [hs], by simp, hl, none, none, hk⟩
  obtain ⟨it, e, hA⟩ := hit
  simp only [children, M.bind_apply, e, Res.bind_ok]
  exact RawIter.collect_ok hA (Nat.le_of_eq hA.1.symm)

theorem readLab_spared (hI : Inv G K) : ∀ (k : Nat) {a : Addr} {t : RTree (Addr × α)},
    G.Used a → Den G.lab K a t → (G.size a).descendants < k → (∀ x, Reach K a x → SparedAt G H x) → readLab k a H = .ok t H := by
  intro k
  induction k with
  | zero => intro a t _ _ hk; omega
  | succ k ih =>
    intro a t ha hd hk hs
    cases t with
    | node d ts =>
      simp only [Den_node] at hd
      obtain ⟨h1, h2⟩ := Heap.lab_some.mp hd.1
      have s0 := hs a (.refl _)
      have hv : H.val a = some d.2 := by simp only [Heap.val, s0.data]; exact h2
      simp only [readLab, M.bind_apply, dataRef_ok (h := H) (by rw [s0.live]; exact ha.1) hv, Res.bind_ok, children_spared hI ha hs]
      rw [readMany_ok (R := Den G.lab K) ?_ (DenL_forall₂.mp hd.2)]
      · simp [← h1]
      · intro c hc t ht
        have := hI.desc_lt hc
        exact ih (hI.used_of_mem hc) ht (by omega) fun x hx => hs x (.step hc hx)

theorem readNode_spared (hI : Inv G K) {a : Addr} {t : RTree (Addr × α)} (ha : G.Used a) (hd : Den G.lab K a t)
    (hs : ∀ x, Reach K a x → SparedAt G H x) : readNode a H = .ok t H := by
  simp only [readNode, M.fuelled_apply]
  exact readLab_spared hI _ ha hd (by rw [(hs a (.refl _)).size]; omega) hs

theorem readTree_spared (hI : Inv G K) : ∀ (k : Nat) {a : Addr} {t : RTree α},
    G.Used a → Den G.val K a t → (G.size a).descendants < k → (∀ x, Reach K a x → SparedAt G H x) → readTree k a H = .ok t H := by
  intro k
  induction k with
  | zero => intro a t _ _ hk; omega
  | succ k ih =>
    intro a t ha hd hk hs
    cases t with
    | node d ts =>
      simp only [Den_node] at hd
      have s0 := hs a (.refl _)
      have hv : H.val a = some d := by simp only [Heap.val, s0.data]; exact hd.1
      simp only [readTree, M.bind_apply, dataRef_ok (h := H) (by rw [s0.live]; exact ha.1) hv, Res.bind_ok, children_spared hI ha hs]
      rw [readMany_ok (R := Den G.val K) ?_ (DenL_forall₂.mp hd.2)]
      · simp
      · intro c hc t ht
        have := hI.desc_lt hc
        exact ih (hI.used_of_mem hc) ht (by omega) fun x hx => hs x (.step hc hx)

theorem readKids_spared (hI : Inv G K) {a : Addr} {ts : List (RTree α)} (ha : G.Used a) (hd : DenL G.val K (K a) ts)
    (hs : ∀ x, Reach K a x → SparedAt G H x) : readKids a H = .ok ts H := by
  simp only [readKids, M.fuelled_apply, M.bind_apply, children_spared hI ha hs, Res.bind_ok]
  refine readMany_ok (R := Den G.val K) ?_ (DenL_forall₂.mp hd)
  intro c hc t ht
  have := hI.desc_lt hc
  exact readTree_spared hI _ (hI.used_of_mem hc) ht (by rw [(hs a (.refl _)).size]; omega) fun x hx => hs x (.step hc hx)

theorem readHandle_spared (hI : Inv G K) {hd : Handle} {v : Val α} (ha : G.Used hd.addr) (hv : HDen G K hd v)
    (hs : ∀ x, Reach K hd.addr x → SparedAt G H x) : readHandle hd H = .ok v H := by
  cases hd <;> cases v <;> try exact hv.elim
  · rename_i r t
    have e : readTree ((H.size r).descendants + 1) r H = .ok t H :=
      readTree_spared hI _ ha hv (by rw [(hs r (.refl _)).size]; exact Nat.lt_succ_self _) hs
    simp only [readHandle, M.bind_apply, M.fuelled_apply, e]; rfl
  · rename_i r t
    have e : readKids r H = .ok t H := readKids_spared hI ha hv hs
    simp only [readHandle, M.bind_apply, e]; rfl
  · rename_i r t
    have e : readKids r H = .ok t H := readKids_spared hI ha hv hs
    simp only [readHandle, M.bind_apply, e]; rfl

end

section
variable {m : RMachine α} {G : Heap α} {K : Addr → List Addr} {T : Var → Option Addr}

/-- The last handle of a tree is dropped and a destructor panics. -/
theorem RInv.dropPanic_last (I : RInv m G K T) (B : GInv m) {k : Var} {a : Addr} {t : RTree (Addr × α)} (hk : T k = some a) (hg : m.guarded k = false)
    (he : extra G m.fresh T a = 0) (ht : Den G.lab K a t) (n : Option Nat) :
    ∃ r, m.refs k = some (.rc r) ∧
    (¬ Hits n m.heap.log.length (t.released (m.heldElse k)).length → dropHandleP n r m.heap = dropHandle r m.heap) ∧
    ∀ j, n = some (m.heap.log.length + j) → j < (t.released (m.heldElse k)).length →
      ∃ H l, dropHandleP n r m.heap = .err .panic H ∧ (∀ x, G.Used x → ¬ Reach K a x → SparedAt m.heap H x) ∧
        H.log = m.heap.log ++ l ∧ l.Sublist ((t.released (m.heldElse k)).map Prod.snd) ∧
        ((t.released (m.heldElse k)).map Prod.snd).take (j + 1) <+: l := by
  obtain ⟨ha, hx⟩ := (I.tgt k a hk).2
  obtain ⟨r, h1, h2⟩ := I.ref hk
  have hpos : nh m.fresh T a ≠ 0 := nh_pos.mpr ⟨k, I.lt hk, hk⟩
  have hup : G.up a = none := by
    by_contra h; simp [extra, h] at he; exact hpos he
  have hone : nh m.fresh T a = 1 := by simp [extra, hup] at he; omega
  have honly : ∀ j, j ≠ k → T j ≠ some a := fun j hj h => hj (nh_one hone hk (I.lt hk) h (I.lt h))
  have hdead : ∀ x, Dead K (extra G m.fresh T) a x → ∀ j, j ≠ k → T j ≠ some x := by
    intro x hd j hj hT
    by_cases e : x = a
    · subst e; exact honly j hj hT
    · have h0 := hd.zero
      have hux : G.up x ≠ none := by
        rcases hd.reach.cases_tail with h | ⟨p, -, hp⟩
        · exact absurd h.symm e
        · rw [I.inv.up_of_mem hp]; simp
      simp [extra, hux] at h0
      exact nh_pos.mpr ⟨j, I.lt hT, hT⟩ h0
  have hbor : ∀ x, Dead K (extra G m.fresh T) a x → G.borrow x = 0 := by
    intro x hd
    refine B.free I (I.inv.reach_used ha hd.reach) ?_
    rintro w ⟨g, j, h⟩
    have hT := I.guards g j x w h
    by_cases e : j = k
    · subst e; exact guarded_false I hg g x w h
    · exact hdead x hd j e hT
  have hat : (r.at (bumpE (extra G m.fresh T) G)) = a := h2.at_eq _ _
  have hrel : t.released (m.heldElse k) = t.released (heldB (extra G m.fresh T)) := by
    refine (released_congr t fun x hx => ?_).symm
    have hr := den_pre_reach ht x hx
    simp only [heldB, RMachine.heldElse, decide_eq_decide, I.nodeOf]
    constructor
    · intro h
      have : x.1 ≠ a := fun e => h (e ▸ he)
      obtain ⟨j, hj⟩ := I.hE h
      exact ⟨j, by rintro rfl; rw [hk] at hj; cases hj; exact this rfl, hj⟩
    · rintro ⟨j, hj, hT⟩
      have hne : x.1 ≠ a := fun e => honly j hj (e ▸ hT)
      have hux : G.up x.1 ≠ none := by
        rcases hr.cases_tail with h | ⟨p, -, hp⟩
        · exact absurd h.symm hne
        · rw [I.inv.up_of_mem hp]; simp
      have : nh m.fresh T x.1 ≠ 0 := nh_pos.mpr ⟨j, I.lt hT, hT⟩
      simpa [extra, hux] using this
  obtain ⟨p1, p2⟩ := (destroyP n (2 * (G.size a).descendants + 2)).1 (fun _ => false) G K (extra G m.fresh T) a r t
    ⟨I.inv, I.st, fun x hx => I.eUsed hx⟩ ha hup h2 (fun _ _ => rfl) hbor ht (Nat.le_refl _)
  have hlog : m.heap.log = G.log := by rw [I.heap]; rfl
  have d1 : dropHandleP n r m.heap = dropRcP n (2 * (G.size a).descendants + 2) r (bumpE (extra G m.fresh T) G) := by
    rw [I.heap]; simp only [dropHandleP, M.fuelled_apply, hat]; rfl
  have d2 : dropHandle r m.heap = dropRc (2 * (G.size a).descendants + 2) r (bumpE (extra G m.fresh T) G) := by
    rw [I.heap]; simp only [dropHandle, M.fuelled_apply, hat]; rfl
  refine ⟨r, h1, ?_⟩
  rw [hrel, hlog, d1, d2]
  exact ⟨p1, fun j hj hlt => by
    obtain ⟨H, l, q1, q2, q3, q4, q5⟩ := p2 j hj hlt
    exact ⟨H, l, q1, fun x hx hn => by rw [I.heap]; exact q2 x hx hn, q3, q4, q5⟩⟩

/-- Another owner is left. -/
theorem RInv.dropPanic_more (I : RInv m G K T) {k : Var} {a : Addr} (hk : T k = some a) (he : extra G m.fresh T a ≠ 0) (n : Option Nat) :
    ∃ r, m.refs k = some (.rc r) ∧ dropHandleP n r m.heap = dropHandle r m.heap := by
  obtain ⟨ha, hx⟩ := (I.tgt k a hk).2
  obtain ⟨r, h1, h2⟩ := I.ref hk
  refine ⟨r, h1, ?_⟩
  rw [I.heap]
  simp only [dropHandleP, dropHandle, M.fuelled_apply]
  generalize (2 * ((bumpE (extra G m.fresh T) G).size (r.at (bumpE (extra G m.fresh T) G))).descendants + 1) = b
  generalize extra G m.fresh T = e at *
  have hc1 : (bumpE e G).count a = 1 + e a := by simp [I.st.count1 ha]
  cases r with
  | scattered o =>
    obtain ⟨rfl, d, hd⟩ := h2
    have hs : (RcRef.scattered o).slot (bumpE e G) = .ok o (bumpE e G) := by simp [RcRef.slot, ha.1]
    simp only [dropRcP, dropRc, M.bind_apply, hs, Res.bind_ok, getCount, hc1]
    simp only [thenFields, M.bind_apply, getCount, Res.bind_ok, hc1]
    simp only [if_neg (show ¬ 1 + e o = 1 by omega)]
    simp only [M.pure_apply, rcDropP, Res.bind_ok]
    have hrd : rcDrop o (bumpE e G) = .ok () { bumpE e G with count := upd (bumpE e G).count o (1 + e o - 1) } := by
      simp only [rcDrop, bumpZ_live, ha.1, if_true, hc1]
      rw [if_neg (by omega), if_neg (by omega)]
    rw [hrd, Res.bind_ok, panicked_false (len := 0) (by simp) (by rintro ⟨j, -, h⟩; omega)]
    simp only [Bool.false_eq_true, if_false]
  | piled v i =>
    obtain ⟨nv, d, h1, h2, h3, h4⟩ := h2
    have hvn : vecNode v i (bumpE e G) = .ok a (bumpE e G) := by simp [vecNode, bumpVec_some h1, h2, h3]
    simp only [dropRcP, dropRc, M.bind_apply, hvn, Res.bind_ok, decrCount, hc1]
    rw [if_neg (by omega)]
    simp only [Res.bind_ok]
    rw [if_neg (by omega), if_neg (by omega)]

/-- The items that a drop of the handle in `k` destroys. -/
noncomputable def RMachine.doomed (m : RMachine α) (k : Var) (t : RTree (Addr × α)) : List α := open Classical in
  if m.HasParent t.data.1 then [] else (t.released (m.heldElse k)).map Prod.snd

theorem RInv.look_spared (I : RInv m G K T) {H : Heap α} {refs : Var → Option Ref} {i : Var} {ti : RTree (Addr × α)} {b : Addr} (hi : T i = some b)
    (hd : Den G.lab K b ti) (hr : refs i = m.refs i) (hs : ∀ x, Reach K b x → SparedAt m.heap H x) :
    (⟨H, m.env, refs, m.fresh⟩ : RMachine α).look i = some ti := by
  obtain ⟨r, h1, h2⟩ := I.ref hi
  have hb := (I.tgt i b hi).2.1
  have h4 : m.heap.Used b := I.used'.mpr hb
  have h5 : Den m.heap.lab K b ti := by rw [I.heap]; exact hd
  have hat : r.at H = b := by
    cases r with
    | scattered o => exact h2.1
    | piled v i =>
      obtain ⟨nv, d, g1, g2, g3, g4⟩ := h2
      obtain ⟨nv', f1, f2, f3⟩ := (hs b (.refl _)).vec v { nv with refCnt := nv.refCnt + esum (extra G m.fresh T) nv } (by rw [I.heap]; show (G.data b).blk = _; rw [g4]; rfl)
        (by rw [I.heap]; exact bumpVec_some g1)
      simp [RcRef.at, f1, f2, g3]
  simp only [RMachine.look, hr, h1, hat, readNode_spared I.inv' h4 h5 hs]

end

theorem si_dropPanic {m : RMachine α} (hm : SI m) {k : Var} {t : RTree (Addr × α)} (hk : m.look k = some t) (hg : m.guarded k = false) (j : Nat) :
    ((m.doomed k t).length ≤ j → pstep m (.dropPanic k j) = rstep m (.drop k)) ∧
    (j < (m.doomed k t).length → ∃ m' l, pstep m (.dropPanic k j) = .panic m' ∧ m'.env = m.env ∧ m'.refs = upd m.refs k none ∧ m'.fresh = m.fresh ∧
      m'.heap.log = m.heap.log ++ l ∧ l.Sublist (m.doomed k t) ∧ (m.doomed k t).take (j + 1) <+: l ∧ m'.excl.view = m.excl.view ∧
      ∀ i ti, i ≠ k → m.look i = some ti → ti.data.1 ∉ t.ids → m'.look i = some ti) := by
  obtain ⟨G, K, T, I, B⟩ := hm
  obtain ⟨a, h1, h2⟩ := I.look_iff.mp hk
  obtain ⟨ha, hx⟩ := (I.tgt k a h1).2
  by_cases he : extra G m.fresh T a = 0
  · have hpos : nh m.fresh T a ≠ 0 := nh_pos.mpr ⟨k, I.lt h1, h1⟩
    have hup : G.up a = none := by
      by_contra h; simp [extra, h] at he; exact hpos he
    have hdm : m.doomed k t = (t.released (m.heldElse k)).map Prod.snd := by
      simp only [RMachine.doomed]
      rw [h2.root, I.hasParent ha hx, if_neg (by simp [hup])]
    rw [hdm]
    simp only [List.length_map]
    obtain ⟨r, r1, r2, r3⟩ := I.dropPanic_last B h1 hg he h2 (some (m.heap.log.length + j))
    refine ⟨fun hj => ?_, fun hj => ?_⟩
    · have := r2 (by rintro ⟨i, e, hlt⟩; simp at e; omega)
      simp only [pstep, rstep, r1, hg, Bool.false_eq_true, if_false, RMachine.run, this]
    · obtain ⟨H, l, q1, q2, q3, q4, q5⟩ := r3 j rfl hj
      refine ⟨⟨H, m.env, upd m.refs k none, m.fresh⟩, l, ?_, rfl, rfl, rfl, q3, q4, q5, ?_, ?_⟩
      · simp only [pstep, r1, hg, Bool.false_eq_true, if_false, RMachine.run, q1]
      · funext x
        cases hxe : m.env x with
        | none => simp [Machine.view, RMachine.excl, hxe]
        | some hd =>
          obtain ⟨v, v1, v2⟩ := I.hden hxe
          have hu := (I.hnd x hd hxe).used
          have hnr : ∀ y, Reach K hd.addr y → SparedAt m.heap H y := by
            intro y hy
            refine q2 y (I.inv.reach_used hu hy) fun hr => ?_
            have := I.inv.root_disjoint (I.hnd x hd hxe).root hup hy hr
            exact hx ⟨x, hd, hxe, by rw [this]; exact .refl _⟩
          have e1 : readHandle hd H = .ok v H := readHandle_spared I.inv' (I.used'.mpr hu) (by rw [I.heap]; exact v1) hnr
          rw [v2]
          simp only [Machine.view, RMachine.excl, hxe, e1]
      · intro i ti hik hi hnot
        obtain ⟨b, b1, b2⟩ := I.look_iff.mp hi
        refine I.look_spared b1 b2 (upd_of_ne _ _ hik) fun x hxr => ?_
        refine q2 x (I.inv.reach_used (I.tgt i b b1).2.1 hxr) fun hr => hnot ?_
        have hab : Reach K a b := by
          rcases I.inv.reach_linear hr hxr with h | h
          · exact h
          · rcases h.cases_tail with e | ⟨p, -, hp⟩
            · rw [e]; exact .refl _
            · exact absurd hp (I.inv.not_mem_of_root hup)
        rw [b2.root]
        exact den_reach_pre h2 hab
  · obtain ⟨r, r1, r2⟩ := I.dropPanic_more h1 he (some (m.heap.log.length + j))
    have hnil : m.doomed k t = [] := by
      simp only [RMachine.doomed]
      rw [h2.root, I.hasParent ha hx]
      split
      · rfl
      · rename_i hup
        have hup : G.up a = none := by simpa using hup
        have := released_held (h := m.heldElse k) (t := t) ?_
        · rw [this]; rfl
        · rw [h2.root]
          simp only [RMachine.heldElse, decide_eq_true_eq, I.nodeOf]
          have h3 : nh m.fresh (upd T k none) a ≠ 0 := by
            rw [nh_unbind h1 (I.lt h1)]
            simp [extra, hup] at he ⊢; omega
          obtain ⟨i, -, hi⟩ := nh_pos.mp h3
          have hne : i ≠ k := by rintro rfl; simp at hi
          rw [upd_of_ne _ _ hne] at hi
          exact ⟨i, hne, hi⟩
    rw [hnil]
    refine ⟨fun _ => ?_, fun h => by simp at h⟩
    simp only [pstep, rstep, r1, hg, Bool.false_eq_true, if_false, RMachine.run, r2]

/-- Without panics and forgotten guards nothing changes. -/
theorem si_pstep {m : RMachine α} (hm : SI m) (op : ROp α) : pstep m (.call op) = rstep m op := by
  cases op with
  | drop k =>
    obtain ⟨G, K, T, I, B⟩ := hm
    cases hr : m.refs k with
    | none => simp only [pstep, hr]
    | some q =>
      cases q with
      | rc r =>
        cases hg : m.guarded k with
        | true => simp only [pstep, rstep, hr, hg, if_true]
        | false =>
          have key : dropHandleP none r m.heap = dropHandle r m.heap := by
            obtain ⟨a, h1, -⟩ := I.rcs k r hr
            obtain ⟨t, h2⟩ := I.den h1
            by_cases he : extra G m.fresh T a = 0
            · obtain ⟨r', r1, r2, -⟩ := I.dropPanic_last B h1 hg he h2 none
              rw [hr] at r1; cases r1
              exact r2 (by rintro ⟨j, h, -⟩; simp at h)
            · obtain ⟨r', r1, r2⟩ := I.dropPanic_more h1 he none
              rw [hr] at r1; cases r1
              exact r2
          simp only [pstep, rstep, hr, hg, Bool.false_eq_true, if_false, RMachine.run, key]
      | _ => simp only [pstep, hr]
  | _ => rfl

end Trees
