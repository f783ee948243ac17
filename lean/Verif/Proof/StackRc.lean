import Verif.Model.StackRc
import Verif.Spec.Stack
import Verif.Proof.RcPanic
/-
The stack that `Drop for RcNode` needs.
-/
namespace Trees
set_option linter.unusedSimpArgs false
set_option linter.unusedVariables false
variable {α β γ : Type}

mutual
theorem frames_congr {h h' : Addr → Bool} : ∀ (t : RTree (Addr × α)), (∀ x ∈ t.pre, h' x.1 = h x.1) → t.framesRc h' = t.framesRc h
  | .node x ts, hx => by
    simp only [RTree.framesRc, hx x (by simp)]
    rw [framesL_congr ts fun y hy => hx y (by simp [hy])]
theorem framesL_congr {h h' : Addr → Bool} : ∀ (ts : List (RTree (Addr × α))), (∀ x ∈ RTree.preL ts, h' x.1 = h x.1) →
    RTree.framesRcL h' ts = RTree.framesRcL h ts
  | [], _ => rfl
  | t :: ts, hx => by
    simp only [RTree.framesRcL]
    rw [frames_congr t fun y hy => hx y (by simp [hy]), framesL_congr ts fun y hy => hx y (by simp [hy])]
end

theorem frames_pos (h : β → Bool) (t : RTree (β × α)) : 0 < t.framesRc h := by
  cases t with
  | node x ts => simp only [RTree.framesRc]; split <;> omega

/-- A node with another owner. -/
theorem dropW_more {Z : Addr → Bool} {e : Addr → Nat} {G : Heap α} (hS : SInv G) {a : Addr} (hu : G.Used a) (hza : Z a = false) {r : RcRef} (hr : r.Is G a)
    (he : e a ≠ 0) (k L : Nat) : dropRcWithin (L+1) (k+1) r (bumpZ Z e G) = (dropRc (k+1) r (bumpZ Z e G)).bind fun _ h => .ok (some ()) h := by
  have hc1 : (bumpZ Z e G).count a = 1 + e a := by simp [hza, hS.count1 hu]
  cases r with
  | scattered o =>
    obtain ⟨rfl, d, hd⟩ := hr
    have hs : (RcRef.scattered o).slot (bumpZ Z e G) = .ok o (bumpZ Z e G) := by simp [RcRef.slot, hu.1]
    simp only [dropRcWithin, dropRc, M.bind_apply, hs, Res.bind_ok, getCount, hc1]
    simp only [if_neg (show ¬ 1 + e o = 1 by omega)]
    simp only [M.pure_apply, Res.bind_ok, M.bind_apply]
  | piled v i =>
    obtain ⟨nv, d, h1, h2, h3, h4⟩ := hr
    have hvn : vecNode v i (bumpZ Z e G) = .ok a (bumpZ Z e G) := by simp [vecNode, bumpVec_some h1, h2, h3]
    simp only [dropRcWithin, dropRc, M.bind_apply, hvn, Res.bind_ok, decrCount, hc1]
    rw [if_neg (by omega)]
    simp only [Res.bind_ok]
    rw [if_neg (by omega), if_neg (by omega)]
    simp only [M.pure_apply, Res.bind_ok, M.bind_apply]

/-- `dropRc` and `dropRcWithin` step by step. -/
theorem destroyW : ∀ (k : Nat),
    (∀ (L : Nat) (Z : Addr → Bool) (G : Heap α) (K : Addr → List Addr) (e : Addr → Nat) (a : Addr) (r : RcRef) (t : RTree (Addr × α)),
      Pre G K e → G.Used a → G.up a = none → r.Is G a → (∀ x, Reach K a x → Z x = false) → (∀ x, Dead K e a x → G.borrow x = 0) →
      Den G.lab K a t → 2 * (G.size a).descendants + 2 ≤ k →
      (t.framesRc (heldB e) ≤ L → dropRcWithin L k r (bumpZ Z e G) = (dropRc k r (bumpZ Z e G)).bind fun _ h => .ok (some ()) h) ∧
      (L < t.framesRc (heldB e) → ∃ H', dropRcWithin L k r (bumpZ Z e G) = .ok none H')) ∧
    (∀ (L : Nat) (Z : Addr → Bool) (G : Heap α) (K : Addr → List Addr) (e : Addr → Nat) (a : Addr) (r : RcRef) (ts : List (RTree (Addr × α))),
      Pre G K e → G.Used a → G.up a = none → r.Is G a → (∀ c ∈ K a, ∀ x, Reach K c x → Z x = false) → G.borrow a = 0 →
      (∀ c ∈ K a, ∀ x, Dead K e c x → G.borrow x = 0) → DenL G.lab K (K a) ts → 2 * (G.size a).descendants + 1 ≤ k →
      (RTree.framesRcL (heldB e) ts ≤ L → drainRcWithin L k r (bumpZ Z e G) = (drainRc k r (bumpZ Z e G)).bind fun _ h => .ok (some ()) h) ∧
      (L < RTree.framesRcL (heldB e) ts → ∃ H', drainRcWithin L k r (bumpZ Z e G) = .ok none H')) := by
  intro k
  induction k with
  | zero => exact ⟨by intros; omega, by intros; omega⟩
  | succ k ih =>
    refine ⟨?_, ?_⟩
    · intro L Z G K e a r t P hu hup hr hZ hb hden hk
      have hpos := frames_pos (heldB e) t
      cases L with
      | zero => exact ⟨fun h => by omega, fun _ => ⟨_, by simp only [dropRcWithin, M.pure_apply]; rfl⟩⟩
      | succ L =>
      have hza := hZ a (.refl _)
      by_cases he : e a = 0
      · cases t with
        | node x ts =>
        have hden0 := hden
        simp only [Den_node] at hden
        obtain ⟨hx1, hx2⟩ := Heap.lab_some.mp hden.1
        have hba := hb a (.here he)
        have hrel : (RTree.node x ts).framesRc (heldB e) = RTree.framesRcL (heldB e) ts + 1 := by
          have : heldB e x.1 = false := by rw [hx1]; simp [heldB, he]
          simp [RTree.framesRc, this]
        have hdrP : ∀ Z' : Addr → Bool, (∀ c ∈ K a, ∀ x, Reach K c x → Z' x = false) → _ := fun Z' hZ' =>
          ih.2 L Z' G K e a r ts P hu hup hr hZ' hba (fun c hc y hy => hb y (.step he hc hy)) hden.2 (by omega)
        rw [hrel]
        generalize RTree.framesRcL (heldB e) ts = F at *
        cases r with
        | scattered o =>
          obtain ⟨rfl, d, hd⟩ := hr
          have hs : (RcRef.scattered o).slot (bumpZ Z e G) = .ok o (bumpZ Z e G) := by simp [RcRef.slot, hu.1]
          have hc1 : (bumpZ Z e G).count o = 1 := by simp [hza, P.st.count1 hu, he]
          have hZ' : ∀ c ∈ K o, ∀ y, Reach K c y → Z y = false := fun c hc y hy => hZ y (.step hc hy)
          obtain ⟨q1, q2⟩ := hdrP Z hZ'
          refine ⟨fun hF => ?_, fun hF => ?_⟩
          · simp only [dropRcWithin, dropRc, M.bind_apply, hs, Res.bind_ok, getCount, hc1, if_true, q1 (by omega)]
            cases hq : drainRc k (.scattered o) (bumpZ Z e G) with
            | err y s => rfl
            | ok y s =>
              simp only [Res.bind_ok, M.bind_apply]
              cases rcDrop o s <;> rfl
          · obtain ⟨H', p⟩ := q2 (by omega)
            refine ⟨H', ?_⟩
            simp only [dropRcWithin, M.bind_apply, hs, Res.bind_ok, getCount, hc1, if_true, p]
            rfl
        | piled v i =>
          have hr' := hr
          obtain ⟨nv, d, h1, h2, h3, h4⟩ := hr
          have hZ' : ∀ c ∈ K a, ∀ y, Reach K c y → (Z y || decide (y = a)) = false := by
            intro c hc y hy
            have : y ≠ a := by rintro rfl; exact P.inv.not_reach_up hc hy
            simp [hZ y (.step hc hy), this]
          obtain ⟨q1, q2⟩ := hdrP _ hZ'
          have hvn : vecNode v i (bumpZ Z e G) = .ok a (bumpZ Z e G) := by simp [vecNode, bumpVec_some h1, h2, h3]
          have hdc : decrCount a (bumpZ Z e G) = .ok 0 (bumpZ (fun x => Z x || decide (x = a)) e G) := by
            have hc1 : (bumpZ Z e G).count a = 1 := by simp [hza, P.st.count1 hu, he]
            simp only [decrCount, hc1]
            rw [if_neg (by omega)]
            congr 1
            refine heap_ext rfl rfl rfl rfl rfl rfl rfl rfl ?_ rfl rfl rfl rfl rfl
            funext y
            simp only [upd_apply, bumpZ_count]
            by_cases hy : y = a
            · subst hy; simp
            · simp [hy]
          generalize hW : (fun x => Z x || decide (x = a)) = W at *
          refine ⟨fun hF => ?_, fun hF => ?_⟩
          · simp only [dropRcWithin, dropRc, M.bind_apply, hvn, Res.bind_ok, hdc, if_true, q1 (by omega)]
            cases hq : drainRc k (.piled v i) (bumpZ W e G) with
            | err y s => rfl
            | ok y s =>
              simp only [Res.bind_ok, M.bind_apply]
              cases dropInPlace a s with
              | err y s => rfl
              | ok y s =>
                simp only [Res.bind_ok, M.bind_apply]
                cases decrRef v s <;> rfl
          · obtain ⟨H', p⟩ := q2 (by omega)
            refine ⟨H', ?_⟩
            simp only [dropRcWithin, M.bind_apply, hvn, Res.bind_ok, hdc, if_true, p]
            rfl
      · -- another owner
        have hone : t.framesRc (heldB e) = 1 := by
          cases t with
          | node x ts =>
            simp only [Den_node] at hden
            have hx1 := (Heap.lab_some.mp hden.1).1
            have : heldB e x.1 = true := by rw [hx1]; simp [heldB, he]
            simp [RTree.framesRc, this]
        exact ⟨fun _ => dropW_more P.st hu hza hr he k L, fun h => by omega⟩
    · intro L Z G K e a r ts P hu hup hr hZ hba hb hden hk
      cases hK : K a with
      | nil =>
        rw [hK] at hden
        simp only [DenL_nil] at hden
        subst hden
        refine ⟨fun _ => ?_, fun h => by simp [RTree.framesRcL] at h⟩
        simp only [drainRcWithin, drainRc, M.bind_apply, popFrontRc_nil P.inv hr hu hba hK, Res.bind_ok, M.pure_apply]
      | cons c cs =>
        rw [hK, DenL_cons_left] at hden
        obtain ⟨t, ts, rfl, d1, d2⟩ := hden
        have hcK : c ∈ K a := by rw [hK]; simp
        have hUc := P.inv.used_of_mem hcK
        have hvc : G.IsVal c := by
          cases t with
          | node x us =>
            simp only [Den_node] at d1
            have := (Heap.lab_some.mp d1.1).2
            exact Heap.isVal_iff.mpr ⟨_, this⟩
        obtain ⟨q, G1, r1, hq, R⟩ := popFrontRc_ok (Z := Z) (e := e) P.inv P.st hr hba hK hvc
        obtain ⟨same, hup1, hI1⟩ := R
        have hS1 : SInv G1 := P.st.same same
        have P1 : Pre G1 (upd K a cs) e := ⟨hI1, hS1, fun x hx => (same.used x).mpr (P.hE x hx)⟩
        have hac : a ≠ c := by rintro rfl; exact P.inv.not_self hcK
        have hr1 : ∀ {x}, Reach (upd K a cs) c x ↔ Reach K c x := Removed.reach (h' := G1) P.inv hcK
        have hupK : ∀ b, b ≠ a → upd K a cs b = K b := fun b hb => by simp [upd_apply, hb]
        have hlab : ∀ x, G1.lab x = G.lab x := fun x => lab_congr (by rw [same.data])
        have hcong1 : ∀ b, Reach K c b → upd K a cs b = K b ∧ e b = e b := fun b hb =>
          ⟨hupK b (by intro h; subst h; exact P.inv.not_reach_up hcK (by assumption)), rfl⟩
        have hden1 : Den G1.lab (upd K a cs) c t := d1.congr fun b hb => ⟨(hcong1 b hb).1, hlab b⟩
        have hdl := P.inv.desc_lt hcK
        have hsz1 : (G1.size c).descendants = (G.size c).descendants := by
          have g1 := P.inv.desc_eq hUc d1
          have g2 := hI1.desc_eq ((same.used c).mpr hUc) hden1
          omega
        have a1 : ∀ x, Reach (upd K a cs) c x → Z x = false := fun x hx => hZ c hcK x (hr1.mp hx)
        have a2 : ∀ x, Dead (upd K a cs) e c x → G1.borrow x = 0 := fun x hx => by
          rw [same.borrow]; exact hb c hcK x ((dead_congr hcong1).mp hx)
        have a3 : 2 * (G1.size c).descendants + 2 ≤ k := by omega
        have hupc : G1.up c = none := by rw [hup1]; simp
        obtain ⟨G2, K2, e2, r2, g2⟩ := (destroy k).1 Z G1 (upd K a cs) e c q t P1 ((same.used c).mpr hUc) hupc hq a1 a2 hden1 a3
        obtain ⟨f1, f2⟩ := ih.1 L Z G1 (upd K a cs) e c q t P1 ((same.used c).mpr hUc) hupc hq a1 a2 hden1 a3
        have hde : ∀ x, Dead (upd K a cs) e c x ↔ Dead K e c x := fun x => dead_congr hcong1
        have hoe : ∀ x, Orph (upd K a cs) e c x ↔ Orph K e c x := fun x => orph_congr hcong1
        have hnd := P.inv.l.nodup a
        rw [hK] at hnd
        have hrest : ∀ x ∈ cs, ∀ b, Reach K x b → G.Used b ∧ ¬ Reach K c b ∧ b ≠ a := by
          intro x hx b hb
          have hxK : x ∈ K a := by rw [hK]; simp [hx]
          refine ⟨P.inv.reach_used (P.inv.used_of_mem hxK) hb, ?_, ?_⟩
          · intro hcb
            have := P.inv.sib_disjoint hxK hcK hb hcb
            subst this
            exact (List.nodup_cons.mp hnd).1 hx
          · intro h; subst h; exact P.inv.not_reach_up hxK (by assumption)
        have hnda : ¬ Dead (upd K a cs) e c a := fun h => P.inv.not_reach_up hcK (hr1.mp h.reach)
        have hnoa : ¬ Orph (upd K a cs) e c a := fun h => P.inv.not_reach_up hcK (hr1.mp h.reach)
        have hUa1 := (same.used a).mpr hu
        have hUa2 : G2.Used a := (g2.used a).mpr ⟨hUa1, hnda⟩
        have hK2 : K2 a = cs := by rw [g2.kids a hUa1 hnda (fun h => h)]; simp
        have hcong2 : ∀ x ∈ cs, ∀ b, Reach K x b → K2 b = K b ∧ e2 b = e b ∧ G2.data b = G.data b ∧ ¬ Dead K e c b ∧ ¬ Orph K e c b := by
          intro x hx b hb
          obtain ⟨f1, f2, f3⟩ := hrest x hx b hb
          have n1 : ¬ Dead (upd K a cs) e c b := fun h => f2 (hr1.mp h.reach)
          have n2 : ¬ Orph (upd K a cs) e c b := fun h => f2 (hr1.mp h.reach)
          refine ⟨by rw [g2.kids b ((same.used b).mpr f1) n1 (fun h => h), hupK b f3], g2.eN b n2, ?_, fun h => n1 ((hde b).mpr h), fun h => n2 ((hoe b).mpr h)⟩
          rw [g2.data b ((same.used b).mpr f1) n1, same.data]
        have P2 : Pre G2 K2 e2 := P1.gone g2 fun x h => h.zero
        have hden2 : DenL G2.lab K2 (K2 a) ts := by
          rw [hK2]; exact d2.congr fun x hx b hb => ⟨(hcong2 x hx b hb).1, lab_congr (hcong2 x hx b hb).2.2.1⟩
        have hr2 : r.Is G2 a := by
          have : r.Is G1 a := hr.same same
          exact this.keep hUa2 g2.st (g2.data a hUa1 hnda) g2.vecs
        have hsz2 : 2 * (G2.size a).descendants + 1 ≤ k := by
          have g1 := P2.inv.dsum_eq (fun x hx => P2.inv.used_of_mem hx) hden2
          have g3 := P.inv.dsum_eq (v := G.lab) (cs := cs) (ts := ts)
            (fun x hx => P.inv.used_of_mem (a := a) (by rw [hK]; simp [hx])) d2
          have g4 := P.inv.s a hu
          have g5 := P2.inv.s a hUa2
          rw [g5]
          rw [g4, hK] at hk
          rw [hK2] at g1
          simp only [dsum_cons, hK2] at hk ⊢
          omega
        have hup2 : G2.up a = none := by
          rw [g2.upN a hUa1 hnda hnoa, hup1, upd_of_ne _ _ hac]; exact hup
        obtain ⟨s1, s2⟩ := ih.2 L Z G2 K2 e2 a r ts P2 hUa2 hup2 hr2
          (by rw [hK2]; intro x hx b hb
              have hb' : Reach K x b := (reach_congr fun y hy => (hcong2 x hx y hy).1).mp hb
              exact hZ x (by rw [hK]; simp [hx]) b hb')
          (by rw [g2.borrow, same.borrow]; exact hba)
          (by rw [hK2]; intro x hx b hb'
              rw [g2.borrow, same.borrow]
              exact hb x (by rw [hK]; simp [hx]) b ((dead_congr fun y hy => ⟨(hcong2 x hx y hy).1, (hcong2 x hx y hy).2.1⟩).mp hb'))
          hden2 hsz2
        have hreq : RTree.framesRcL (heldB e2) ts = RTree.framesRcL (heldB e) ts := by
          refine framesL_congr ts fun x hx => ?_
          obtain ⟨y, hy, hr⟩ := denL_pre_reach d2 x hx
          simp [heldB, (hcong2 y hy x.1 hr).2.1]
        rw [hreq] at s1 s2
        simp only [RTree.framesRcL]
        generalize t.framesRc (heldB e) = A at *
        generalize RTree.framesRcL (heldB e) ts = B at *
        refine ⟨fun hn => ?_, fun hn => ?_⟩
        · simp only [drainRcWithin, drainRc, M.bind_apply, r1, Res.bind_ok]
          rw [f1 (by omega), r2]
          simp only [Res.bind_ok]
          exact s1 (by omega)
        · by_cases hA : L < A
          · obtain ⟨H', p⟩ := f2 hA
            refine ⟨H', ?_⟩
            simp only [drainRcWithin, M.bind_apply, r1, Res.bind_ok, p]
            rfl
          · obtain ⟨H', p⟩ := s2 (by omega)
            refine ⟨H', ?_⟩
            simp only [drainRcWithin, M.bind_apply, r1, Res.bind_ok]
            rw [f1 (by omega), r2]
            simpa only [Res.bind_ok] using p

open Classical

section
variable {m : RMachine α} {G : Heap α} {K : Addr → List Addr} {T : Var → Option Addr}

/-- The last handle of a tree is dropped. -/
theorem RInv.dropWithin_last (I : RInv m G K T) (B : GInv m) {k : Var} {a : Addr} {t : RTree (Addr × α)} (hk : T k = some a) (hg : m.guarded k = false)
    (he : extra G m.fresh T a = 0) (ht : Den G.lab K a t) (L : Nat) :
    ∃ r, m.refs k = some (.rc r) ∧
    (t.framesRc (m.heldElse k) ≤ L → dropHandleWithin L r m.heap = (dropHandle r m.heap).bind fun _ h => .ok (some ()) h) ∧
    (L < t.framesRc (m.heldElse k) → ∃ H, dropHandleWithin L r m.heap = .ok none H) := by
  obtain ⟨ha, hx⟩ := (I.tgt k a hk).2
  obtain ⟨r, h1, h2⟩ := I.ref hk
  have hpos : nh m.fresh T a ≠ 0 := nh_pos.mpr ⟨k, I.lt hk, hk⟩
  have hup : G.up a = none := by
    by_contra h; simp [extra, h] at he; exact hpos he
  have hone : nh m.fresh T a = 1 := by simp [extra, hup] at he; omega
  have honly : ∀ j, j ≠ k → T j ≠ some a := fun j hj h => hj (nh_one hone hk (I.lt hk) h (I.lt h))
  have hdead : ∀ x, Dead K (extra G m.fresh T) a x → ∀ j, j ≠ k → T j ≠ some x := by
    intro x hd j hj hT
    by_cases e : x = a
    · subst e; exact honly j hj hT
    · have h0 := hd.zero
      have hux : G.up x ≠ none := by
        rcases hd.reach.cases_tail with h | ⟨p, -, hp⟩
        · exact absurd h.symm e
        · rw [I.inv.up_of_mem hp]; simp
      simp [extra, hux] at h0
      exact nh_pos.mpr ⟨j, I.lt hT, hT⟩ h0
  have hbor : ∀ x, Dead K (extra G m.fresh T) a x → G.borrow x = 0 := by
    intro x hd
    refine B.free I (I.inv.reach_used ha hd.reach) ?_
    rintro w ⟨g, j, h⟩
    have hT := I.guards g j x w h
    by_cases e : j = k
    · subst e; exact guarded_false I hg g x w h
    · exact hdead x hd j e hT
  have hat : (r.at (bumpE (extra G m.fresh T) G)) = a := h2.at_eq _ _
  have hrel : t.framesRc (m.heldElse k) = t.framesRc (heldB (extra G m.fresh T)) := by
    refine (frames_congr t fun x hx => ?_).symm
    have hr := den_pre_reach ht x hx
    simp only [heldB, RMachine.heldElse, decide_eq_decide, I.nodeOf]
    constructor
    · intro h
      have : x.1 ≠ a := fun e => h (e ▸ he)
      obtain ⟨j, hj⟩ := I.hE h
      exact ⟨j, by rintro rfl; rw [hk] at hj; cases hj; exact this rfl, hj⟩
    · rintro ⟨j, hj, hT⟩
      have hne : x.1 ≠ a := fun e => honly j hj (e ▸ hT)
      have hux : G.up x.1 ≠ none := by
        rcases hr.cases_tail with h | ⟨p, -, hp⟩
        · exact absurd h.symm hne
        · rw [I.inv.up_of_mem hp]; simp
      have : nh m.fresh T x.1 ≠ 0 := nh_pos.mpr ⟨j, I.lt hT, hT⟩
      simpa [extra, hux] using this
  have p := (destroyW (2 * (G.size a).descendants + 2)).1 L (fun _ => false) G K (extra G m.fresh T) a r t
    ⟨I.inv, I.st, fun x hx => I.eUsed hx⟩ ha hup h2 (fun _ _ => rfl) hbor ht (Nat.le_refl _)
  have d1 : dropHandleWithin L r m.heap = dropRcWithin L (2 * (G.size a).descendants + 2) r (bumpE (extra G m.fresh T) G) := by
    rw [I.heap]; simp only [dropHandleWithin, M.fuelled_apply, hat]; rfl
  have d2 : dropHandle r m.heap = dropRc (2 * (G.size a).descendants + 2) r (bumpE (extra G m.fresh T) G) := by
    rw [I.heap]; simp only [dropHandle, M.fuelled_apply, hat]; rfl
  refine ⟨r, h1, ?_⟩
  rw [hrel, d1, d2]
  exact p

/-- Another owner is left. -/
theorem RInv.dropWithin_more (I : RInv m G K T) {k : Var} {a : Addr} (hk : T k = some a) (he : extra G m.fresh T a ≠ 0) (L : Nat) :
    ∃ r, m.refs k = some (.rc r) ∧
    dropHandleWithin (L+1) r m.heap = ((dropHandle r m.heap).bind fun _ h => .ok (some ()) h) ∧ dropHandleWithin 0 r m.heap = .ok none m.heap := by
  obtain ⟨ha, hx⟩ := (I.tgt k a hk).2
  obtain ⟨r, h1, h2⟩ := I.ref hk
  refine ⟨r, h1, ?_, ?_⟩
  · rw [I.heap]
    simp only [dropHandleWithin, dropHandle, M.fuelled_apply]
    exact dropW_more I.st ha rfl h2 he _ L
  · simp only [dropHandleWithin, M.fuelled_apply, dropRcWithin, M.pure_apply]

/-- How many handles to a node without a parent there are decides who owns it. -/
theorem RInv.held_root (I : RInv m G K T) {k : Var} {a : Addr} (hk : T k = some a) (he : extra G m.fresh T a ≠ 0) (hup : G.up a = none) :
    m.heldElse k a = true := by
  have hn : nh m.fresh T a ≠ 1 := by
    intro h; simp [extra, hup, h] at he
  have h1 := nh_unbind (n := m.fresh) hk (I.lt hk) a
  simp at h1
  have hpos : nh m.fresh T a ≠ 0 := nh_pos.mpr ⟨k, I.lt hk, hk⟩
  have h2 : nh m.fresh (upd T k none) a ≠ 0 := by omega
  obtain ⟨j, hj, hT⟩ := nh_pos.mp h2
  have hne : j ≠ k := by rintro rfl; simp at hT
  rw [upd_of_ne _ _ hne] at hT
  simp only [RMachine.heldElse, decide_eq_true_eq, I.nodeOf]
  exact ⟨j, hne, hT⟩

end

/-- The number of nested calls that the drop of the handle in variable `k` takes. -/
noncomputable def RMachine.frames (m : RMachine α) (k : Var) (t : RTree (Addr × α)) : Nat :=
  if m.HasParent t.data.1 then 1 else t.framesRc (m.heldElse k)

theorem si_dropWithin {m : RMachine α} (hm : SI m) {k : Var} {t : RTree (Addr × α)} (hk : m.look k = some t) (hg : m.guarded k = false) (L : Nat) :
    (m.frames k t ≤ L → m.dropWithin L k = some (rstep m (.drop k))) ∧ (L < m.frames k t → m.dropWithin L k = none) := by
  obtain ⟨G, K, T, I, B⟩ := hm
  obtain ⟨a, h1, h2⟩ := I.look_iff.mp hk
  obtain ⟨ha, hx⟩ := (I.tgt k a h1).2
  have key : ∀ r, m.refs k = some (.rc r) → dropHandleWithin L r m.heap = ((dropHandle r m.heap).bind fun _ h => .ok (some ()) h) →
      m.dropWithin L k = some (rstep m (.drop k)) := by
    intro r r1 r2
    simp only [RMachine.dropWithin, rstep, r1, hg, Bool.false_eq_true, if_false, RMachine.run, r2]
    cases dropHandle r m.heap with
    | ok b h => rfl
    | err x h => cases x <;> rfl
  by_cases he : extra G m.fresh T a = 0
  · have hpos : nh m.fresh T a ≠ 0 := nh_pos.mpr ⟨k, I.lt h1, h1⟩
    have hup : G.up a = none := by
      by_contra h; simp [extra, h] at he; exact hpos he
    have hf : m.frames k t = t.framesRc (m.heldElse k) := by
      simp only [RMachine.frames]
      rw [h2.root, I.hasParent ha hx, if_neg (by simp [hup])]
    rw [hf]
    obtain ⟨r, r1, r2, r3⟩ := I.dropWithin_last B h1 hg he h2 L
    refine ⟨fun h => key r r1 (r2 h), fun h => ?_⟩
    obtain ⟨H, e⟩ := r3 h
    simp only [RMachine.dropWithin, r1, hg, Bool.false_eq_true, if_false, e]
  · have hf : m.frames k t = 1 := by
      simp only [RMachine.frames]
      rw [h2.root, I.hasParent ha hx]
      split
      · rfl
      · rename_i h
        have hup : G.up a = none := by simpa using h
        have hh := I.held_root h1 he hup
        cases t with
        | node x ts =>
          have : x.1 = a := h2.root
          simp [RTree.framesRc, this, hh]
    rw [hf]
    cases L with
    | zero =>
      obtain ⟨r, r1, -, r3⟩ := I.dropWithin_more h1 he 0
      refine ⟨fun h => by omega, fun _ => ?_⟩
      simp only [RMachine.dropWithin, r1, hg, Bool.false_eq_true, if_false, r3]
    | succ L =>
      obtain ⟨r, r1, r2, -⟩ := I.dropWithin_more h1 he L
      exact ⟨fun _ => key r r1 r2, fun h => by omega⟩

end Trees
