import Verif.Proof.Forget
/-
Dropping trees, forests and iterators when a destructor of user data panics.
-/
namespace Trees
set_option linter.unusedSimpArgs false
set_option linter.unusedVariables false
variable {α : Type}
open RTree

theorem logDropP_apply (n : Nat) (d : α) (h : Heap α) : logDropP n d h =
    if h.log.length = n then .err .panic { h with log := h.log ++ [d] } else .ok () { h with log := h.log ++ [d] } := rfl

theorem dropNodeP_freed {h : Heap α} {D} (hS : SInvD h D) {a : Addr} (ha : h.Used a) (n : Nat) :
    ∃ h', Freed h h' a (h.val a).toList ∧ SInvD h' D ∧
      dropNodeP n a h = if (h.val a).isSome = true ∧ h.log.length = n then .err .panic h' else .ok () h' := by
  have hl := ha.1
  have ho := hS.owner a ha
  simp only [dropNodeP, M.bind_apply, getData_ok hl, Res.bind_ok, setData_ok hl]
  cases hd : h.data a with
  | none => rw [hd] at ho; exact ho.elim
  | scatteredNone o =>
    rw [hd] at ho
    obtain ⟨rfl, h2, h3⟩ := ho
    have := rcDrop_freed hS ha h2 h3 [] .none
    refine ⟨_, by simpa [Heap.val, hd, Data.val?] using this.1, this.2, ?_⟩
    simp [rcDrop, hl, h2, Data.val?, Heap.val, hd]
  | scattered d o =>
    rw [hd] at ho
    obtain ⟨rfl, h2, h3⟩ := ho
    have := rcDrop_freed hS ha h2 h3 [d] .none
    refine ⟨_, by simpa [Heap.val, hd, Data.val?] using this.1, this.2, ?_⟩
    simp [rcDrop, hl, h2, Data.val?, logDropP_apply, Heap.val, hd]
  | piledNone v =>
    rw [hd] at ho
    obtain ⟨-, nv, h2, h3⟩ := ho
    obtain ⟨h', e, f1, f2⟩ := decrRef_freed hS ha h2 h3 []
    simp only [List.append_nil] at f1 f2
    exact ⟨h', by simpa [Heap.val, hd, Data.val?] using f1, f2, by simp [Heap.val, hd, Data.val?, e]⟩
  | piled d v =>
    rw [hd] at ho
    obtain ⟨-, nv, h2, h3⟩ := ho
    obtain ⟨h', e, f1, f2⟩ := decrRef_freed hS ha h2 h3 [d]
    refine ⟨_, by simpa [Heap.val, hd, Data.val?] using f1, f2, ?_⟩
    have hlog : h'.log = h.log := List.append_cancel_right f1.log
    simp [M.bind_apply, e, Res.bind_ok, logDropP_apply, Heap.val, hd, Data.val?, hlog]

theorem Removed.part {D : Nat → Nat} {h h1 : Heap α} {K : Addr → List Addr} {r c : Addr} {cs : List Addr} (hI : Inv h K) (hS : SInvD h D)
    (hup : h.up r = none) (hcK : c ∈ K r) (hcs : ∀ x ∈ cs, x ∈ K r) (R : Removed h h1 K r c cs) : Part h K h1 (upd K r cs) (Reach K r) [] D := by
  obtain ⟨same, hup1, hI1⟩ := R
  refine ⟨hI1, hS.same same, fun x hx => (same.used x).mp hx, fun x hx _ => (same.used x).mpr hx, ?_, fun x _ => by rw [same.data], ?_,
    fun x _ _ => by rw [same.count], ?_, same.borrow, same.nextAddr, same.nextVec, by simp [same.log]⟩
  · intro x _ hn
    have : x ≠ r := by rintro rfl; exact hn (.refl _)
    simp [upd_apply, this]
  · intro x _ hn
    have : x ≠ c := by rintro rfl; exact hn (.step hcK (.refl _))
    rw [hup1]; simp [upd_apply, this]
  · intro a c' hc'
    refine hI.reach_closed hup ?_
    simp only [upd_apply] at hc'
    split at hc'
    · rename_i e; subst e; exact hcs _ hc'
    · exact hc'

/-- The situation after the first child has been popped and dropped. -/
theorem drop_first {D : Nat → Nat} {h h1 h2 : Heap α} {K K2 : Addr → List Addr} {r c : Addr} {cs : List Addr} {lg : List α} {ts : List (RTree α)}
    (hI : Inv h K) (hS : SInvD h D) (hr : h.Used r) (hK : K r = c :: cs) (R : Removed h h1 K r c cs)
    (D2 : Dropped h1 (upd K r cs) c lg h2 K2 D) (d2 : DenL h.val K cs ts) :
    h2.Used r ∧ h2.up r = h.up r ∧ K2 r = cs ∧ h2.val r = h.val r ∧ DenL h2.val K2 (K2 r) ts ∧ (∀ x, Reach (upd K r cs) c x ↔ Reach K c x) ∧
      (h2.size r).degree = cs.length ∧
      (h2.size r).descendants < (h.size r).descendants ∧ (∀ x, Reach K2 r x ↔ x = r ∨ ∃ k ∈ cs, Reach K k x) := by
  obtain ⟨same, hup1, hI1⟩ := R
  have hcK : c ∈ K r := by rw [hK]; simp
  have hv1 : h1.val = h.val := by funext a; simp [Heap.val, same.data]
  have hrc : r ≠ c := by rintro rfl; exact hI.not_self hcK
  have hr1 : ∀ {x}, Reach (upd K r cs) c x ↔ Reach K c x := Removed.reach (h' := h1) hI hcK
  have hupK : ∀ b, b ≠ r → upd K r cs b = K b := fun b hb => by simp [upd_apply, hb]
  have hnr : ¬ Reach (upd K r cs) c r := by rw [hr1]; exact hI.not_reach_up hcK
  have hUr1 := (same.used r).mpr hr
  have hUr2 : h2.Used r := (D2.sh.used r).mpr ⟨hUr1, hnr⟩
  have hup2 : h2.up r = h.up r := by rw [D2.sh.up r hUr1 hnr, hup1]; simp [upd_apply, hrc]
  have hK2 : K2 r = cs := by rw [D2.sh.kids r hUr1 hnr]; simp
  have hnd := hI.l.nodup r
  rw [hK] at hnd
  have hrest : ∀ x ∈ cs, ∀ b, Reach K x b → h.Used b ∧ ¬ Reach (upd K r cs) c b ∧ b ≠ r := by
    intro x hx b hb
    have hxK : x ∈ K r := by rw [hK]; simp [hx]
    refine ⟨hI.reach_used (hI.used_of_mem hxK) hb, ?_, ?_⟩
    · rw [hr1]; intro hcb
      have := hI.sib_disjoint hxK hcK hb hcb
      subst this
      exact (List.nodup_cons.mp hnd).1 hx
    · rintro rfl; exact hI.not_reach_up hxK hb
  have hK2' : ∀ x ∈ cs, ∀ b, Reach K x b → K2 b = K b ∧ h2.val b = h.val b := by
    intro x hx b hb
    obtain ⟨g1, g2, g3⟩ := hrest x hx b hb
    refine ⟨by rw [D2.sh.kids b ((same.used b).mpr g1) g2, hupK b g3], ?_⟩
    simp only [Heap.val]; rw [D2.sh.data b ((same.used b).mpr g1) g2, same.data]
  have hden2 : DenL h2.val K2 (K2 r) ts := by rw [hK2]; exact d2.congr hK2'
  have hsz2 : (h2.size r).descendants < (h.size r).descendants := by
    have g1 := D2.inv.dsum_eq (fun x hx => D2.inv.used_of_mem hx) hden2
    have g2 := hI.dsum_eq (v := h.val) (cs := cs) (ts := ts)
      (fun x hx => hI.used_of_mem (a := r) (by rw [hK]; simp [hx])) d2
    have g3 := hI.s r hr
    have g4 := D2.inv.s r hUr2
    rw [g4, g3, hK]
    rw [hK2] at g1
    simp only [dsum_cons, hK2]
    omega
  refine ⟨hUr2, hup2, hK2, ?_, hden2, fun x => hr1, ?_, hsz2, ?_⟩
  · simp only [Heap.val]; rw [D2.sh.data r hUr1 hnr, same.data]
  · rw [D2.inv.s r hUr2, hK2]
  · intro x
    rw [reach_iff, hK2]
    apply or_congr Iff.rfl
    apply exists_congr; intro k
    apply and_congr_right; intro hk
    exact reach_congr (fun b hb => (hK2' k hk b hb).1)

/-- What dropping the popped child needs. -/
theorem drop_child {h h1 : Heap α} {K : Addr → List Addr} {r c : Addr} {cs : List Addr} {d : α} {us : List (RTree α)}
    (hI : Inv h K) (hcK : c ∈ K r) (R : Removed h h1 K r c cs) (d1 : Den h.val K c (.node d us)) :
    h1.Used c ∧ h1.up c = none ∧ DenL h1.val (upd K r cs) ((upd K r cs) c) us ∧ h1.val c = some d ∧
      (h1.size c).descendants < (h.size r).descendants := by
  obtain ⟨same, hup1, hI1⟩ := R
  have hv1 : h1.val = h.val := by funext a; simp [Heap.val, same.data]
  have hrc : r ≠ c := by rintro rfl; exact hI.not_self hcK
  have hUc := hI.used_of_mem hcK
  have hupK : ∀ b, b ≠ r → upd K r cs b = K b := fun b hb => by simp [upd_apply, hb]
  have hd1 := hI.desc_lt hcK
  simp only [Den_node] at d1
  have hden1 : DenL h1.val (upd K r cs) ((upd K r cs) c) us := by
    rw [hv1, hupK c (fun e => hrc e.symm)]
    refine d1.2.congr (fun x hx b hb => ⟨hupK b ?_, rfl⟩)
    rintro rfl; exact hI.not_reach_up hcK (.step hx hb)
  have hsz1 : (h1.size c).descendants = (h.size c).descendants := by
    have g1 := hI.dsum_eq (fun x hx => hI.used_of_mem hx) d1.2
    have g2 := hI1.dsum_eq (fun x hx => hI1.used_of_mem hx) hden1
    rw [hI.s c hUc, hI1.s c ((same.used c).mpr hUc)]
    simp [g1, g2]
  exact ⟨(same.used c).mpr hUc, by rw [hup1]; simp, hden1, by rw [hv1]; exact d1.1, by omega⟩

/-- A part of the nodes below `r` and then the rest. -/
theorem Part.dropped {D : Nat → Nat} {h h2 h3 : Heap α} {K K2 K3 : Addr → List Addr} {r c : Addr} {cs : List Addr} {l1 l2 : List α}
    (hK : K r = c :: cs) (p : Part h K h2 K2 (Reach K r) l1 D) (D3 : Dropped h2 K2 r l2 h3 K3 D)
    (hgone : ∀ x, Reach K c x → ¬ h2.Used x) (hre : ∀ x, Reach K2 r x ↔ x = r ∨ ∃ k ∈ cs, Reach K k x) : Dropped h K r (l1 ++ l2) h3 K3 D := by
  have hsub : ∀ x, Reach K2 r x → Reach K r x := by
    intro x hx
    rw [hre] at hx
    rw [reach_iff, hK]
    rcases hx with e | ⟨k, h1, h2⟩
    · exact .inl e
    · exact .inr ⟨k, by simp [h1], h2⟩
  refine ⟨D3.inv, D3.st, ?_, ?_, ?_, ?_, ?_, ?_, ?_, ?_, ?_⟩
  · intro x
    rw [D3.sh.used]
    constructor
    · rintro ⟨h1, h2⟩
      refine ⟨p.usedI x h1, ?_⟩
      intro h3
      rw [reach_iff, hK] at h3
      rw [hre] at h2
      rcases h3 with e | ⟨k, h4, h5⟩
      · exact h2 (.inl e)
      · rcases List.mem_cons.mp h4 with rfl | h4
        · exact hgone x h5 h1
        · exact h2 (.inr ⟨k, h4, h5⟩)
    · rintro ⟨h1, h2⟩; exact ⟨p.used x h1 h2, fun h3 => h2 (hsub x h3)⟩
  · intro x hx hn; rw [D3.sh.kids x (p.used x hx hn) (fun h3 => hn (hsub x h3)), p.kids x hx hn]
  · intro x hx hn; rw [D3.sh.data x (p.used x hx hn) (fun h3 => hn (hsub x h3)), p.data x (p.used x hx hn)]
  · intro x hx hn; rw [D3.sh.up x (p.used x hx hn) (fun h3 => hn (hsub x h3)), p.up x hx hn]
  · intro x hx hn; rw [D3.sh.count x (p.used x hx hn) (fun h3 => hn (hsub x h3)), p.count x hx hn]
  · rw [D3.sh.borrow, p.borrow]
  · rw [D3.sh.nextAddr, p.nextAddr]
  · rw [D3.sh.nextVec, p.nextVec]
  · rw [D3.sh.log, p.log, List.append_assoc]

/-- The two outcomes of a drop in which the destructor of the `n`-th item of the history panics. -/
def DropP (h : Heap α) (K : Addr → List Addr) (r : Addr) (lg : List α) (D : Nat → Nat) (n : Nat) (res : Res (Heap α) Unit) : Prop :=
  (h.log.length ≤ n ∧ n < h.log.length + lg.length ∧ ∃ h' K', res = .err .panic h' ∧ Part h K h' K' (Reach K r) (lg.take (n - h.log.length + 1)) D) ∨
  ((n < h.log.length ∨ h.log.length + lg.length ≤ n) ∧ ∃ h' K', res = .ok () h' ∧ Dropped h K r lg h' K' D)

theorem dropLoopP_ok {D : Nat → Nat} (n : Nat) : ∀ (k : Nat) {h : Heap α} {K : Addr → List Addr} {r : Addr} {ts : List (RTree α)},
    Inv h K → SInvD h D → h.Used r → h.up r = none → DenL h.val K (K r) ts → (h.size r).descendants < k →
    DropP h K r (RTree.postL ts ++ (h.val r).toList) D n (dropLoopP n k r h) := by
  intro k
  induction k with
  | zero => intro h K r ts _ _ _ _ _ hk; omega
  | succ k ih =>
    intro h K r ts hI hS hr hup hden hk
    cases hK : K r with
    | nil =>
      rw [hK] at hden
      simp only [DenL_nil] at hden
      subst hden
      obtain ⟨h', f1, f2, e⟩ := dropNodeP_freed hS hr n
      have hD : Dropped h K r (h.val r).toList h' K D := by
        refine ⟨f1.inv hI hup hK, f2, ?_⟩
        have := f1.shrink K
        have hiff : ∀ x, Reach K r x ↔ x = r := by
          intro x; rw [reach_iff, hK]; simp
        have e2 : Reach K r = (· = r) := by funext x; exact propext (hiff x)
        rw [e2]; exact this
      have e0 : dropLoopP n (k + 1) r h = dropNodeP n r h := by
        simp only [dropLoopP, M.bind_apply, popFront_nil hI hr hK, Res.bind_ok]
      rw [e0, e]
      simp only [RTree.postL, List.nil_append]
      cases hv : h.val r with
      | none =>
        rw [hv] at hD
        refine .inr ⟨?_, h', K, by simp, hD⟩
        simp; omega
      | some d =>
        rw [hv] at hD
        by_cases hn : h.log.length = n
        · refine .inl ⟨by omega, by simp; omega, h', K, by simp [hn], ?_⟩
          have := hD.part hI hup
          simpa using this
        · refine .inr ⟨by simp; omega, h', K, by simp [hn], hD⟩
    | cons c cs =>
      rw [hK, DenL_cons_left] at hden
      obtain ⟨t, ts, rfl, d1, d2⟩ := hden
      have hcK : c ∈ K r := by rw [hK]; simp
      obtain ⟨h1, e1, R⟩ := popFront_ok hI hK
      have P1 := R.part hI hS hup hcK (fun x hx => by rw [hK]; simp [hx])
      have hlog1 : h1.log = h.log := by rw [P1.log]; simp
      cases t with
      | node d us =>
      obtain ⟨u1, u2, u3, u4, u5⟩ := drop_child hI hcK R d1
      have hr1 : ∀ x, Reach (upd K r cs) c x ↔ Reach K c x := fun x => Removed.reach (h' := h1) hI hcK
      have hsub1 : ∀ x, Reach (upd K r cs) c x → Reach K r x := fun x hx => .step hcK ((hr1 x).mp hx)
      have A := ih (r := c) (ts := us) P1.inv P1.st u1 u2 u3 (by omega)
      rw [u4] at A
      have e0 : dropLoopP n (k + 1) r h = (dropLoopP n k c h1).bind fun _ s => dropLoopP n k r s := by
        simp only [dropLoopP, M.bind_apply, e1, Res.bind_ok]
      rw [e0]
      simp only [DropP, RTree.postL, RTree.post, Option.toList_some, List.append_assoc, List.length_append, hlog1] at A ⊢
      rcases A with ⟨n1, n2, h2, K2, e2, P2⟩ | ⟨n1, h2, K2, e2, D2⟩
      · refine .inl ⟨n1, by omega, h2, K2, by rw [e2]; rfl, ?_⟩
        have := P1.trans P2 hsub1
        rw [← List.append_assoc, List.take_append_of_le_length (by simp only [List.length_append]; omega)]
        simpa [hlog1] using this
      · obtain ⟨v1, v2, v3, v4, v5, v6, v7, v8, v9⟩ := drop_first hI hS hr hK R D2 d2
        have P12 := P1.trans (D2.part P1.inv u2) hsub1
        have hgone : ∀ x, Reach K c x → ¬ h2.Used x := fun x hx hu => ((D2.sh.used x).mp hu).2 ((hr1 x).mpr hx)
        have B := ih (r := r) (ts := ts) D2.inv D2.st v1 (by rw [v2, hup]) v5 (by omega)
        have hlog2 : h2.log.length = h.log.length + ((postL us).length + 1) := by rw [D2.sh.log, hlog1]; simp
        rw [v4] at B
        rw [e2]
        simp only [DropP, List.length_append, Res.bind_ok, hlog2] at B ⊢
        simp only [List.length_cons, List.length_nil] at n1
        rcases B with ⟨n3, n4, h3, K3, e3, P3⟩ | ⟨n3, h3, K3, e3, D3⟩
        · refine .inl ⟨by omega, by simp only [List.length_cons, List.length_nil]; omega, h3, K3, e3, ?_⟩
          have hT : ∀ x, Reach K2 r x → Reach K r x := by
            intro x hx
            rw [v9] at hx
            rw [reach_iff, hK]
            rcases hx with e | ⟨k, h1, h2⟩
            · exact .inl e
            · exact .inr ⟨k, by simp [h1], h2⟩
          have := P12.trans P3 hT
          have e5 : n - h.log.length + 1 = ((postL us) ++ [d]).length + (n - (h.log.length + ((postL us).length + 1)) + 1) := by
            simp only [List.length_append, List.length_cons, List.length_nil]; omega
          rw [← List.append_assoc (postL us), e5, List.take_length_add_append]
          simpa using this
        · refine .inr ⟨by simp only [List.length_cons, List.length_nil]; omega, h3, K3, e3, ?_⟩
          have := Part.dropped hK P12 D3 hgone v9
          simpa using this

theorem dropRootP_ok {D : Nat → Nat} (n : Nat) {h : Heap α} {K : Addr → List Addr} {r : Addr} {ts : List (RTree α)}
    (hI : Inv h K) (hS : SInvD h D) (hr : h.Used r) (hup : h.up r = none) (hden : DenL h.val K (K r) ts) :
    DropP h K r (RTree.postL ts ++ (h.val r).toList) D n (dropRootP n r h) :=
  dropLoopP_ok n _ hI hS hr hup hden (by simp)

/-! ### Iterators -/

mutual
theorem post_length : ∀ t : RTree α, t.post.length = t.count
  | .node d ts => by simp [postL_length ts]
theorem postL_length : ∀ ts : List (RTree α), (postL ts).length = countL ts
  | [] => rfl
  | t :: ts => by simp [post_length t, postL_length ts]
end

/-- The loop of `Drop for IntoIter`. -/
theorem intoIterDropLoopP_ok {D : Nat → Nat} (n : Nat) : ∀ (ts : List (RTree α)) {k : Nat} {h : Heap α} {K : Addr → List Addr} {f : Addr},
    Inv h K → SInvD h D → h.Used f → h.up f = none → h.val f = none → DenL h.val K (K f) ts → ts.length < k →
    (h.log.length ≤ n ∧ n < h.log.length + (postL ts).length ∧ ∃ h' K' l us, intoIterDropLoopP n k f h = .err .panic h' ∧
      Part h K h' K' (Reach K f) l D ∧ h'.Used f ∧ h'.up f = none ∧ h'.val f = none ∧ DenL h'.val K' (K' f) us ∧ n < h'.log.length ∧
      l ++ postL us = dropEach (n - h.log.length) ts) ∨
    ((n < h.log.length ∨ h.log.length + (postL ts).length ≤ n) ∧ ∃ h' K', intoIterDropLoopP n k f h = .ok () h' ∧
      Part h K h' K' (Reach K f) (postL ts) D ∧ h'.Used f ∧ h'.up f = none ∧ h'.val f = none ∧ K' f = [] ∧ ∀ x, Reach K f x → x ≠ f → ¬ h'.Used x) := by
  intro ts
  induction ts with
  | nil =>
    intro k h K f hI hS hf hup hv hden hk
    obtain ⟨k, rfl⟩ : ∃ j, k = j + 1 := ⟨k - 1, by simp at hk; omega⟩
    cases hK : K f with
    | cons c cs => rw [hK] at hden; simp [DenL] at hden
    | nil =>
      refine .inr ⟨by simp; omega, h, K, ?_, ?_, hf, hup, hv, hK, ?_⟩
      · simp only [intoIterDropLoopP, M.bind_apply, popFront_nil hI hf hK, Res.bind_ok]; rfl
      · exact ⟨hI, hS, fun _ h => h, fun _ h _ => h, fun _ _ _ => rfl, fun _ _ => rfl, fun _ _ _ => rfl, fun _ _ _ => rfl,
          fun _ _ hc => hI.reach_closed hup hc, rfl, rfl, rfl, by simp⟩
      · intro x hx hn; rw [reach_iff, hK] at hx; simp [hn] at hx
  | cons t ts ih =>
    intro k h K r hI hS hr hup hv hden hk
    obtain ⟨k, rfl⟩ : ∃ j, k = j + 1 := ⟨k - 1, by omega⟩
    cases hK : K r with
    | nil => rw [hK] at hden; simp [DenL] at hden
    | cons c cs =>
      rw [hK, DenL_cons_left] at hden
      obtain ⟨t', ts', e, d1, d2⟩ := hden
      obtain ⟨rfl, rfl⟩ := List.cons.inj e
      have hcK : c ∈ K r := by rw [hK]; simp
      obtain ⟨h1, e1, R⟩ := popFront_ok hI hK
      have P1 := R.part hI hS hup hcK (fun x hx => by rw [hK]; simp [hx])
      have hlog1 : h1.log = h.log := by rw [P1.log]; simp
      have hpl : t.post.length = t.count := post_length t
      cases t with
      | node d us =>
      obtain ⟨u1, u2, u3, u4, u5⟩ := drop_child hI hcK R d1
      have hr1 : ∀ x, Reach (upd K r cs) c x ↔ Reach K c x := fun x => Removed.reach (h' := h1) hI hcK
      have hsub1 : ∀ x, Reach (upd K r cs) c x → Reach K r x := fun x hx => .step hcK ((hr1 x).mp hx)
      have A := dropRootP_ok n P1.inv P1.st u1 u2 u3
      rw [u4] at A
      have e0 : intoIterDropLoopP n (k + 1) r h = (dropRootP n c h1).bind fun _ s => intoIterDropLoopP n k r s := by
        simp only [intoIterDropLoopP, M.bind_apply, e1, Res.bind_ok]
      rw [e0]
      have hpost : postL us ++ (some d).toList = (RTree.node d us).post := rfl
      rw [hpost] at A
      generalize htt : RTree.node d us = t at *
      have hpL : postL (t :: ts) = t.post ++ postL ts := rfl
      have hcp : 0 < t.count := by rw [← htt]; simp
      simp only [DropP, hlog1, hpL, List.length_append] at A ⊢
      rcases A with ⟨n1, n2, h2, K2, e2, P2⟩ | ⟨n1, h2, K2, e2, D2⟩
      · have P12 := P1.trans P2 hsub1
        have hnr : ¬ Reach (upd K r cs) c r := by rw [hr1]; exact hI.not_reach_up hcK
        have hUr1 := P1.used
        obtain ⟨same, hup1, hI1⟩ := R
        have hU1 := (same.used r).mpr hr
        have hK2 : K2 r = cs := by rw [P2.kids r hU1 hnr]; simp
        have hrc : r ≠ c := by rintro rfl; exact hI.not_self hcK
        have hnd := hI.l.nodup r
        rw [hK] at hnd
        refine .inl ⟨n1, by omega, h2, K2, _, ts, by rw [e2]; rfl, P12, P2.used r hU1 hnr, ?_, ?_, ?_, ?_, ?_⟩
        · rw [P2.up r hU1 hnr, hup1]; simp [upd_apply, hrc, hup]
        · simp only [Heap.val]; rw [P2.data r (P2.used r hU1 hnr), same.data]; exact hv
        · rw [hK2]
          refine d2.congr ?_
          intro x hx b hb
          have hxK : x ∈ K r := by rw [hK]; simp [hx]
          have g1 := hI.reach_used (hI.used_of_mem hxK) hb
          have g2 : ¬ Reach (upd K r cs) c b := by
            rw [hr1]; intro hcb
            have := hI.sib_disjoint hxK hcK hb hcb
            subst this
            exact (List.nodup_cons.mp hnd).1 hx
          have g3 : b ≠ r := by rintro rfl; exact hI.not_reach_up hxK hb
          have g4 := (same.used b).mpr g1
          refine ⟨by rw [P2.kids b g4 g2]; simp [upd_apply, g3], ?_⟩
          simp only [Heap.val]; rw [P2.data b (P2.used b g4 g2), same.data]
        · rw [P2.log, hlog1, List.length_append, List.length_take]; omega
        · have : n - h.log.length < t.count := by omega
          simp [dropEach, this, hlog1]
      · obtain ⟨v1, v2, v3, v4, v5, v6, v7, v8, v9⟩ := drop_first hI hS hr hK R D2 d2
        have P12 := P1.trans (D2.part P1.inv u2) hsub1
        have hgone : ∀ x, Reach K c x → ¬ h2.Used x := fun x hx hu => ((D2.sh.used x).mp hu).2 ((hr1 x).mpr hx)
        have B := ih (k := k) (f := r) D2.inv D2.st v1 (by rw [v2, hup]) (by rw [v4, hv]) v5 (by simpa using hk)
        have hlog2 : h2.log.length = h.log.length + t.count := by rw [D2.sh.log, hlog1]; simp [hpl]
        have hT : ∀ x, Reach K2 r x → Reach K r x := by
          intro x hx
          rw [v9] at hx
          rw [reach_iff, hK]
          rcases hx with e | ⟨k, h1, h2⟩
          · exact .inl e
          · exact .inr ⟨k, by simp [h1], h2⟩
        rw [e2]
        simp only [Res.bind_ok, hlog2] at B ⊢
        rcases B with ⟨n3, n4, h3, K3, l, ws, e3, P3, w1, w2, w3, w4, w5, w6⟩ | ⟨n3, h3, K3, e3, P3, w1, w2, w3, w4, w5⟩
        · refine .inl ⟨by omega, by omega, h3, K3, _, ws, e3, P12.trans P3 hT, w1, w2, w3, w4, w5, ?_⟩
          have : ¬ n - h.log.length < t.count := by omega
          rw [dropEach, if_neg this]
          simp only [List.nil_append, List.append_assoc]
          rw [w6, Nat.sub_sub]
        · refine .inr ⟨by omega, h3, K3, e3, P12.trans P3 hT, w1, w2, w3, w4, ?_⟩
          intro x hx hn hu
          rw [reach_iff, hK] at hx
          rcases hx with e | ⟨c', h4, h5⟩
          · exact hn e
          · rcases List.mem_cons.mp h4 with rfl | h4
            · exact hgone x h5 (P3.usedI x hu)
            · exact w5 x ((v9 x).mpr (.inr ⟨c', h4, h5⟩)) hn hu

theorem reach_of_closed {K : Addr → List Addr} {T : Addr → Prop} (hc : ∀ a c, c ∈ K a → (T a ↔ T c)) {a b : Addr} (h : Reach K a b) (ha : T a) : T b := by
  induction h with
  | refl => exact ha
  | step hm _ ih => exact ih ((hc _ _ hm).mp ha)

theorem intoIterDropP_ok {D : Nat → Nat} (n : Nat) {h : Heap α} {K : Addr → List Addr} {f : Addr} {ts : List (RTree α)}
    (hI : Inv h K) (hS : SInvD h D) (hf : h.Used f) (hup : h.up f = none) (hv : h.val f = none) (hd : DenL h.val K (K f) ts) :
    (h.log.length ≤ n ∧ n < h.log.length + (postL ts).length ∧ ∃ h' K', intoIterDropP n f h = .err .panic h' ∧
      Part h K h' K' (Reach K f) (dropEach (n - h.log.length) ts) D) ∨
    ((n < h.log.length ∨ h.log.length + (postL ts).length ≤ n) ∧ ∃ h' K', intoIterDropP n f h = .ok () h' ∧ Dropped h K f (postL ts) h' K' D) := by
  have hdeg := hI.s f hf
  have hlen : ts.length = (K f).length := hd.length.symm
  rcases intoIterDropLoopP_ok n ts (k := (h.size f).degree + 1) hI hS hf hup hv hd (by rw [hdeg, hlen]; simp) with
    ⟨n1, n2, h1, K1, l, us, e1, P1, w1, w2, w3, w4, w5, w6⟩ | ⟨n1, h1, K1, e1, P1, w1, w2, w3, w4, w5⟩
  · refine .inl ⟨n1, n2, ?_⟩
    have hsub : ∀ x, Reach K1 f x → Reach K f x := fun x hx => reach_of_closed P1.closed hx (.refl _)
    have A := dropRootP_ok n P1.inv P1.st w1 w2 w4
    rw [w3] at A
    rcases A with ⟨n3, -⟩ | ⟨-, h2, K2, e2, D2⟩
    · omega
    · refine ⟨h2, K2, ?_, ?_⟩
      · simp only [intoIterDropP, thenFields, M.fuelled_apply, e1, e2, Res.bind_ok]
      · have := P1.trans (D2.part P1.inv w2) hsub
        simpa [w6] using this
  · refine .inr ⟨n1, ?_⟩
    have A := dropRootP_ok n (ts := []) P1.inv P1.st w1 w2 (by rw [w4]; simp)
    rw [w3] at A
    have hre : ∀ x, Reach K1 f x ↔ x = f := by intro x; rw [reach_iff, w4]; simp
    rcases A with ⟨n3, n4, -⟩ | ⟨-, h2, K2, e2, D2⟩
    · simp at n4; omega
    · refine ⟨h2, K2, ?_, ?_⟩
      · simp only [intoIterDropP, thenFields, M.fuelled_apply, e1, e2, Res.bind_ok]
      · have hnf : ∀ x, ¬ Reach K f x → x ≠ f := by rintro x hx rfl; exact hx (.refl _)
        refine ⟨D2.inv, D2.st, ?_, ?_, ?_, ?_, ?_, ?_, ?_, ?_, ?_⟩
        · intro x
          rw [D2.sh.used, hre]
          constructor
          · rintro ⟨h3, h4⟩; exact ⟨P1.usedI x h3, fun h5 => w5 x h5 h4 h3⟩
          · rintro ⟨h3, h4⟩; exact ⟨P1.used x h3 h4, hnf x h4⟩
        · intro x hx hn; rw [D2.sh.kids x (P1.used x hx hn) (by rw [hre]; exact hnf x hn), P1.kids x hx hn]
        · intro x hx hn; rw [D2.sh.data x (P1.used x hx hn) (by rw [hre]; exact hnf x hn), P1.data x (P1.used x hx hn)]
        · intro x hx hn; rw [D2.sh.up x (P1.used x hx hn) (by rw [hre]; exact hnf x hn), P1.up x hx hn]
        · intro x hx hn; rw [D2.sh.count x (P1.used x hx hn) (by rw [hre]; exact hnf x hn), P1.count x hx hn]
        · rw [D2.sh.borrow, P1.borrow]
        · rw [D2.sh.nextAddr, P1.nextAddr]
        · rw [D2.sh.nextVec, P1.nextVec]
        · rw [D2.sh.log, P1.log]; simp

end Trees
