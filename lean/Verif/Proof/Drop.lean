import Verif.Proof.Storage
/-
Dropping trees and forests; splicing forests; fresh nodes.
-/
namespace Trees
set_option linter.unusedVariables false
variable {α : Type}

theorem reach_congr {K K' : Addr → List Addr} {a x : Addr} (h : ∀ b, Reach K a b → K' b = K b) :
    Reach K' a x ↔ Reach K a x := by
  constructor
  · intro hr
    induction hr with
    | refl => exact .refl _
    | step hm _ ih =>
      rename_i a c b _
      have hm' : c ∈ K a := by rw [← h a (.refl _)]; exact hm
      exact .step hm' (ih (fun b hb => h b (.step hm' hb)))
  · intro hr
    induction hr with
    | refl => exact .refl _
    | step hm _ ih =>
      rename_i a c b _
      exact .step (by rw [h a (.refl _)]; exact hm) (ih (fun b hb => h b (.step hm hb)))

theorem reach_iff {K : Addr → List Addr} {a x : Addr} :
    Reach K a x ↔ x = a ∨ ∃ c ∈ K a, Reach K c x := by
  constructor
  · intro h
    cases h with
    | refl => exact .inl rfl
    | step hm hr => exact .inr ⟨_, hm, hr⟩
  · rintro (rfl | ⟨c, h1, h2⟩)
    · exact .refl _
    · exact .step h1 h2

theorem Removed.reach {h h' : Heap α} {K : Addr → List Addr} {u c : Addr} {ks : List Addr}
    (hI : Inv h K) (hc : c ∈ K u) : ∀ {x}, Reach (upd K u ks) c x ↔ Reach K c x := by
  intro x
  apply reach_congr
  intro b hb
  have : b ≠ u := by rintro rfl; exact hI.not_reach_up hc hb
  simp [upd_apply, this]

/-- Everything about dropping the tree or forest rooted at `r`. -/
structure Dropped (h : Heap α) (K : Addr → List Addr) (r : Addr) (lg : List α) (h' : Heap α)
    (K' : Addr → List Addr) (D : Nat → Nat) : Prop where
  inv : Inv h' K'
  st : SInvD h' D
  sh : Shrink h K h' K' (Reach K r) lg

theorem dropLoop_ok {D : Nat → Nat} : ∀ (k : Nat) {h : Heap α} {K : Addr → List Addr} {r : Addr} {ts : List (RTree α)},
    Inv h K → SInvD h D → h.Used r → h.up r = none → DenL h.val K (K r) ts → (h.size r).descendants < k →
    ∃ h' K', dropLoop k r h = .ok () h' ∧
      Dropped h K r (RTree.postL ts ++ (h.val r).toList) h' K' D := by
  intro k
  induction k with
  | zero => intro h K r ts _ _ _ _ _ hk; omega
  | succ k ih =>
    intro h K r ts hI hS hr hup hden hk
    cases hK : K r with
    | nil =>
      rw [hK] at hden
      simp only [DenL_nil] at hden
      subst hden
      obtain ⟨h', e, f1, f2⟩ := dropNode_freed hS hr
      refine ⟨h', K, ?_, f1.inv hI hup hK, f2, ?_⟩
      · simp only [dropLoop, M.bind_apply, popFront_nil hI hr hK, Res.bind_ok, e]
      · have := f1.shrink K
        have hiff : ∀ x, Reach K r x ↔ x = r := by
          intro x; rw [reach_iff, hK]; simp
        have e2 : Reach K r = (· = r) := by funext x; exact propext (hiff x)
        rw [e2]; simpa using this
    | cons c cs =>
      rw [hK, DenL_cons_left] at hden
      obtain ⟨t, ts, rfl, d1, d2⟩ := hden
      have hcK : c ∈ K r := by rw [hK]; simp
      obtain ⟨h1, e1, same, hup1, hI1⟩ := popFront_ok hI hK
      have hS1 := hS.same same
      have hv1 : h1.val = h.val := by funext a; simp [Heap.val, same.data]
      have hrc : r ≠ c := by rintro rfl; exact hI.not_self hcK
      have hUc := hI.used_of_mem hcK
      have hr1 : ∀ {x}, Reach (upd K r cs) c x ↔ Reach K c x := Removed.reach (h' := h1) hI hcK
      have hupK : ∀ b, b ≠ r → upd K r cs b = K b := fun b hb => by simp [upd_apply, hb]
      -- drop the popped child
      have hd1 := hI.desc_lt hcK
      cases t with
      | node d us =>
      simp only [Den_node] at d1
      have hden1 : DenL h1.val (upd K r cs) ((upd K r cs) c) us := by
        rw [hv1, hupK c (fun e => hrc e.symm)]
        refine d1.2.congr (fun x hx b hb => ⟨hupK b ?_, rfl⟩)
        rintro rfl; exact hI.not_reach_up hcK (.step hx hb)
      have hsz1 : (h1.size c).descendants = (h.size c).descendants := by
        have g1 := hI.dsum_eq (fun x hx => hI.used_of_mem hx) d1.2
        have g2 := hI1.dsum_eq (fun x hx => hI1.used_of_mem hx) hden1
        rw [hI.s c hUc, hI1.s c ((same.used c).mpr hUc)]
        simp [g1, g2]
      obtain ⟨h2, K2, e2, D2⟩ := ih (r := c) (ts := us) hI1 hS1 ((same.used c).mpr hUc)
        (by rw [hup1]; simp) hden1 (by omega)
      -- then the rest
      have hnr : ¬ Reach (upd K r cs) c r := by rw [hr1]; exact hI.not_reach_up hcK
      have hUr1 := (same.used r).mpr hr
      have hUr2 : h2.Used r := (D2.sh.used r).mpr ⟨hUr1, hnr⟩
      have hup2 : h2.up r = none := by rw [D2.sh.up r hUr1 hnr, hup1]; simp [upd_apply, hrc, hup]
      have hK2 : K2 r = cs := by rw [D2.sh.kids r hUr1 hnr]; simp
      -- nodes below the remaining children
      have hnd := hI.l.nodup r
      rw [hK] at hnd
      have hrest : ∀ x ∈ cs, ∀ b, Reach K x b → h.Used b ∧ ¬ Reach (upd K r cs) c b ∧ b ≠ r := by
        intro x hx b hb
        have hxK : x ∈ K r := by rw [hK]; simp [hx]
        refine ⟨hI.reach_used (hI.used_of_mem hxK) hb, ?_, ?_⟩
        · rw [hr1]; intro hcb
          have := hI.sib_disjoint hxK hcK hb hcb
          subst this
          exact (List.nodup_cons.mp hnd).1 hx
        · rintro rfl; exact hI.not_reach_up hxK hb
      have hK2' : ∀ x ∈ cs, ∀ b, Reach K x b → K2 b = K b ∧ h2.val b = h.val b := by
        intro x hx b hb
        obtain ⟨g1, g2, g3⟩ := hrest x hx b hb
        refine ⟨by rw [D2.sh.kids b ((same.used b).mpr g1) g2, hupK b g3], ?_⟩
        simp only [Heap.val]; rw [D2.sh.data b ((same.used b).mpr g1) g2, same.data]
      have hden2 : DenL h2.val K2 (K2 r) ts := by rw [hK2]; exact d2.congr hK2'
      have hsz2 : (h2.size r).descendants < k := by
        have g1 := D2.inv.dsum_eq (fun x hx => D2.inv.used_of_mem hx) hden2
        have g2 := hI.dsum_eq (v := h.val) (cs := cs) (ts := ts)
          (fun x hx => hI.used_of_mem (a := r) (by rw [hK]; simp [hx])) d2
        have g3 := hI.s r hr
        have g4 := D2.inv.s r hUr2
        rw [g4]
        rw [g3, hK] at hk
        rw [hK2] at g1
        simp only [dsum_cons, hK2] at hk ⊢
        omega
      obtain ⟨h3, K3, e3, D3⟩ := ih D2.inv D2.st hUr2 hup2 hden2 hsz2
      have hreach : ∀ x, h.Used x → ((¬ Reach (upd K r cs) c x ∧ ¬ Reach K2 r x) ↔ ¬ Reach K r x) := by
        intro x hx
        have hiff : Reach K2 r x ↔ x = r ∨ ∃ k ∈ cs, Reach K k x := by
          rw [reach_iff, hK2]
          apply or_congr Iff.rfl
          apply exists_congr; intro k
          apply and_congr_right; intro hk
          exact reach_congr (fun b hb => (hK2' k hk b hb).1)
        rw [hr1, hiff, reach_iff (a := r), hK]
        simp only [List.mem_cons, exists_eq_or_imp]
        generalize (∃ k, k ∈ cs ∧ Reach K k x) = P
        generalize Reach K c x = Q
        grind
      refine ⟨h3, K3, ?_, D3.inv, D3.st, ?_⟩
      · simp only [dropLoop, M.bind_apply, e1, Res.bind_ok, e2, e3]
      · have hU2 : ∀ x, h.Used x → ¬ Reach K r x → (h1.Used x ∧ ¬ Reach (upd K r cs) c x) ∧
            (h2.Used x ∧ ¬ Reach K2 r x) ∧ x ≠ r ∧ x ≠ c := by
          intro x hx hn
          have g := (hreach x hx).mpr hn
          refine ⟨⟨(same.used x).mpr hx, g.1⟩, ⟨(D2.sh.used x).mpr ⟨(same.used x).mpr hx, g.1⟩, g.2⟩, ?_, ?_⟩
          · rintro rfl; exact hn (.refl _)
          · rintro rfl; exact hn (.step hcK (.refl _))
        refine ⟨?_, ?_, ?_, ?_, ?_, ?_, ?_, ?_, ?_⟩
        · intro x
          rw [D3.sh.used, D2.sh.used, same.used, and_assoc]
          constructor
          · rintro ⟨g1, g2⟩; exact ⟨g1, (hreach x g1).mp g2⟩
          · rintro ⟨g1, g2⟩; exact ⟨g1, (hreach x g1).mpr g2⟩
        · intro x hx hn
          obtain ⟨g1, g2, g3, g4⟩ := hU2 x hx hn
          rw [D3.sh.kids x g2.1 g2.2, D2.sh.kids x g1.1 g1.2, hupK x g3]
        · intro x hx hn
          obtain ⟨g1, g2, g3, g4⟩ := hU2 x hx hn
          rw [D3.sh.data x g2.1 g2.2, D2.sh.data x g1.1 g1.2, same.data]
        · intro x hx hn
          obtain ⟨g1, g2, g3, g4⟩ := hU2 x hx hn
          rw [D3.sh.up x g2.1 g2.2, D2.sh.up x g1.1 g1.2, hup1]; simp [upd_apply, g4]
        · intro x hx hn
          obtain ⟨g1, g2, g3, g4⟩ := hU2 x hx hn
          rw [D3.sh.count x g2.1 g2.2, D2.sh.count x g1.1 g1.2, same.count]
        · rw [D3.sh.borrow, D2.sh.borrow, same.borrow]
        · rw [D3.sh.nextAddr, D2.sh.nextAddr, same.nextAddr]
        · rw [D3.sh.nextVec, D2.sh.nextVec, same.nextVec]
        · rw [D3.sh.log, D2.sh.log, same.log]
          have hvr : h2.val r = h.val r := by
            simp only [Heap.val]; rw [D2.sh.data r hUr1 hnr, same.data]
          have hvc : h1.val c = some d := by rw [hv1]; exact d1.1
          rw [hvr, hvc]
          simp

theorem dropRoot_ok {D : Nat → Nat} {h : Heap α} {K : Addr → List Addr} {r : Addr} {ts : List (RTree α)}
    (hI : Inv h K) (hS : SInvD h D) (hr : h.Used r) (hup : h.up r = none) (hden : DenL h.val K (K r) ts) :
    ∃ h' K', dropRoot r h = .ok () h' ∧
      Dropped h K r (RTree.postL ts ++ (h.val r).toList) h' K' D :=
  dropLoop_ok _ hI hS hr hup hden (by simp)

/-! ### Fresh nodes -/

theorem makeNode_ok {D : Nat → Nat} {h : Heap α} {K : Addr → List Addr} (hI : Inv h K) (hS : SInvD h D)
    {d : Data α} (hd : (∃ o, d = .scatteredNone o) ∨ ∃ x o, d = .scattered x o) :
    ∃ h', makeNode d h = .ok h.nextAddr h' ∧ Inv h' (upd K h.nextAddr []) ∧ SInvD h' D ∧
      (∀ x, h'.Used x ↔ h.Used x ∨ x = h.nextAddr) ∧ h'.data = upd h.data h.nextAddr (d.setOwner h.nextAddr) ∧
      h'.up = upd h.up h.nextAddr none ∧ h'.log = h.log ∧ h'.nextAddr = h.nextAddr + 1 ∧ h'.borrow = upd h.borrow h.nextAddr 0 ∧
      (∀ x, h.Used x → K x = upd K h.nextAddr [] x) := by
  have hnone : (d.setOwner h.nextAddr).isNone = false := by
    rcases hd with ⟨o, rfl⟩ | ⟨x, o, rfl⟩ <;> rfl
  have hnl : h.live h.nextAddr ≠ true := by
    intro hl; exact Nat.lt_irrefl _ (hS.liveB _ hl)
  have hnU : ¬ h.Used h.nextAddr := fun hu => hnl hu.1
  have hlt : ∀ x, h.Used x → x ≠ h.nextAddr := by
    intro x hx e; exact hnU (e ▸ hx)
  have hnin : ∀ v nv, h.vec v = some nv → ¬ InVec nv h.nextAddr := by
    intro v nv hv hin
    exact Nat.lt_irrefl _ (Nat.lt_of_lt_of_le hin.2 (hS.vecB v nv hv).2)
  refine ⟨_, rfl, ?_, ?_, ?_, rfl, rfl, rfl, rfl, rfl, ?_⟩
  · generalize hh' : (Heap.mk _ _ _ _ _ _ _ _ _ _ _ _ _ _ : Heap α) = h'
    have hU : ∀ x, h'.Used x ↔ h.Used x ∨ x = h.nextAddr := by
      intro x; subst hh'
      simp only [Heap.Used, upd_apply]
      by_cases hx : x = h.nextAddr <;> simp [hx, hnone]
    have hold : ∀ x, h.Used x → h'.prev x = h.prev x ∧ h'.next x = h.next x ∧ h'.head x = h.head x ∧
        h'.tail x = h.tail x ∧ h'.up x = h.up x ∧ h'.size x = h.size x := by
      intro x hx; subst hh'; simp [upd_apply, hlt x hx]
    have hnew : h'.prev h.nextAddr = none ∧ h'.next h.nextAddr = none ∧ h'.head h.nextAddr = none ∧
        h'.tail h.nextAddr = none ∧ h'.up h.nextAddr = none ∧ h'.size h.nextAddr = .default := by
      subst hh'; simp
    have hKold : ∀ x, h.Used x → upd K h.nextAddr [] x = K x := by
      intro x hx; simp [upd_apply, hlt x hx]
    have hKnil : K h.nextAddr = [] := by
      cases hk : K h.nextAddr with
      | nil => rfl
      | cons c cs => exact absurd (hI.used_parent (c := c) (by rw [hk]; simp)) hnU
    have hKe : upd K h.nextAddr [] = K := by
      funext x; simp only [upd_apply]; split
      · rename_i e; rw [e, hKnil]
      · rfl
    rw [hKe]
    refine ⟨⟨?_, ?_, ?_, ?_, ?_, ?_, ?_⟩, ?_, ?_⟩
    · intro x hx
      rcases (hU x).mp hx with hx | rfl
      · rw [(hold x hx).2.2.1]; exact hI.l.head x hx
      · simp [hnew, hKnil]
    · intro x hx
      rcases (hU x).mp hx with hx | rfl
      · rw [(hold x hx).2.2.2.1]; exact hI.l.tail x hx
      · simp [hnew, hKnil]
    · intro x c
      rw [hI.mem_iff, hU]
      constructor
      · rintro ⟨h1, h2⟩; exact ⟨.inl h1, by simp, by rw [(hold c h1).2.2.2.2.1, h2]⟩
      · rintro ⟨h1 | rfl, _, h2⟩
        · exact ⟨h1, by rw [← (hold c h1).2.2.2.2.1, h2]⟩
        · rw [hnew.2.2.2.2.1] at h2; simp at h2
    · intro x c hc _ hup
      rcases (hU c).mp hc with hc | rfl
      · rw [(hold c hc).2.2.2.2.1] at hup
        exact (hU x).mpr (.inl (hI.l.upU x c hc (by simp) hup))
      · rw [hnew.2.2.2.2.1] at hup; simp at hup
    · intro x hx
      rcases (hU x).mp hx with hx | rfl
      · refine (hI.l.links x hx).congr (fun c hc => ?_)
        have := hold c (hI.used_of_mem hc)
        exact ⟨this.1, this.2.1⟩
      · rw [hKnil]; trivial
    · exact hI.l.nodup
    · intro c hc _ hup
      rcases (hU c).mp hc with hc | rfl
      · rw [(hold c hc).1, (hold c hc).2.1]
        rw [(hold c hc).2.2.2.2.1] at hup
        exact hI.l.root c hc (by simp) hup
      · exact ⟨hnew.1, hnew.2.1⟩
    · intro x hx
      rcases (hU x).mp hx with hx | rfl
      · rw [(hold x hx).2.2.2.2.2, hI.s x hx]
        congr 1
        refine (dsum_congr (fun c hc => ?_)).symm
        rw [(hold c (hI.used_of_mem hc)).2.2.2.2.2]
      · rw [hnew.2.2.2.2.2, hKnil]; rfl
    · intro x hx
      have hn : h'.nextAddr = h.nextAddr + 1 := by subst hh'; rfl
      rcases (hU x).mp hx with hx | rfl
      · rw [hn]; exact Nat.lt_succ_of_lt (hI.b x hx)
      · rw [hn]; exact Nat.lt_succ_self _
  · refine ⟨?_, ?_, ?_, hS.pos, hS.disj, ?_, ?_⟩
    · intro x hx
      simp only [upd_apply] at hx
      split at hx
      · rename_i e; rw [e]; exact Nat.lt_succ_self _
      · exact Nat.lt_succ_of_lt (hS.liveB x hx)
    · intro v nv hv; have := hS.vecB v nv hv; exact ⟨this.1, Nat.le_succ_of_le this.2⟩
    · intro v nv hv
      rw [hS.cnt v nv hv]
      congr 1
      apply List.countP_congr
      intro x hx
      have hxa : x ≠ h.nextAddr := by rintro rfl; exact hnin v nv hv (mem_vec_range.mp hx)
      simp [Heap.usedB, upd_apply, hxa]
    · intro x hx
      by_cases hxa : x = h.nextAddr
      · subst hxa
        rcases hd with ⟨o, rfl⟩ | ⟨y, o, rfl⟩
        · simp only [upd_self, Data.setOwner, Owned]; exact ⟨trivial, trivial, hnin⟩
        · simp only [upd_self, Data.setOwner, Owned]; exact ⟨trivial, trivial, hnin⟩
      · have hxU : h.Used x := by simpa [Heap.Used, upd_apply, hxa] using hx
        have := hS.owner x hxU
        show Owned _ x (upd h.data _ _ x)
        rw [upd_of_ne _ _ hxa]
        cases hdx : h.data x <;> rw [hdx] at this
        · exact this
        · exact ⟨this.1, by simpa [upd_apply, hxa] using this.2.1, this.2.2⟩
        · exact ⟨this.1, by simpa [upd_apply, hxa] using this.2.1, this.2.2⟩
        · exact ⟨by simpa [upd_apply, hxa] using this.1, this.2⟩
        · exact ⟨by simpa [upd_apply, hxa] using this.1, this.2⟩
    · intro x hx
      by_cases hxa : x = h.nextAddr
      · left; subst hxa; simp [Heap.Used, hnone]
      · simp only [upd_apply, hxa, if_false] at hx
        rcases hS.tight x hx with h1 | h1
        · left; simpa [Heap.Used, upd_apply, hxa] using h1
        · exact .inr h1
  · intro x
    simp only [Heap.Used, upd_apply]
    by_cases hx : x = h.nextAddr <;> simp [hx, hnone]
  · intro x hx; simp [upd_apply, hlt x hx]

end Trees
