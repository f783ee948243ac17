import Verif.Proof.Cost
/-
The work of destructors, and of the calls that consume a forest.
-/
namespace Trees
namespace Fine
open RTree
set_option linter.unusedSimpArgs false
set_option linter.unusedVariables false
variable {α β γ : Type} {A : Alloc}

theorem cost_then {p : Prog α β} {c : M α β} (hi : Imp A p c) {f : β → Prog α γ} {h h' : Heap α} {b : β} (e : c h = .ok b h') :
    cost A (p >>= f) h = cost A p h + cost A (f b) h' := by
  rw [cost_bind, hi h, e]

theorem cost_popFront_nil {h : Heap α} {r : Addr} (hl : h.live r = true) (hd : (h.size r).degree = 0) : cost A (popFront r) h = 1 := by
  unfold popFront
  rw [cost_then (imp_getSize r) (b := h.size r) (h' := h) (by simp [Trees.getSize, rd, hl])]
  rw [hd]
  show cost A (getSize r) h + 0 = 1
  exact cost_access _ _

theorem cost_popFront_root {h : Heap α} {r : Addr} (hu : h.up r = none) : cost A (popFront r) h ≤ 11 := by
  have := ci_popFront (A := A) (α := α) (u := h.up) (l := []) (a := r) hu h rfl
  simpa using this

theorem dropLoop_cost {D : Nat → Nat} : ∀ (k : Nat) {h : Heap α} {K : Addr → List Addr} {r : Addr} {ts : List (RTree α)},
    Inv h K → SInvD h D → h.Used r → h.up r = none → DenL h.val K (K r) ts → (h.size r).descendants < k →
    cost A (dropLoop k r) h ≤ 18 * countL ts + 7 := by
  intro k
  induction k with
  | zero => intro h K r ts _ _ _ _ _ hk; omega
  | succ k ih =>
    intro h K r ts hI hS hr hup hden hk
    cases hK : K r with
    | nil =>
      unfold dropLoop
      rw [cost_then (imp_popFront r) (popFront_nil hI hr hK), cost_popFront_nil hr.1 (by rw [hI.s r hr, hK]; rfl)]
      have := cst_dropNode (A := A) r h
      simp only []
      omega
    | cons c cs =>
      rw [hK, DenL_cons_left] at hden
      obtain ⟨t, ts, rfl, d1, d2⟩ := hden
      have hcK : c ∈ K r := by rw [hK]; simp
      obtain ⟨h1, e1, same, hup1, hI1⟩ := popFront_ok hI hK
      have hS1 := hS.same same
      have hv1 : h1.val = h.val := by funext a; simp [Heap.val, same.data]
      have hrc : r ≠ c := by rintro rfl; exact hI.not_self hcK
      have hUc := hI.used_of_mem hcK
      have hr1 : ∀ {x}, Reach (upd K r cs) c x ↔ Reach K c x := Removed.reach (h' := h1) hI hcK
      have hupK : ∀ b, b ≠ r → upd K r cs b = K b := fun b hb => by simp [upd_apply, hb]
      have hd1 := hI.desc_lt hcK
      cases t with
      | node d us =>
      simp only [Den_node] at d1
      have hden1 : DenL h1.val (upd K r cs) ((upd K r cs) c) us := by
        rw [hv1, hupK c (fun e => hrc e.symm)]
        refine d1.2.congr (fun x hx b hb => ⟨hupK b ?_, rfl⟩)
        rintro rfl; exact hI.not_reach_up hcK (.step hx hb)
      have hsz1 : (h1.size c).descendants = (h.size c).descendants := by
        have g1 := hI.dsum_eq (fun x hx => hI.used_of_mem hx) d1.2
        have g2 := hI1.dsum_eq (fun x hx => hI1.used_of_mem hx) hden1
        rw [hI.s c hUc, hI1.s c ((same.used c).mpr hUc)]
        simp [g1, g2]
      obtain ⟨h2, K2, e2, D2⟩ := dropLoop_ok k (r := c) (ts := us) hI1 hS1 ((same.used c).mpr hUc)
        (by rw [hup1]; simp) hden1 (by omega)
      have c2 := ih (r := c) (ts := us) hI1 hS1 ((same.used c).mpr hUc) (by rw [hup1]; simp) hden1 (by omega)
      have hnr : ¬ Reach (upd K r cs) c r := by rw [hr1]; exact hI.not_reach_up hcK
      have hUr1 := (same.used r).mpr hr
      have hUr2 : h2.Used r := (D2.sh.used r).mpr ⟨hUr1, hnr⟩
      have hup2 : h2.up r = none := by rw [D2.sh.up r hUr1 hnr, hup1]; simp [upd_apply, hrc, hup]
      have hK2 : K2 r = cs := by rw [D2.sh.kids r hUr1 hnr]; simp
      have hnd := hI.l.nodup r
      rw [hK] at hnd
      have hrest : ∀ x ∈ cs, ∀ b, Reach K x b → h.Used b ∧ ¬ Reach (upd K r cs) c b ∧ b ≠ r := by
        intro x hx b hb
        have hxK : x ∈ K r := by rw [hK]; simp [hx]
        refine ⟨hI.reach_used (hI.used_of_mem hxK) hb, ?_, ?_⟩
        · rw [hr1]; intro hcb
          have := hI.sib_disjoint hxK hcK hb hcb
          subst this
          exact (List.nodup_cons.mp hnd).1 hx
        · rintro rfl; exact hI.not_reach_up hxK hb
      have hK2' : ∀ x ∈ cs, ∀ b, Reach K x b → K2 b = K b ∧ h2.val b = h.val b := by
        intro x hx b hb
        obtain ⟨g1, g2, g3⟩ := hrest x hx b hb
        refine ⟨by rw [D2.sh.kids b ((same.used b).mpr g1) g2, hupK b g3], ?_⟩
        simp only [Heap.val]; rw [D2.sh.data b ((same.used b).mpr g1) g2, same.data]
      have hden2 : DenL h2.val K2 (K2 r) ts := by rw [hK2]; exact d2.congr hK2'
      have hsz2 : (h2.size r).descendants < k := by
        have g1 := D2.inv.dsum_eq (fun x hx => D2.inv.used_of_mem hx) hden2
        have g2 := hI.dsum_eq (v := h.val) (cs := cs) (ts := ts)
          (fun x hx => hI.used_of_mem (a := r) (by rw [hK]; simp [hx])) d2
        have g3 := hI.s r hr
        have g4 := D2.inv.s r hUr2
        rw [g4]
        rw [g3, hK] at hk
        rw [hK2] at g1
        simp only [dsum_cons, hK2] at hk ⊢
        omega
      have c3 := ih D2.inv D2.st hUr2 hup2 hden2 hsz2
      unfold dropLoop
      rw [cost_then (imp_popFront r) e1]
      have c1 := cost_popFront_root (A := A) hup
      dsimp only
      rw [cost_then (imp_dropLoop k c) e2]
      have : countL (RTree.node d us :: ts) = countL us + 1 + countL ts := by simp
      omega

theorem dropRoot_cost {D : Nat → Nat} {h : Heap α} {K : Addr → List Addr} {r : Addr} {ts : List (RTree α)}
    (hI : Inv h K) (hS : SInvD h D) (hr : h.Used r) (hup : h.up r = none) (hden : DenL h.val K (K r) ts) :
    cost A (dropRoot r) h ≤ 18 * countL ts + 8 := by
  unfold dropRoot
  rw [cost_then (imp_getSize r) (b := h.size r) (h' := h) (by simp [Trees.getSize, rd, hr.1])]
  have e1 : cost A (getSize r) h = 1 := cost_access _ _
  have := dropLoop_cost (A := A) ((h.size r).descendants + 1) hI hS hr hup hden (by omega)
  omega

/-- Dropping a node that has no children. -/
theorem dropRoot_cost_nil {h : Heap α} {r : Addr} (hl : h.live r = true) (hs : h.size r = .default) : cost A (dropRoot r) h ≤ 8 := by
  unfold dropRoot
  rw [cost_then (imp_getSize r) (b := h.size r) (h' := h) (by simp [Trees.getSize, rd, hl])]
  have e1 : cost A (getSize r) h = 1 := cost_access _ _
  rw [e1, hs]
  show 1 + cost A (dropLoop 1 r) h ≤ 8
  unfold dropLoop
  have e2 : Trees.popFront r h = .ok none h := by
    simp [Trees.popFront, Trees.getSize, rd, hl, hs, Size.default]
  rw [cost_then (imp_popFront r) e2, cost_popFront_nil hl (by rw [hs]; rfl)]
  have := cst_dropNode (A := A) r h
  simp only []
  omega

variable {u : Addr → Option Addr}

theorem ci_clear_drop (f : Addr) : CI A u (forestClear f >>= fun _ => dropRoot f : Prog α _) 11 := by
  unfold forestClear
  rw [bind_assoc_p]
  refine CI.setHead _ _ fun _ => ?_
  rw [bind_assoc_p]
  refine CI.setTail _ _ fun _ => ?_
  intro h e
  rw [cost_bind, imp_setSize]
  have e1 : cost A (setSize f .default : Prog α _) h = 1 := cost_access _ _
  rw [e1]
  by_cases l : h.live f = true
  · simp only [Trees.setSize, wr, l, if_true]
    have := dropRoot_cost_nil (A := A) (h := { h with size := upd h.size f .default }) (r := f) l (by simp)
    omega
  · simp only [Trees.setSize, wr, l]
    simp

theorem incLoop_up (cnt : Nat) : ∀ (k : Nat) (o : Option Addr) (h h' : Heap α) (b : Unit), Trees.incLoop k o cnt h = .ok b h' → h'.up = h.up
  | _, none, h, h', b, e => by cases ‹Nat› <;> (simp [Trees.incLoop] at e; rw [e])
  | 0, some _, h, h', b, e => by simp [Trees.incLoop] at e
  | k+1, some p, h, h', b, e => by
    simp only [Trees.incLoop, M.bind_apply, Trees.getSize, rd] at e
    by_cases l : h.live p = true
    · simp only [l, if_true, Res.bind_ok, M.bind_apply, Trees.setSize, Trees.getUp, rd, wr] at e
      have := incLoop_up cnt k _ _ h' b e
      exact this
    · simp only [l] at e
      cases e

theorem incSizes_up (a : Addr) (d cnt : Nat) (h h' : Heap α) (b : Unit) (e : (incSizes a d cnt).run A h = .ok b h') : h'.up = h.up := by
  rw [imp_incSizes] at e
  simp only [Trees.incSizes, M.bind_apply, Trees.getSize, rd] at e
  by_cases l : h.live a = true
  · simp only [l, if_true, Res.bind_ok, M.bind_apply, Trees.setSize, Trees.getUp, rd, wr, M.fuelled_apply] at e
    have := incLoop_up cnt _ _ _ h' b e
    exact this
  · simp only [l] at e
    cases e

theorem CI.incSizes {l : List Addr} {a : Addr} (hc : UpChain u (u a) l) (d cnt n : Nat) {f : Unit → Prog α β} (hf : ∀ x, CI A u (f x) n) :
    CI A u (incSizes a d cnt >>= f) (3 * l.length + (n + 3)) := by
  have := CI.bind (ci_incSizes (A := A) (α := α) hc d cnt 0) (fun h b h' e => incSizes_up a d cnt h h' b e) hf
  exact this.mono (by omega)

theorem cst_setUpLoop (par : Addr) : ∀ (k : Nat) (it : RawIter), it.len ≤ k → Cst A (setUpLoop k it par : Prog α _) (2 * it.len)
  | 0, it, hk => by
    unfold setUpLoop
    refine Cst.mono (Cst.bind (cst_iterNext it) (k := 0) fun q => ?_) (by omega)
    rcases q with ⟨o, it'⟩
    cases o with
    | none => exact Cst.pure _
    | some c => exact Cst.throw _
  | k+1, it, hk => by
    intro h
    unfold setUpLoop
    rw [cost_bind]
    have c1 := cst_iterNext (A := A) it h
    cases e : (iterNext it).run A h with
    | err x h' => simp only []; omega
    | ok q h' =>
      rcases q with ⟨o, it'⟩
      have hl := iterNext_len e
      cases o with
      | none => show _ + 0 ≤ _; omega
      | some c =>
        have h0 : it.len ≠ 0 := by
          intro h0
          rw [imp_iterNext] at e
          simp [RawIter.next, h0] at e
        have c2 := Cst.bind (A := A) (α := α) (n := 1) (p := setUp c (some par)) (f := fun _ => setUpLoop k it' par) (CI.cst fun u => CI.setUp' _ _ 0)
          (fun _ => cst_setUpLoop par k it' (by omega)) h'
        dsimp only
        omega

theorem forestSetUp_cost {h : Heap α} {f par : Addr} (hl : h.live f = true) : cost A (forestSetUp f par) h ≤ 2 * (h.size f).degree + 2 := by
  unfold forestSetUp
  rw [cost_bind]
  have c1 := cst_iter (A := A) f h
  rw [imp_iter]
  have e : Trees.iter f h = match h.head f with
      | some c => .ok ⟨some c, (h.size f).degree⟩ h
      | none => .ok ⟨none, 0⟩ h := by
    simp only [Trees.iter, M.bind_apply, Trees.getHead, rd, hl, if_true, Res.bind_ok]
    cases h.head f <;> simp [Trees.degree, Trees.getSize, rd, hl]
  rw [e]
  cases h.head f with
  | none =>
    have := cst_setUpLoop (A := A) (α := α) par 0 ⟨none, 0⟩ (Nat.le_refl _) h
    dsimp only at this ⊢
    omega
  | some c =>
    have := cst_setUpLoop (A := A) (α := α) par (h.size f).degree ⟨some c, (h.size f).degree⟩ (Nat.le_refl _) h
    dsimp only at this ⊢
    omega

theorem CI.at {p : Prog α β} {n : Nat} {h : Heap α} (c : CI A h.up p n) : cost A p h ≤ n := c h rfl

section
variable {h : Heap α} {K : Addr → List Addr} {D : Nat → Nat} {a f : Addr} {l : List Addr}

theorem insUp_chain (H : SpliceHyp h K D a f) (hc : UpChain h.up (h.up a) l) :
    UpChain (insUp h.up (K f) a) (insUp h.up (K f) a a) l := by
  obtain ⟨anc, c1, c2, c3, c4, c5⟩ := H.chain
  have : l = anc := UpChain.unique hc c1.2
  subst this
  have key : ∀ b ∈ a :: l, insUp h.up (K f) a b = h.up b := by
    intro b hb
    rw [insUp, if_neg]
    intro hbf
    have : ∀ {l : List Addr} {n : Addr}, UpChain h.up (some n) (n :: l) → b ∈ n :: l → f ∈ n :: l := by
      intro l
      induction l with
      | nil =>
        intro n hch hm
        simp at hm; subst hm
        have : h.up b = none := hch.2
        rw [H.inv.up_of_mem hbf] at this; simp at this
      | cons p l ih =>
        intro n hch hm
        have hup : h.up n = some p := hch.2.1
        have hch2 : UpChain h.up (some p) (p :: l) := by have := hch.2; rwa [hup] at this
        rcases List.mem_cons.mp hm with rfl | hm
        · rw [H.inv.up_of_mem hbf] at hup
          obtain rfl := Option.some.inj hup
          simp
        · exact List.mem_cons_of_mem _ (ih hch2 hm)
    exact c5 (this c1 hb)
  rw [key a (by simp)]
  exact hc.congr fun b hb => key b (by simp [hb])

theorem prepend_cost (H : SpliceHyp h K D a f) (hc : UpChain h.up (h.up a) l) :
    cost A (prepend a f) h ≤ 3 * l.length + 2 * (K f).length + 25 := by
  have hlf := H.fU.1
  have hs := H.inv.s f H.fU
  unfold prepend
  rw [cost_then (imp_hasNoChild f) (hasNoChild_ok hlf)]
  have e0 : cost A (hasNoChild f) h ≤ 1 := CI.cst (A := A) (p := hasNoChild f) (n := 1) (fun u => by unf; ci) h
  cases hK : K f with
  | nil =>
    have hh := H.inv.l.head f H.fU
    rw [hK] at hh hs
    simp only [hh, List.head?_nil, Option.isNone_none, Bool.not_true, Bool.false_eq_true, if_false]
    have := dropRoot_cost_nil (A := A) hlf (by rw [hs]; rfl)
    show _ + cost A (dropRoot f) h ≤ _
    omega
  | cons c cs =>
    have hh := H.inv.l.head f H.fU
    rw [hK] at hh
    simp only [hh, List.head?_cons, Option.isNone_some, Bool.not_false, if_true, bind_assoc_p]
    rw [cost_then (imp_forestSetUp f a) (forestSetUp_ok H.inv (u := a) H.fU)]
    have c1 := forestSetUp_cost (A := A) (par := a) hlf
    have hd : (h.size f).degree = cs.length + 1 := by rw [hs, hK]; rfl
    have hch := insUp_chain H hc
    refine Nat.le_trans (Nat.add_le_add e0 (Nat.add_le_add c1 (show _ ≤ 3 * l.length + 22 from CI.at ?_))) (by simp only [List.length_cons]; omega)
    unf
    ci
    all_goals exact CI.mono (CI.incSizes hch _ _ 11 (fun _ => ci_clear_drop f)) (by omega)

theorem append_cost (H : SpliceHyp h K D a f) (hc : UpChain h.up (h.up a) l) :
    cost A (append a f) h ≤ 3 * l.length + 2 * (K f).length + 25 := by
  have hlf := H.fU.1
  have hs := H.inv.s f H.fU
  unfold append
  rw [cost_then (imp_hasNoChild f) (hasNoChild_ok hlf)]
  have e0 : cost A (hasNoChild f) h ≤ 1 := CI.cst (A := A) (p := hasNoChild f) (n := 1) (fun u => by unf; ci) h
  cases hK : K f with
  | nil =>
    have hh := H.inv.l.head f H.fU
    rw [hK] at hh hs
    simp only [hh, List.head?_nil, Option.isNone_none, Bool.not_true, Bool.false_eq_true, if_false]
    have := dropRoot_cost_nil (A := A) hlf (by rw [hs]; rfl)
    show _ + cost A (dropRoot f) h ≤ _
    omega
  | cons c cs =>
    have hh := H.inv.l.head f H.fU
    rw [hK] at hh
    simp only [hh, List.head?_cons, Option.isNone_some, Bool.not_false, if_true, bind_assoc_p]
    rw [cost_then (imp_forestSetUp f a) (forestSetUp_ok H.inv (u := a) H.fU)]
    have c1 := forestSetUp_cost (A := A) (par := a) hlf
    have hd : (h.size f).degree = cs.length + 1 := by rw [hs, hK]; rfl
    have hch := insUp_chain H hc
    refine Nat.le_trans (Nat.add_le_add e0 (Nat.add_le_add c1 (show _ ≤ 3 * l.length + 22 from CI.at ?_))) (by simp only [List.length_cons]; omega)
    unf
    ci
    all_goals exact CI.mono (CI.incSizes hch _ _ 11 (fun _ => ci_clear_drop f)) (by omega)

end

end Fine
end Trees
