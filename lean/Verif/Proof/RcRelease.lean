import Verif.Proof.RcPop
/-
Dropping handles; guards.
-/
namespace Trees
set_option linter.unusedSimpArgs false
set_option linter.unusedVariables false
variable {α β γ : Type}
open Classical

section
variable {m : RMachine α} {G : Heap α} {K : Addr → List Addr} {T : Var → Option Addr}

theorem Inv.reach_antisymm (hI : Inv G K) {a b : Addr} (h1 : Reach K a b) (h2 : Reach K b a) : a = b := by
  rcases hI.reach_desc h1 with h | h
  · exact h
  · rcases hI.reach_desc h2 with h' | h'
    · exact h'.symm
    · omega

/-- On the way from `a` to a node that goes, all nodes go. -/
theorem Dead.between {e : Addr → Nat} (hI : Inv G K) {a b x : Addr} (h : Dead K e a x) (h1 : Reach K a b) (h2 : Reach K b x) : e b = 0 := by
  induction h with
  | here h0 =>
    have := hI.reach_antisymm h1 h2
    subst this; exact h0
  | step h0 hc _ ih =>
    rename_i a c x hd
    cases h1 with
    | refl => exact h0
    | step hc' hr =>
      have := hI.sib_disjoint hc' hc (hr.trans h2) hd.reach
      subst this
      exact ih hr h2

/-- The variable `k` holds no handle any more; the memory changes. -/
theorem RInv.unbind (I : RInv m G K T) {k : Var} {a : Addr} (hk : T k = some a) (hg : m.guarded k = false) {G' : Heap α} {K' : Addr → List Addr}
    (inv : Inv G' K') (st : SInv G') (kv : ∀ a c, c ∈ K' a → G'.IsVal c)
    (keepE : ∀ x hd, m.env x = some hd → ∀ b, Reach K hd.addr b → G'.Used b ∧ K' b = K b ∧ G'.data b = G.data b ∧ G'.up b = G.up b)
    (keepS : ∀ j b, j ≠ k → T j = some b → G'.Used b ∧ ∀ r : RcRef, r.Is G b → r.Is G' b)
    (roots : ∀ b, G'.Used b → G'.up b = none → (∃ x hd, m.env x = some hd ∧ hd.addr = b) ∨ ∃ j, j ≠ k ∧ T j = some b)
    (next : G.nextAddr ≤ G'.nextAddr)
    (live : ∀ b, G'.live b = true → b < G.nextAddr → G.live b = true)
    (wk : ∀ b d, G'.live b = true → ¬ Excl m.env K b → G.data b = .scattered d b → ∃ d', G'.data b = .scattered d' b) :
    RInv ⟨bumpE (extra G' m.fresh (upd T k none)) G', m.env, upd m.refs k none, m.fresh⟩ G' K' (upd T k none) := by
  have hx : ∀ {a}, Excl m.env K' a → Excl m.env K a := fun h => excl_change (fun _ _ h => h) (fun x hd h b hb => (keepE x hd h b hb).2.1) h
  have hold : ∀ {j r}, upd m.refs k none j = some r → j ≠ k ∧ m.refs j = some r := by
    intro j r h
    by_cases e : j = k
    · subst e; simp at h
    · rw [upd_of_ne _ _ e] at h; exact ⟨e, h⟩
  refine ⟨rfl, inv, st, kv, ?_, I.dist, ?_, ?_, ?_, ?_, ?_, ?_, ?_⟩
  · intro x hd h
    have ho := I.hnd x hd h
    obtain ⟨h1, h2, h3, h4⟩ := keepE x hd h _ (.refl _)
    refine ⟨h1, h4.trans ho.root, ?_⟩
    have := ho.kind
    cases hd <;> simp only [Handle.addr] at h3 <;> simpa only [HKind, Heap.IsVal, Heap.val, h3] using this
  · intro x hx
    refine ⟨(I.fr x hx).1, ?_⟩
    show upd m.refs k none x = none
    simp only [upd_apply]
    split
    · rfl
    · exact (I.fr x hx).2
  · intro x r hr; exact I.sep x r (hold hr).2
  · intro j r hr
    obtain ⟨h1, h2⟩ := hold hr
    obtain ⟨b, h3, h4⟩ := I.rcs j r h2
    exact ⟨b, by rw [upd_of_ne _ _ h1]; exact h3, (keepS j b h1 h3).2 r h4⟩
  · intro j b h
    have hj : j ≠ k := by rintro rfl; simp at h
    rw [upd_of_ne _ _ hj] at h
    obtain ⟨⟨r, hr⟩, h1, h2⟩ := I.tgt j b h
    exact ⟨⟨r, by show upd m.refs k none j = _; rw [upd_of_ne _ _ hj]; exact hr⟩, (keepS j b hj h).1, fun h' => h2 (hx h')⟩
  · intro b h1 h2
    rcases roots b h1 h2 with h | ⟨j, h3, h4⟩
    · exact .inl h
    · exact .inr ⟨j, by rw [upd_of_ne _ _ h3]; exact h4⟩
  · intro g j b w h
    obtain ⟨h1, h2⟩ := hold h
    have : j ≠ k := by rintro rfl; exact guarded_false I hg g b w h2
    rw [upd_of_ne _ _ this]
    exact I.guards g j b w h2
  · intro j r hr
    obtain ⟨h1, h2⟩ := hold hr
    obtain ⟨b, rfl, h3, h4⟩ := I.wk j r h2
    refine ⟨b, rfl, Nat.lt_of_lt_of_le h3 next, fun hl => ?_⟩
    obtain ⟨⟨d, h5⟩, h6⟩ := h4 (live b hl h3)
    exact ⟨wk b d hl h6 h5, fun h' => h6 (hx h')⟩

theorem RInv.gcount_unbind (I : RInv m G K T) {k : Var} {r : RcRef} (hk : m.refs k = some (.rc r)) (a : Addr) (w : Bool) :
    gcount (upd m.refs k none) m.fresh a w = gcount m.refs m.fresh a w := by
  have := gcount_upd (refs := m.refs) (I.refs_lt hk) none a w
  simpa [hk, isGuard] using this

theorem nh_unbind {n : Nat} {k : Var} {a : Addr} (hk : T k = some a) (hn : k < n) (b : Addr) :
    nh n (upd T k none) b = nh n T b - (if a = b then 1 else 0) := by
  have := nh_upd (T := T) hn none b
  rw [hk] at this
  by_cases e : a = b
  · simp [e] at this ⊢; omega
  · simp [e] at this ⊢; omega

theorem nh_one {n : Nat} {k j : Var} {a : Addr} (h : nh n T a = 1) (hk : T k = some a) (hkn : k < n) (hj : T j = some a) (hjn : j < n) : j = k := by
  by_contra hne
  have h1 := nh_unbind (n := n) hk hkn a
  simp [h] at h1
  have h2 : nh n (upd T k none) a ≠ 0 := nh_pos.mpr ⟨j, hjn, by rw [upd_of_ne _ _ hne]; exact hj⟩
  exact h2 h1

/-- Dropping a handle to a node that has another owner. -/
theorem RInv.drop_more (I : RInv m G K T) (B : GInv m) {k : Var} {a : Addr} (hk : T k = some a) (hg : m.guarded k = false) (he : extra G m.fresh T a ≠ 0) :
    ∃ m', rstep m (.drop k) = .ok m' .unit ∧ SI m' ∧ m'.env = m.env ∧ m'.refs = upd m.refs k none ∧ m'.fresh = m.fresh ∧ (∀ j, j ≠ k → m'.look j = m.look j) ∧
      m'.excl.store = m.excl.store := by
  obtain ⟨ha, hx⟩ := (I.tgt k a hk).2
  obtain ⟨r, h1, h2⟩ := I.ref hk
  have e1 : dropHandle r m.heap = .ok () (bumpE (upd (extra G m.fresh T) a (extra G m.fresh T a - 1)) G) := by
    rw [I.heap]
    simp only [dropHandle, M.fuelled_apply]
    exact dropRc_more I.st ha rfl h2 he _
  have hE : extra G m.fresh (upd T k none) = upd (extra G m.fresh T) a (extra G m.fresh T a - 1) := by
    funext x
    simp only [extra, nh_unbind hk (I.lt hk), upd_apply]
    by_cases e : x = a
    · subst e; simp; omega
    · have : ¬ a = x := fun h => e h.symm
      simp [e, this]
  have I' := I.unbind hk hg I.inv I.st I.kv (fun x hd h b hb => ⟨I.inv.reach_used (I.hnd x hd h).used hb, rfl, rfl, rfl⟩)
    (fun j b _ hj => ⟨(I.tgt j b hj).2.1, fun _ h => h⟩) ?_ (Nat.le_refl _) (fun _ h _ => h) (fun b d _ _ h => ⟨d, h⟩)
  · rw [hE] at I'
    refine ⟨_, ?_, ⟨_, _, _, I', ?_⟩, rfl, rfl, rfl, ?_, ?_⟩
    · simp only [rstep, h1, hg, Bool.false_eq_true, if_false, RMachine.run, e1]
    · refine B.step (fun b w => I.gcount_unbind h1 b w) fun x hx => .inl ⟨?_, ?_⟩
      · rw [I.heap]; exact hx
      · rw [I.heap]; rfl
    · intro j hj
      exact I.look_congr I' (upd_of_ne _ _ hj) fun _ _ _ _ => ⟨rfl, rfl⟩
    · rw [I.store_same I' rfl fun _ _ _ _ _ => ⟨rfl, rfl⟩]
      simp only [Machine.store, Store.mk.injEq, true_and]
      refine ⟨rfl, ?_⟩
      show G.log = m.heap.log
      rw [I.heap]; rfl
  · intro b hb hn
    rcases I.roots b hb hn with h | ⟨j, hj⟩
    · exact .inl h
    · by_cases e : j = k
      · subst e
        rw [hk] at hj; cases hj
        -- there is a second handle
        have h3 : nh m.fresh (upd T j none) a ≠ 0 := by
          rw [nh_unbind hk (I.lt hk)]
          simp [extra, hn] at he ⊢; omega
        obtain ⟨i, -, hi⟩ := nh_pos.mp h3
        have hne : i ≠ j := by rintro rfl; simp at hi
        rw [upd_of_ne _ _ hne] at hi
        exact .inr ⟨i, hne, hi⟩
      · exact .inr ⟨j, e, hj⟩

/-- Dropping the last owner of a root. -/
theorem RInv.drop_last (I : RInv m G K T) (B : GInv m) {k : Var} {a : Addr} {t : RTree (Addr × α)} (hk : T k = some a) (hg : m.guarded k = false) (he : extra G m.fresh T a = 0)
    (ht : Den G.lab K a t) :
    G.up a = none ∧ (∀ j, j ≠ k → T j ≠ some a) ∧ ∃ m', rstep m (.drop k) = .ok m' .unit ∧ SI m' ∧ m'.env = m.env ∧ m'.refs = upd m.refs k none ∧ m'.fresh = m.fresh ∧
      (∀ j, j ≠ k → m'.look j = m.look j) ∧
      m'.excl.store = m.excl.store.drop ((t.released (m.heldElse k)).map Prod.snd) := by
  obtain ⟨ha, hx⟩ := (I.tgt k a hk).2
  obtain ⟨r, h1, h2⟩ := I.ref hk
  have hpos : nh m.fresh T a ≠ 0 := nh_pos.mpr ⟨k, I.lt hk, hk⟩
  have hup : G.up a = none := by
    by_contra h; simp [extra, h] at he; exact hpos he
  have hone : nh m.fresh T a = 1 := by simp [extra, hup] at he; omega
  have honly : ∀ j, j ≠ k → T j ≠ some a := fun j hj h => hj (nh_one hone hk (I.lt hk) h (I.lt h))
  refine ⟨hup, honly, ?_⟩
  -- nodes that go have no handle
  have hdead : ∀ x, Dead K (extra G m.fresh T) a x → ∀ j, j ≠ k → T j ≠ some x := by
    intro x hd j hj hT
    by_cases e : x = a
    · subst e; exact honly j hj hT
    · have h0 := hd.zero
      have hux : G.up x ≠ none := by
        rcases hd.reach.cases_tail with h | ⟨p, -, hp⟩
        · exact absurd h.symm e
        · rw [I.inv.up_of_mem hp]; simp
      simp [extra, hux] at h0
      exact nh_pos.mpr ⟨j, I.lt hT, hT⟩ h0
  have hbor : ∀ x, Dead K (extra G m.fresh T) a x → G.borrow x = 0 := by
    intro x hd
    refine B.free I (I.inv.reach_used ha hd.reach) ?_
    rintro w ⟨g, j, h⟩
    have hT := I.guards g j x w h
    by_cases e : j = k
    · subst e; exact guarded_false I hg g x w h
    · exact hdead x hd j e hT
  have hat : (r.at (bumpE (extra G m.fresh T) G)) = a := h2.at_eq _ _
  obtain ⟨G', K', e', e1, g⟩ := (destroy (2 * (G.size a).descendants + 2)).1 (fun _ => false) G K (extra G m.fresh T) a r t
    ⟨I.inv, I.st, fun x hx => I.eUsed hx⟩ ha hup h2 (fun _ _ => rfl) hbor ht (Nat.le_refl _)
  have e2 : dropHandle r m.heap = .ok () (bumpE e' G') := by
    rw [I.heap]
    simp only [dropHandle, M.fuelled_apply, hat]
    exact e1
  have horph : ∀ x, Orph K (extra G m.fresh T) a x → G.Used x ∧ x ≠ a ∧ G.up x ≠ none := by
    intro x ho
    have hne : x ≠ a := by rintro rfl; exact ho.pos he
    refine ⟨I.inv.reach_used ha ho.reach, hne, ?_⟩
    rcases ho.reach.cases_tail with h | ⟨p, -, hp⟩
    · exact absurd h.symm hne
    · rw [I.inv.up_of_mem hp]; simp
  have hE : extra G' m.fresh (upd T k none) = e' := by
    funext x
    simp only [extra, nh_unbind hk (I.lt hk)]
    by_cases ho : Orph K (extra G m.fresh T) a x
    · obtain ⟨-, g2, g3⟩ := horph x ho
      have g4 := g.eO x ho
      rw [g.upO x ho]
      have : ¬ a = x := fun h => g2 h.symm
      simp [extra, g3] at g4
      simp [this]; omega
    · rw [g.eN x ho]
      by_cases hu : G.Used x
      · by_cases hd : Dead K (extra G m.fresh T) a x
        · rw [hd.zero]
          by_cases e : a = x
          · subst e; simp [hone]
          · have : nh m.fresh T x = 0 := by
              by_contra h
              obtain ⟨j, -, hj⟩ := nh_pos.mp h
              have hjk : j ≠ k := by rintro rfl; rw [hk] at hj; cases hj; exact e rfl
              exact hdead x hd j hjk hj
            simp [e, this]
        · have e : ¬ a = x := by rintro rfl; exact hd (.here he)
          rw [g.upN x hu hd ho]
          simp [e, extra]
      · have : nh m.fresh T x = 0 := by
          by_contra h
          obtain ⟨j, -, hj⟩ := nh_pos.mp h
          exact hu (I.tgt j x hj).2.1
        simp [extra, this]
  have hnx : ∀ b, Excl m.env K b → ¬ Reach K a b := by
    rintro b ⟨x, hd, h, hb⟩ hr
    have := I.inv.root_disjoint (I.hnd x hd h).root hup hb hr
    exact hx ⟨x, hd, h, by rw [this]; exact .refl _⟩
  have hkids : ∀ b, G'.Used b → K' b = K b := fun b hb => by
    obtain ⟨g1, g2⟩ := (g.used b).mp hb
    exact g.kids b g1 g2 fun h => h
  have I' := I.unbind hk hg g.inv g.st ?_ ?_ ?_ ?_ (Nat.le_of_eq g.nextAddr.symm) (fun b h _ => (g.live b h).1) ?_
  · rw [hE] at I'
    refine ⟨_, ?_, ⟨_, _, _, I', ?_⟩, rfl, rfl, rfl, ?_, ?_⟩
    · simp only [rstep, h1, hg, Bool.false_eq_true, if_false, RMachine.run, e2]
    · refine B.step (fun b w => I.gcount_unbind h1 b w) fun x hx => .inl ⟨?_, ?_⟩
      · rw [I.heap]; exact (g.live x hx).1
      · rw [I.heap]; show G'.borrow x = G.borrow x; rw [g.borrow]
    · intro j hj
      refine I.look_congr I' (upd_of_ne _ _ hj) fun b hb c hc => ?_
      have hbu := (I.tgt j b hb).2.1
      have hcu := I.inv.reach_used hbu hc
      have hnd : ¬ Dead K (extra G m.fresh T) a c := by
        intro hd
        rcases I.inv.reach_linear hd.reach hc with h | h
        · have h0 := hd.between I.inv h hc
          -- the target of `j` would go
          have : Dead K (extra G m.fresh T) a b := by
            have aux : ∀ {a x}, Dead K (extra G m.fresh T) a x → ∀ {b}, Reach K a b → Reach K b x → Dead K (extra G m.fresh T) a b := by
              intro a x hd
              induction hd with
              | here h0 =>
                intro b h1 h2
                have := I.inv.reach_antisymm h1 h2
                subst this; exact .here h0
              | step h0 hc' hd' ih =>
                intro b h1 h2
                cases h1 with
                | refl => exact .here h0
                | step hc'' hr =>
                  have := I.inv.sib_disjoint hc'' hc' (hr.trans h2) hd'.reach
                  subst this
                  exact .step h0 hc' (ih hr h2)
            exact aux hd h hc
          exact hdead b this j hj hb
        · have : b = a := by
            rcases h.cases_tail with e | ⟨p, -, hp⟩
            · exact e
            · exact absurd hp (I.inv.not_mem_of_root hup)
          exact honly j hj (this ▸ hb)
      exact ⟨g.kids c hcu hnd (fun h => h), g.data c hcu hnd⟩
    · rw [I.store_same I' rfl fun x hd h b hb => ?_]
      · simp only [Store.drop, Machine.store, Store.mk.injEq, true_and]
        refine ⟨rfl, ?_⟩
        have hl : m.heap.log = G.log := by rw [I.heap]; rfl
        show G'.log = m.heap.log ++ _
        rw [g.log, hl]
        congr 2
        refine released_congr t fun x hx => ?_
        have hr := den_pre_reach ht x hx
        simp only [heldB, RMachine.heldElse, decide_eq_decide, I.nodeOf]
        constructor
        · intro h
          have : x.1 ≠ a := fun e => h (e ▸ he)
          obtain ⟨j, hj⟩ := I.hE h
          exact ⟨j, by rintro rfl; rw [hk] at hj; cases hj; exact this rfl, hj⟩
        · rintro ⟨j, hj, hT⟩
          have hne : x.1 ≠ a := fun e => honly j hj (e ▸ hT)
          have hux : G.up x.1 ≠ none := by
            rcases hr.cases_tail with h | ⟨p, -, hp⟩
            · exact absurd h.symm hne
            · rw [I.inv.up_of_mem hp]; simp
          have : nh m.fresh T x.1 ≠ 0 := nh_pos.mpr ⟨j, I.lt hT, hT⟩
          simpa [extra, hux] using this
      · have hnr := hnx b ⟨x, hd, h, hb⟩
        have hbu := I.inv.reach_used (I.hnd x hd h).used hb
        exact ⟨g.kids b hbu (fun h => hnr h.reach) (fun h => h), g.data b hbu fun h => hnr h.reach⟩
  · intro b c hc
    have hbu := g.inv.used_parent hc
    have hcu := g.inv.used_of_mem hc
    rw [hkids b hbu] at hc
    obtain ⟨g1, g2⟩ := (g.used c).mp hcu
    have := I.kv b c hc
    simp only [Heap.IsVal, g.data c g1 g2]; exact this
  · intro x hd h b hb
    have hnr := hnx b ⟨x, hd, h, hb⟩
    have hbu := I.inv.reach_used (I.hnd x hd h).used hb
    have hnd : ¬ Dead K (extra G m.fresh T) a b := fun h => hnr h.reach
    exact ⟨(g.used b).mpr ⟨hbu, hnd⟩, g.kids b hbu hnd (fun h => h), g.data b hbu hnd, g.upN b hbu hnd fun h => hnr h.reach⟩
  · intro j b hj hT
    have hbu := (I.tgt j b hT).2.1
    have hnd : ¬ Dead K (extra G m.fresh T) a b := fun h => hdead b h j hj hT
    have hu' := (g.used b).mpr ⟨hbu, hnd⟩
    exact ⟨hu', fun r hr => hr.keep hu' g.st (g.data b hbu hnd) g.vecs⟩
  · intro b hb hn
    obtain ⟨g1, g2⟩ := (g.used b).mp hb
    by_cases ho : Orph K (extra G m.fresh T) a b
    · obtain ⟨j, hj⟩ := I.hE ho.pos
      have hne := (horph b ho).2.1
      exact .inr ⟨j, by rintro rfl; rw [hk] at hj; cases hj; exact hne rfl, hj⟩
    · rw [g.upN b g1 g2 ho] at hn
      rcases I.roots b g1 hn with h | ⟨j, hj⟩
      · exact .inl h
      · refine .inr ⟨j, ?_, hj⟩
        rintro rfl
        rw [hk] at hj; cases hj
        exact g2 (.here he)
  · intro b d hl hnx' hd
    obtain ⟨g1, g2⟩ := g.live b hl
    exact ⟨d, by rw [g.data b ⟨g1, by rw [hd]; rfl⟩ g2]; exact hd⟩

theorem released_held {h : Addr → Bool} {t : RTree (Addr × α)} (ht : h t.data.1 = true) : t.released h = [] := by
  cases t with
  | node x ts => simp only [RTree.data_node] at ht; simp [RTree.released, ht]

/-- Dropping a handle. -/
theorem si_drop (hm : SI m) {k : Var} {t : RTree (Addr × α)} (hk : m.look k = some t) (hg : m.guarded k = false) :
    ∃ m', rstep m (.drop k) = .ok m' .unit ∧ SI m' ∧ m'.env = m.env ∧ m'.refs = upd m.refs k none ∧ m'.fresh = m.fresh ∧ (∀ j, j ≠ k → m'.look j = m.look j) ∧
      m'.excl.store = m.excl.store.drop (if m.HasParent t.data.1 then [] else (t.released (m.heldElse k)).map Prod.snd) := by
  obtain ⟨G, K, T, I, B⟩ := hm
  obtain ⟨a, h1, h2⟩ := I.look_iff.mp hk
  obtain ⟨ha, hx⟩ := (I.tgt k a h1).2
  rw [h2.root, I.hasParent ha hx]
  by_cases he : extra G m.fresh T a = 0
  · obtain ⟨hup, -, h⟩ := I.drop_last B h1 hg he h2
    simpa [hup] using h
  · obtain ⟨m', e1, e2, e0, e3, e3', e4, e5⟩ := I.drop_more B h1 hg he
    refine ⟨m', e1, e2, e0, e3, e3', e4, ?_⟩
    rw [e5]
    have hnil : G.up a = none → t.released (m.heldElse k) = [] := by
      intro hup
      refine released_held ?_
      rw [h2.root]
      simp only [RMachine.heldElse, decide_eq_true_eq, I.nodeOf]
      have h3 : nh m.fresh (upd T k none) a ≠ 0 := by
        rw [nh_unbind h1 (I.lt h1)]
        simp [extra, hup] at he ⊢; omega
      obtain ⟨i, -, hi⟩ := nh_pos.mp h3
      have hne : i ≠ k := by rintro rfl; simp at hi
      rw [upd_of_ne _ _ hne] at hi
      exact ⟨i, hne, hi⟩
    split
    · simp [Store.drop]
    · rename_i h
      rw [hnil (by simpa using h)]
      simp [Store.drop]

end
end Trees
