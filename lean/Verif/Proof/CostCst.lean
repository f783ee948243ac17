import Verif.Proof.CostSrc
/-
The work of traversals, of tuple notation, and of finding the node that a call is about.
-/
namespace Trees
namespace Fine
open RTree
set_option linter.unusedSimpArgs false
set_option linter.unusedVariables false
variable {α β γ δ κ σ ι : Type}

/-! ### Traversals -/

theorem cst_drive {p : σ → Prog α (Option (δ × Size) × σ)} {n : Nat} (hp : ∀ s, Cst .fresh (p s) n) : ∀ (k : Nat) (s : σ), Cst .fresh (driveVisits p k s) (n * k)
  | 0, s => (Cst.pure _).mono (Nat.zero_le _)
  | k+1, s => by
    unfold driveVisits
    exact Cst.mono (Cst.bind (hp s) fun q => Cst.bind (cst_drive hp k q.2) fun _ => Cst.pure _) (by rw [Nat.mul_add]; omega)

theorem cst_getSize (a : Addr) : Cst .fresh (getSize a : Prog α _) 1 := CI.cst fun u => CI.getSize' _ 0
theorem cst_getHead (a : Addr) : Cst .fresh (getHead a : Prog α _) 1 := CI.cst fun u => CI.getHead' _ 0
theorem cst_getTail (a : Addr) : Cst .fresh (getTail a : Prog α _) 1 := CI.cst fun u => CI.getTail' _ 0
theorem cst_vecNode (v i : Nat) : Cst .fresh (vecNode v i : Prog α _) 1 := CI.cst fun u => CI.vecNode' _ _ 0
theorem cst_degree (a : Addr) : Cst .fresh (degree a : Prog α _) 1 := CI.cst fun u => by unf; ci
theorem cst_hasNoChild (a : Addr) : Cst .fresh (hasNoChild a : Prog α _) 1 := CI.cst fun u => by unf; ci
theorem cst_nodeCount (a : Addr) : Cst .fresh (nodeCount a : Prog α _) 2 := CI.cst fun u => by unf; ci

theorem cst_bfsRun (k : Nat) (a : Addr) : Cst .fresh (bfsRun k a : Prog α _) (5 * k + 1) :=
  Cst.mono (Cst.bind (cst_getSize a) fun s => Cst.bind (cst_drive cst_refNext k _) fun _ => Cst.pure _) (by omega)

theorem cst_childrenStart (a : Addr) : Cst .fresh (bfsChildrenStart a : Prog α _) 2 :=
  Cst.mono (Cst.bind (cst_iter a) fun s => Cst.pure _) (by omega)

theorem cst_bfsChildrenRun (k : Nat) (a : Addr) : Cst .fresh (bfsChildrenRun k a : Prog α _) (5 * k + 3) :=
  Cst.mono (Cst.bind (cst_childrenStart a) fun s => Cst.bind (cst_getSize a) fun z => Cst.bind (cst_drive cst_refNext k _) fun _ => Cst.pure _) (by omega)

theorem cst_modifyData (a : Addr) (g : α → α) : Cst .fresh (modifyData a g) 2 := CI.cst fun u => by unfold modifyData; ci

theorem cst_driveMut (f : Nat → α → α) : ∀ (k i : Nat) (s : List RawIter), Cst .fresh (driveMut f k i s) (8 * k)
  | 0, _, _ => (Cst.pure _).mono (Nat.zero_le _)
  | k+1, i, s => by
    unfold driveMut
    refine Cst.mono (Cst.bind (k := 8 * k + 3) (cst_mutNext s) fun q => ?_) (by omega)
    rcases q with ⟨_ | ⟨a, sz⟩, s'⟩
    · exact Cst.mono (Cst.bind (cst_driveMut f k _ _) fun _ => Cst.pure _) (by omega)
    · exact Cst.mono (Cst.bind (cst_dataRef a) fun d => Cst.bind (cst_modifyData a _) fun _ => Cst.bind (cst_driveMut f k _ _) fun _ => Cst.pure _) (by omega)

theorem cst_bfsMutRun (f : Nat → α → α) (k : Nat) (a : Addr) : Cst .fresh (bfsMutRun f k a) (8 * k + 1) :=
  Cst.mono (Cst.bind (cst_getSize a) fun s => Cst.bind (cst_driveMut f k 0 _) fun _ => Cst.pure _) (by omega)

theorem cst_bfsChildrenMutRun (f : Nat → α → α) (k : Nat) (a : Addr) : Cst .fresh (bfsChildrenMutRun f k a) (8 * k + 3) :=
  Cst.mono (Cst.bind (cst_getSize a) fun z => Cst.bind (cst_childrenStart a) fun s => Cst.bind (cst_driveMut f k 0 _) fun _ => Cst.pure _) (by omega)

theorem cst_endData (c : Prog α (Option Addr)) (hc : Cst .fresh c 1) :
    Cst .fresh (c >>= fun o => match o with
      | some c => (dataRef c >>= fun d => Pure.pure (some d))
      | none => (Pure.pure none : Prog α (Option α))) 2 :=
  Cst.mono (Cst.bind (k := 1) hc fun o => match o with
    | some c => Cst.bind (cst_dataRef c) fun _ => Cst.pure _
    | none => (Cst.pure _).mono (Nat.zero_le _)) (by omega)

/-! ### Tuple notation -/

theorem cst_idx (xs : List Nat) (i : Nat) : Cst .fresh (idx xs i : Prog α _) 0 := by
  unfold idx; cases xs[i]? <;> first | exact Cst.pure _ | exact Cst.throw _
theorem cst_bump (xs : List Nat) (i : Nat) : Cst .fresh (bump xs i : Prog α _) 0 := by
  unfold bump; cases xs[i]? <;> first | exact Cst.pure _ | exact Cst.throw _

/-- The work of one visit. -/
def visitCost (v : Visit α × Size) : Nat := match v.1 with
  | .frame => 0
  | _ => 11

theorem cst_placeVisit (g : Bool) (v : Nat) (c : Cursor) (x : Visit α) (s : Size) : Cst .fresh (placeVisit g v c x s) (visitCost (x, s)) := by
  unfold placeVisit
  cases x with
  | branch d => exact Cst.mono (Cst.bind (cst_idx _ _) fun i => Cst.bind (cst_appendChild _ _ _ _ _) fun _ => Cst.bind (cst_idx _ _) fun _ => Cst.pure _) (Nat.le_refl _)
  | leaf d => exact Cst.mono (Cst.bind (cst_idx _ _) fun i => Cst.bind (cst_appendChild _ _ _ _ _) fun _ => Cst.bind (cst_bump _ _) fun _ => Cst.pure _) (Nat.le_refl _)
  | frame =>
    show Cst .fresh _ 0
    dsimp only
    split
    · exact Cst.throw _
    · split
      · refine Cst.mono (Cst.bind (k := 0) (cst_bump _ _) fun _ => ?_) (Nat.le_refl _)
        split
        · exact Cst.pure _
        · split
          · exact Cst.throw _
          · exact Cst.mono (Cst.bind (k := 0) (cst_idx _ _) fun _ => Cst.pure _) (Nat.le_refl _)
      · exact Cst.pure _

theorem cst_placeAll (g : Bool) (v : Nat) : ∀ (l : List (Visit α × Size)) (c : Cursor), Cst .fresh (placeAll g v c l) (l.map visitCost).sum
  | [], c => (Cst.pure _).mono (Nat.zero_le _)
  | (x, s) :: l, c => by
    unfold placeAll
    exact Cst.mono (Cst.bind (cst_placeVisit g v c x s) fun c' => cst_placeAll g v l c') (by simp)

mutual
theorem preorder_cost : ∀ t : Tup α, (t.preorderWithSizeHint.map visitCost).sum = 11 * t.toTree.count
  | .bare d => by simp [Tup.preorderWithSizeHint, Tup.toTree, RTree.count, RTree.countL, visitCost]
  | .tup d ks => by
    have := preorderL_cost ks
    unfold Tup.preorderWithSizeHint
    split
    · rename_i e
      have : ks = [] := by simpa [Tup.size] using e
      subst this
      simp [Tup.toTree, Tup.toTreeL, RTree.count, RTree.countL, visitCost]
    · simp [Tup.toTree, RTree.count, visitCost, this]; omega
theorem preorderL_cost : ∀ ts : List (Tup α), ((Tup.preorderWithSizeHintL ts).map visitCost).sum = 11 * RTree.countL (Tup.toTreeL ts)
  | [] => by simp [Tup.preorderWithSizeHintL, Tup.toTreeL, RTree.countL]
  | k :: ks => by
    have := preorder_cost k
    have := preorderL_cost ks
    simp [Tup.preorderWithSizeHintL, Tup.toTreeL, RTree.countL, *]; omega
end

theorem cst_treeFromTuple (t : Tup α) : Cst .fresh (treeFromTuple t) (11 * t.toTree.count + 9) := by
  have hp := preorder_cost t
  have hc : ∀ v, Cst .fresh (constructTree v t) (11 * t.toTree.count + 6) := by
    intro v
    unfold constructTree
    cases hl : t.preorderWithSizeHint with
    | nil => exact (Cst.pure _).mono (Nat.zero_le _)
    | cons q rest =>
      obtain ⟨x, s⟩ := q
      dsimp only
      rw [hl] at hp
      simp at hp
      cases x.data? with
      | none => exact (Cst.throw _).mono (Nat.zero_le _)
      | some d => exact Cst.mono (Cst.bind (cst_vecMakeNode _ _ _ _ _) fun _ => Cst.bind (cst_placeAll _ _ _ _) fun _ => Cst.pure _) (by omega)
  unfold treeFromTuple treeFromNode
  exact Cst.mono (Cst.bind (cst_newVec _) fun v => Cst.bind (hc v) fun _ => Cst.bind (cst_vecNode v 0) fun a => Cst.bind (n := 1)
    (CI.cst fun u => CI.setUp' _ _ 0) fun _ => Cst.pure _) (by omega)

theorem cst_forestFromTuple (ts : List (Tup α)) : Cst .fresh (forestFromTuple ts) (11 * countL (Tup.toTreeL ts) + 8) := by
  have hp := preorderL_cost ts
  unfold forestFromTuple constructForest
  exact Cst.mono (Cst.bind (n := 1) (k := 11 * countL (Tup.toTreeL ts) + 7) (cst_newVec _) fun v => Cst.bind (k := 1) (n := 11 * countL (Tup.toTreeL ts) + 6)
    (Cst.mono (Cst.bind (cst_vecMakeNode _ _ _ _ _) fun _ => Cst.bind (cst_placeAll _ _ _ _) fun _ => Cst.pure _) (by omega)) fun _ => cst_vecNode v 0) (by omega)

/-! ### Calls -/

theorem cost_run {m : Vars} {env : Var → Option Handle} {c : Prog α β} {k : β → Prog α (Outcome Vars α)} {h : Heap α} {n j : Nat}
    (h1 : cost .fresh c h ≤ n) (h2 : ∀ b h', c.run .fresh h = .ok b h' → cost .fresh (k b) h' ≤ j) : cost .fresh (m.run env c k) h ≤ n + j := by
  unfold Vars.run
  rw [cost_catch]
  · cases e : c.run .fresh h with
    | ok b h' => exact Nat.add_le_add h1 (h2 b h' e)
    | err _ _ => exact Nat.le_trans (Nat.add_zero _ ▸ h1) (Nat.le_add_right _ _)
  · intro e h
    cases e <;> rfl

/-- Nothing happens after the call. -/
theorem cost_run0 {m : Vars} {env : Var → Option Handle} {c : Prog α β} {k : β → Prog α (Outcome Vars α)} {h : Heap α} {n : Nat}
    (h1 : cost .fresh c h ≤ n) (h2 : ∀ b, ∃ o, k b = .ret o) : cost .fresh (m.run env c k) h ≤ n := by
  refine Nat.le_trans (cost_run (j := 0) h1 fun b h' _ => ?_) (by omega)
  obtain ⟨o, e⟩ := h2 b
  rw [e]; exact Nat.le_refl _

section
variable {m : Machine α} {K : Addr → List Addr} {S : Store α}

theorem cost_onKids (M : MInv m K) (Ab : Abs m K S) {x : Var} {p : Path} {k : Handle → Addr → Prog α (Outcome Vars α)} {n : Nat}
    (H : ∀ hd a v us, At m K S x p hd a v us → cost .fresh (k hd a) m.heap ≤ n) :
    cost .fresh (m.vars.onKids x p k) m.heap ≤ pathCost p + n := by
  unfold Vars.onKids
  show cost .fresh (match m.env x with | none => _ | some hd => _) _ ≤ _
  have hA := Ab.vars x
  cases hx : m.env x with
  | none => exact Nat.zero_le _
  | some hd =>
    rw [hx] at hA
    obtain ⟨v, e, hv⟩ := hA
    dsimp only
    split
    · exact Nat.zero_le _
    · refine cost_run (cst_locate p _ _) fun o h' e1 => ?_
      rw [imp_locate, locate_ok M.inv (M.hnd x hd hx).used] at e1
      simp only [Res.ok.injEq] at e1
      obtain ⟨rfl, rfl⟩ := e1
      have hr := resolve_kidsAt (p := p) hv.kids
      cases hn : resolve K hd.addr p with
      | none => exact Nat.zero_le _
      | some a =>
        rw [hn] at hr
        obtain ⟨us, h1, h2⟩ := hr
        exact H hd a v us ⟨hx, e, hv, hn, h1, h2⟩

/-- The work to find a proper node. -/
def locCost : Loc → Nat
  | .root => 0
  | .child q i => pathCost (q ++ [i])

theorem cost_onNode (M : MInv m K) (Ab : Abs m K S) {x : Var} {l : Loc} {k : Addr → Prog α (Outcome Vars α)} {n : Nat}
    (H1 : l = .root → ∀ r t, m.env x = some (.tree r) → S.vars x = some (.tree t) → Den m.heap.val K r t → HOK m.heap (.tree r) →
      cost .fresh (k r) m.heap ≤ n)
    (H2 : ∀ q i hd u a v us t, l = .child q i → AtC m K S x q i hd u a v us t → cost .fresh (k a) m.heap ≤ n) :
    cost .fresh (m.vars.onNode x l k) m.heap ≤ locCost l + n := by
  unfold Vars.onNode
  show cost .fresh (match m.env x with | none => _ | some hd => _) _ ≤ _
  have hA := Ab.vars x
  cases hx : m.env x with
  | none => exact Nat.zero_le _
  | some hd =>
    rw [hx] at hA
    obtain ⟨v, e, hv⟩ := hA
    dsimp only
    split
    · exact Nat.zero_le _
    · cases l with
      | root =>
        cases hd with
        | tree r => cases v with
          | tree t => simp only [locCost, Nat.zero_add]; exact H1 rfl r t hx e hv (M.hnd x _ hx)
          | forest _ => exact hv.elim
          | iter _ => exact hv.elim
        | forest r => exact Nat.zero_le _
        | iter r => exact Nat.zero_le _
      | child q i =>
        refine cost_run (cst_locate _ _ _) fun o h' e1 => ?_
        rw [imp_locate, locate_ok M.inv (M.hnd x hd hx).used] at e1
        simp only [Res.ok.injEq] at e1
        obtain ⟨rfl, rfl⟩ := e1
        rw [resolve_append]
        have hr := resolve_kidsAt (p := q) hv.kids
        cases hn : resolve K hd.addr q with
        | none => exact Nat.zero_le _
        | some u =>
          rw [hn] at hr
          obtain ⟨us, h1, h2⟩ := hr
          simp only [Option.bind_some, resolve]
          rcases h2.get i with ⟨g1, g2⟩ | ⟨c, t, g1, g2, g3⟩
          · simp only [g1]; exact Nat.zero_le _
          · simp only [g1]
            exact H2 q i hd u c v us t rfl ⟨⟨hx, e, hv, hn, h1, h2⟩, g1, g2, g3⟩

theorem cost_takeTree (M : MInv m K) (Ab : Abs m K S) {x y : Var} {k : Addr → Prog α (Outcome Vars α)} {n : Nat}
    (H : ∀ r t, x ≠ y → m.env y = some (.tree r) → S.vars y = some (.tree t) → Den m.heap.val K r t →
      HOK m.heap (.tree r) → cost .fresh (k r) m.heap ≤ n) :
    cost .fresh (m.vars.takeTree x y k) m.heap ≤ n := by
  unfold Vars.takeTree
  by_cases hxy : x = y
  · rw [if_pos hxy]; exact Nat.zero_le _
  · rw [if_neg hxy]
    show cost .fresh (match m.env y with | some (.tree t) => _ | _ => _) _ ≤ _
    have hA := Ab.vars y
    cases hy : m.env y with
    | none => exact Nat.zero_le _
    | some hd =>
      rw [hy] at hA
      obtain ⟨v, e, hv⟩ := hA
      cases hd <;> cases v <;> simp only [HDen] at hv
      · exact H _ _ hxy hy e hv (M.hnd y _ hy)
      · exact Nat.zero_le _
      · exact Nat.zero_le _

theorem cost_takeForest (M : MInv m K) (Ab : Abs m K S) {x y : Var} {k : Addr → Prog α (Outcome Vars α)} {n : Nat}
    (H : ∀ r ts, x ≠ y → m.env y = some (.forest r) → S.vars y = some (.forest ts) → DenL m.heap.val K (K r) ts →
      HOK m.heap (.forest r) → cost .fresh (k r) m.heap ≤ n) :
    cost .fresh (m.vars.takeForest x y k) m.heap ≤ n := by
  unfold Vars.takeForest
  by_cases hxy : x = y
  · rw [if_pos hxy]; exact Nat.zero_le _
  · rw [if_neg hxy]
    show cost .fresh (match m.env y with | some (.forest t) => _ | _ => _) _ ≤ _
    have hA := Ab.vars y
    cases hy : m.env y with
    | none => exact Nat.zero_le _
    | some hd =>
      rw [hy] at hA
      obtain ⟨v, e, hv⟩ := hA
      cases hd <;> cases v <;> simp only [HDen] at hv
      · exact Nat.zero_le _
      · exact H _ _ hxy hy e hv (M.hnd y _ hy)
      · exact Nat.zero_le _

end
end Fine
end Trees
