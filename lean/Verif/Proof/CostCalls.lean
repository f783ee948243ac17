import Verif.Proof.CostOwn
import Verif.Spec.Cost
/-
The work of every call.
-/
namespace Trees
namespace Fine
open RTree
set_option linter.unusedSimpArgs false
set_option linter.unusedVariables false
variable {α β γ δ κ σ ι : Type}

theorem chain_resolve {h : Heap α} {K : Addr → List Addr} (hI : Inv h K) : ∀ (p : Path) (r : Addr) (l : List Addr) (n : Addr), resolve K r p = some n →
    UpChain h.up (h.up r) l → ∃ l', UpChain h.up (h.up n) l' ∧ l'.length = l.length + p.length
  | [], r, l, n, e, hc => by simp only [resolve, Option.some.injEq] at e; subst e; exact ⟨l, hc, rfl⟩
  | i :: p, r, l, n, e, hc => by
    simp only [resolve] at e
    cases hg : (K r)[i]? with
    | none => rw [hg] at e; simp at e
    | some c =>
      rw [hg] at e
      obtain ⟨l', h1, h2⟩ := chain_resolve hI p c (r :: l) n e (by rw [hI.up_of_mem (List.mem_of_getElem? hg)]; exact ⟨rfl, hc⟩)
      exact ⟨l', h1, by rw [h2]; simp; omega⟩

section
variable {m : Machine α} {K : Addr → List Addr} {S : Store α}

theorem at_chain (M : MInv m K) {x p hd n} {v : Val α} {us} (a : At m K S x p hd n v us) :
    ∃ l, UpChain m.heap.up (m.heap.up n) l ∧ l.length = p.length := by
  obtain ⟨l, h1, h2⟩ := chain_resolve M.inv p hd.addr [] n a.res (by rw [(M.hnd x hd a.env).root]; rfl)
  exact ⟨l, h1, by simpa using h2⟩

theorem at_attach_chain (M : MInv m K) {x p hd n} {v : Val α} {us} (a : At m K S x p hd n v us) {y t} (hy : m.env y = some (.tree t)) (hxy : x ≠ y) :
    ∃ l, UpChain (upd m.heap.up t (some n)) (upd m.heap.up t (some n) n) l ∧ l.length = p.length := by
  obtain ⟨l, h1, h2⟩ := at_chain M a
  obtain ⟨anc, c1, -, -, -, c5⟩ := (a.attach M hy hxy).chain
  have := h1.unique c1.2
  subst this
  have hn : n ≠ t := fun e => c5 (by simp [e])
  refine ⟨l, ?_, h2⟩
  rw [upd_of_ne _ _ hn]
  refine h1.congr fun b hb => upd_of_ne _ _ fun e => c5 (by simp [← e, hb])

theorem kids_at {x p hd n} {v : Val α} {us} (a : At m K S x p hd n v us) : Spec.kids S x p = us := by
  simp only [Spec.kids, a.var, a.kids, Option.getD_some]

theorem nodesAt_child {x q i hd u n} {v : Val α} {us t} (c : AtC m K S x q i hd u n v us t) : Spec.nodesAt S x (.child q i) = t.count := by
  simp only [Spec.nodesAt, kids_at c.par, c.getT]

theorem intoIter_cost (M : MInv m K) {r : Addr} (hr : m.heap.live r = true) : cost .fresh (treeIntoIter r) m.heap ≤ 12 := by
  obtain ⟨h', e, -, -, -, -, hup, -⟩ := makeNode_ok M.inv M.st (d := .scatteredNone 0) (.inl ⟨_, rfl⟩)
  have hne : m.heap.nextAddr ≠ r := fun e => Nat.lt_irrefl _ (e ▸ M.st.liveB _ hr : m.heap.nextAddr < m.heap.nextAddr)
  unfold treeIntoIter
  refine Nat.le_trans (cost_seq (n := 1) (k := 11) (upto_makeNode _) e (cst_makeNode _ _) (cost_seqC (n := 11) (k := 0) ?_ fun _ => Cst.pure _)) (by omega)
  refine Nat.le_trans (CI.at (ci_pushBack (l := []) ?_)) (by simp)
  show _ = none
  rw [upd_of_ne _ _ hne, hup]; simp

theorem count_updLevel (f : Nat → α → α) (t : RTree α) : (updLevel f t).count = t.count := by
  have := congrArg List.length (visits_updLevel f t)
  simpa [length_visits, countL] using this

theorem mapBfs_cost (M : MInv m K) (A : Abs m K S) {n : Addr} {t : RTree α} (hn : m.heap.Used n) (hd : Den m.heap.val K n t) (f : Nat → α → α) :
    cost .fresh (mapBfs f n) m.heap ≤ 18 * t.count + 5 := by
  have hF := (refFull m.env m.fresh S).map f
  have hs : SrcR (RefI (MOK m.env m.fresh S)) (bfsStart n) m.heap (visits [t]) :=
    ⟨[[t]], ⟨K, ⟨M, A⟩, .cons ⟨[n], once_at hn, by simpa using hn, by simpa using hd⟩ .nil⟩, by simp⟩
  have hv := visits_updLevel f t
  have c := treeFromBfs_cost hF ((refCost (SrcR (RefI (MOK m.env m.fresh S)))).map f) (s := (bfsStart n, 0)) (t := updLevel f t) ⟨_, hs, by simpa using hv⟩
  have hc : (updLevel f t).count = t.count := count_updLevel f t
  rw [hc] at c
  exact c

theorem mapBfsForest_cost (M : MInv m K) (A : Abs m K S) {n : Addr} {ts : List (RTree α)} (hn : m.heap.Used n)
    (hd : DenL m.heap.val K (K n) ts) (f : Nat → α → α) : cost .fresh (mapBfsForest f n) m.heap ≤ 18 * countL ts + 18 := by
  have hF := (refFull m.env m.fresh S).map f
  obtain ⟨it, e0, hit, -⟩ := iter_den M.inv hn hd
  have hs : SrcR (RefI (MOK m.env m.fresh S)) [it] m.heap (visits ts) :=
    ⟨[ts], ⟨K, ⟨M, A⟩, .cons hit .nil⟩, by simp⟩
  have hsz := M.inv.sz_den hn hd
  have c := forestFromBfs_cost hF ((refCost (SrcR (RefI (MOK m.env m.fresh S)))).map f) (s := ([it], 0)) (ts := updLevelL f ts) ⟨_, hs, by simpa using visits_updLevelL f ts⟩
  rw [countL_updLevelL, updLevelL_length] at c
  unfold mapBfsForest
  refine Nat.le_trans (cost_seq (n := 2) (c := Trees.bfsChildrenStart n) (b := [it]) (h' := m.heap) (imp_bfsChildrenStart n).upto ?_ (cst_childrenStart _ _)
    (cost_seq (n := 1) (imp_getSize n).upto (getSize_ok hn.1) (Nat.le_of_eq (cost_access _ _)) (by rw [hsz]; exact c))) ?_
  · simp only [Trees.bfsChildrenStart, Trees.M.bind_apply, e0, Res.bind_ok, Trees.M.pure_apply]
  · omega

theorem rebuildTree_cost (M : MInv m K) (A : Abs m K S) {x : Var} {r : Addr} {t : RTree α} (hx : m.env x = some (.tree r))
    (hv : S.vars x = some (.tree t)) (f : Nat → α → α) : cost .fresh (rebuildTree f r) m.heap ≤ 45 * t.count + 55 := by
  obtain ⟨l1, l2⟩ := own_low M A x
  have hF := (ownFull (L := S.dropped) l1 l2).map f
  obtain ⟨it, h1, e1, O⟩ := own_tree M A hx hv
  have hs : SrcR (OwnI (m.setEnv x none) m.fresh (S.set x none).vars S.dropped) [it] h1 (visits [t]) := ⟨[[t]], O, by simp⟩
  have c := treeFromBfs_cost hF (ownCost.map f) (s := ([it], 0)) (t := updLevel f t) ⟨_, hs, by simpa using visits_updLevel f t⟩
  have hc : (updLevel f t).count = t.count := count_updLevel f t
  rw [hc] at c
  unfold rebuildTree
  refine Nat.le_trans (cost_seq (upto_treeIntoIter r) e1 (intoIter_cost M (M.hnd x _ hx).used.1) c) ?_
  simp
  omega

theorem rebuildForest_cost (M : MInv m K) (A : Abs m K S) {x : Var} {r : Addr} {ts : List (RTree α)} (hx : m.env x = some (.forest r))
    (hv : S.vars x = some (.forest ts)) (hd : HDen m.heap K (.forest r) (.forest ts)) (f : Nat → α → α) :
    cost .fresh (rebuildForest f r) m.heap ≤ 45 * countL ts + 55 := by
  obtain ⟨l1, l2⟩ := own_low M A x
  have hF := (ownFull (L := S.dropped) l1 l2).map f
  have O := own_forest M A hx hv
  have hs : SrcR (OwnI (m.setEnv x none) m.fresh (S.set x none).vars S.dropped) [r] m.heap (visits ts) := ⟨[ts], O, by simp⟩
  have c := forestFromBfs_cost hF (ownCost.map f) (s := ([r], 0)) (ts := updLevelL f ts) ⟨_, hs, by simpa using visits_updLevelL f ts⟩
  obtain ⟨hlive, hsz⟩ := var_size M hx hd
  simp only [Handle.addr, Val.kids] at hsz hlive
  rw [countL_updLevelL, updLevelL_length] at c
  unfold rebuildForest
  refine Nat.le_trans (cost_seq (n := 1) (imp_getSize r).upto (getSize_ok hlive) (Nat.le_of_eq (cost_access _ _)) (by rw [hsz]; exact c)) ?_
  simp
  omega

theorem childData_cost (M : MInv m K) {n : Addr} {us : List (RTree α)} (hn : m.heap.Used n) (hd : DenL m.heap.val K (K n) us) :
    cost .fresh (children n >>= fun l => readMany dataRef l) m.heap ≤ 2 * us.length + 3 := by
  obtain ⟨it, e0, hit, hl⟩ := iter_den M.inv hn hd
  have e1 := children_ok M.inv hn
  refine Nat.le_trans (cost_seq (n := us.length + 3) (k := 1 * us.length) (c := Trees.children n) (imp_children n).upto e1 ?_ ?_) (by omega)
  · unfold children
    exact Nat.le_trans (cost_seq (imp_iter n).upto e0 (cst_iter _ _) (cst_iterCollect _ _ _)) (by omega)
  · rw [← hd.length]
    exact cst_readMany (fun a => cst_dataRef a) _ _


theorem locCost_eq (l : Loc) : locCost l = Spec.walkTo l := by cases l <;> rfl

theorem den_count {n : Addr} {t : RTree α} : countL t.kids ≤ t.count := by cases t; simp [RTree.count]

theorem retPop_ret (v : Vars) (o : Option Addr) : ∃ r, (v.retPop o : Prog α _) = .ret r := by cases o <;> exact ⟨_, rfl⟩

/-- A call on a node that costs the same in every memory. -/
theorem cost_kidsC (M : MInv m K) (A : Abs m K S) {x : Var} {p : Path} {c : Addr → Prog α β} {k : β → Prog α (Outcome Vars α)} {n : Nat}
    (hc : ∀ a, Cst .fresh (c a) n) (hk : ∀ b, ∃ o, k b = .ret o) :
    cost .fresh (m.vars.onKids x p fun _ a => m.vars.run m.vars.env (c a) k) m.heap ≤ Spec.walk p + n :=
  cost_onKids M A fun hd a v us h => cost_run0 (hc a _) hk

theorem cost_nodeC (M : MInv m K) (A : Abs m K S) {x : Var} {l : Loc} {c : Addr → Prog α β} {k : β → Prog α (Outcome Vars α)} {n : Nat}
    (hc : ∀ a, Cst .fresh (c a) n) (hk : ∀ b, ∃ o, k b = .ret o) :
    cost .fresh (m.vars.onNode x l fun a => m.vars.run m.vars.env (c a) k) m.heap ≤ Spec.walkTo l + n := by
  rw [← locCost_eq]
  exact cost_onNode M A (fun _ r t _ _ _ _ => cost_run0 (hc r _) hk) (fun q i hd u a v us t _ _ => cost_run0 (hc a _) hk)

theorem atC_up (M : MInv m K) {x q i hd u n} {v : Val α} {us t} (c : AtC m K S x q i hd u n v us t) : m.heap.up n = some u :=
  M.inv.up_of_mem (List.mem_of_getElem? c.get)

/-- Every call keeps within its budget. -/
theorem step_cost (M : MInv m K) (A : Abs m K S) (op : Op α) : cost .fresh (step m.vars op) m.heap ≤ Spec.budget S op := by
  cases op with
  | treeNew d => exact cost_run0 (cst_makeNode _ _) fun _ => ⟨_, rfl⟩
  | forestNew => exact cost_run0 (cst_makeNode _ _) fun _ => ⟨_, rfl⟩
  | pushFront x p y =>
    refine cost_takeTree M A fun r t hxy hy hv hd ho => ?_
    refine Nat.le_trans (cost_onKids (n := 3 * p.length + 11) M A fun hd a v us c => ?_) (Nat.le_of_eq (Nat.add_assoc _ _ _).symm)
    obtain ⟨l, h1, h2⟩ := at_attach_chain M c hy hxy
    rw [← h2]
    exact cost_run0 (CI.at (ci_pushFront h1)) fun _ => ⟨_, rfl⟩
  | pushBack x p y =>
    refine cost_takeTree M A fun r t hxy hy hv hd ho => ?_
    refine Nat.le_trans (cost_onKids (n := 3 * p.length + 11) M A fun hd a v us c => ?_) (Nat.le_of_eq (Nat.add_assoc _ _ _).symm)
    obtain ⟨l, h1, h2⟩ := at_attach_chain M c hy hxy
    rw [← h2]
    exact cost_run0 (CI.at (ci_pushBack h1)) fun _ => ⟨_, rfl⟩
  | popFront x p =>
    refine Nat.le_trans (cost_onKids (n := 3 * p.length + 11) M A fun hd a v us c => ?_) (Nat.le_of_eq (Nat.add_assoc _ _ _).symm)
    obtain ⟨l, h1, h2⟩ := at_chain M c
    rw [← h2]
    exact cost_run0 (CI.at (ci_popFront h1)) (retPop_ret _)
  | popBack x p =>
    refine Nat.le_trans (cost_onKids (n := 3 * p.length + 11) M A fun hd a v us c => ?_) (Nat.le_of_eq (Nat.add_assoc _ _ _).symm)
    obtain ⟨l, h1, h2⟩ := at_chain M c
    rw [← h2]
    exact cost_run0 (CI.at (ci_popBack h1)) (retPop_ret _)
  | prepend x p y =>
    refine cost_takeForest M A fun r ts hxy hy hv hd ho => ?_
    have hk : Spec.kids S y [] = ts := by simp [Spec.kids, hv, Val.kids, kidsAt]
    refine Nat.le_trans (cost_onKids (n := 3 * p.length + 2 * ts.length + 25) M A fun hd' a v us c => ?_) (by simp only [Spec.budget, hk, Spec.walk, pathCost]; omega)
    obtain ⟨l, h1, h2⟩ := at_chain M c
    rw [← h2, ← hd.length]
    exact cost_run0 (prepend_cost (c.splice M hy hxy) h1) fun _ => ⟨_, rfl⟩
  | append x p y =>
    refine cost_takeForest M A fun r ts hxy hy hv hd ho => ?_
    have hk : Spec.kids S y [] = ts := by simp [Spec.kids, hv, Val.kids, kidsAt]
    refine Nat.le_trans (cost_onKids (n := 3 * p.length + 2 * ts.length + 25) M A fun hd' a v us c => ?_) (by simp only [Spec.budget, hk, Spec.walk, pathCost]; omega)
    obtain ⟨l, h1, h2⟩ := at_chain M c
    rw [← h2, ← hd.length]
    exact cost_run0 (append_cost (c.splice M hy hxy) h1) fun _ => ⟨_, rfl⟩
  | insertPrevSib x l y =>
    refine cost_takeTree M A fun r t hxy hy hv hd ho => ?_
    cases l with
    | root =>
      refine Nat.le_trans (cost_onNode (n := 18 * t.count + 9) M A (fun _ r' t' hx' _ _ ho' => cost_run0 ?_ fun _ => ⟨_, rfl⟩) (fun q i _ _ _ _ _ _ e _ => by cases e)) ?_
      · unfold insertPrevSib
        have hu : m.heap.up r' = none := ho'.root
        have c := dropRoot_cost (A := .fresh) M.inv M.st ho.used ho.root (HDen.kids (hd := .tree r) (v := .tree t) hd)
        have := den_count (n := r) (t := t)
        refine Nat.le_trans (cost_seq (n := 1) (imp_getUp r').upto (getUp_ok ho'.used.1) (Nat.le_of_eq (cost_access _ _)) (k := 18 * t.count + 8) ?_) (by omega)
        rw [hu]
        exact Nat.le_trans (cost_seqC (k := 0) c fun _ => Cst.throw _) (by simp only [Val.kids]; omega)
      · simp [locCost, Spec.budget, Spec.nodes, hv, Val.count]
    | child q i =>
      refine Nat.le_trans (cost_onNode (n := 3 * q.length + 12) M A (fun e => by cases e) (fun q' i' hd' u a v us t' e c => ?_)) (by rw [locCost_eq]; exact Nat.le_of_eq (Nat.add_assoc _ _ _).symm)
      cases e
      obtain ⟨l, h1, h2⟩ := at_attach_chain M c.par hy hxy
      rw [← h2]
      exact cost_run0 (CI.at (ci_insertPrevSib (atC_up M c) h1)) fun _ => ⟨_, rfl⟩
  | insertNextSib x l y =>
    refine cost_takeTree M A fun r t hxy hy hv hd ho => ?_
    cases l with
    | root =>
      refine Nat.le_trans (cost_onNode (n := 18 * t.count + 9) M A (fun _ r' t' hx' _ _ ho' => cost_run0 ?_ fun _ => ⟨_, rfl⟩) (fun q i _ _ _ _ _ _ e _ => by cases e)) ?_
      · unfold insertNextSib
        have hu : m.heap.up r' = none := ho'.root
        have c := dropRoot_cost (A := .fresh) M.inv M.st ho.used ho.root (HDen.kids (hd := .tree r) (v := .tree t) hd)
        have := den_count (n := r) (t := t)
        refine Nat.le_trans (cost_seq (n := 1) (imp_getUp r').upto (getUp_ok ho'.used.1) (Nat.le_of_eq (cost_access _ _)) (k := 18 * t.count + 8) ?_) (by omega)
        rw [hu]
        exact Nat.le_trans (cost_seqC (k := 0) c fun _ => Cst.throw _) (by simp only [Val.kids]; omega)
      · simp [locCost, Spec.budget, Spec.nodes, hv, Val.count]
    | child q i =>
      refine Nat.le_trans (cost_onNode (n := 3 * q.length + 12) M A (fun e => by cases e) (fun q' i' hd' u a v us t' e c => ?_)) (by rw [locCost_eq]; exact Nat.le_of_eq (Nat.add_assoc _ _ _).symm)
      cases e
      obtain ⟨l, h1, h2⟩ := at_attach_chain M c.par hy hxy
      rw [← h2]
      exact cost_run0 (CI.at (ci_insertNextSib (atC_up M c) h1)) fun _ => ⟨_, rfl⟩
  | detach x l =>
    refine Nat.le_trans (cost_onNode (n := 3 * Spec.depth l + 17) M A (fun e r t hx _ _ ho => ?_) (fun q i hd u a v us t e c => ?_)) (by rw [locCost_eq]; exact Nat.le_of_eq (Nat.add_assoc _ _ _).symm)
    · refine Nat.le_trans (cost_run0 (CI.at (ci_detach_root ho.root)) fun _ => ⟨_, rfl⟩) (by omega)
    · subst e
      obtain ⟨l, h1, h2⟩ := at_chain M c.par
      show _ ≤ 3 * q.length + 17
      rw [← h2]
      exact cost_run0 (CI.at (ci_detach (atC_up M c) h1)) fun _ => ⟨_, rfl⟩
  | abandon x =>
    simp only [step]
    cases m.vars.env x with
    | none => exact Nat.zero_le _
    | some hd => cases hd with
      | tree r => exact cost_run0 (cst_abandon _ _) fun _ => ⟨_, rfl⟩
      | forest r => exact Nat.zero_le _
      | iter r => exact Nat.zero_le _
  | setData x l d => exact cost_nodeC M A (fun a => cst_dataMutSet a d) fun _ => ⟨_, rfl⟩
  | drop x =>
    simp only [step]
    show cost .fresh (match m.env x with | some (.iter f) => _ | some hd => _ | none => _) _ ≤ _
    have hA := A.vars x
    cases hx : m.env x with
    | none => exact Nat.zero_le _
    | some hd =>
      rw [hx] at hA
      obtain ⟨v, e, hv⟩ := hA
      have ho := M.hnd x hd hx
      have c := dropRoot_cost (A := .fresh) M.inv M.st ho.used ho.root hv.kids
      simp only [Spec.budget, Spec.nodes, e]
      cases hd <;> cases v <;> simp only [HDen] at hv
      · rename_i r t
        have := den_count (n := r) (t := t)
        simp only [Val.kids, Val.count] at c ⊢
        exact Nat.le_trans (cost_run0 c fun _ => ⟨_, rfl⟩) (by omega)
      · simp only [Val.kids, Val.count] at c ⊢
        exact Nat.le_trans (cost_run0 c fun _ => ⟨_, rfl⟩) (by omega)
      · exact cost_run0 (intoIterDrop_cost ⟨M, A⟩ hx e) fun _ => ⟨_, rfl⟩
  | intoIter x =>
    simp only [step]
    show cost .fresh (match m.env x with | some (.tree f) => _ | some (.forest f) => _ | _ => _) _ ≤ _
    cases hx : m.env x with
    | none => exact Nat.zero_le _
    | some hd => cases hd with
      | tree r => exact cost_run0 (intoIter_cost M (M.hnd x _ hx).used.1) fun _ => ⟨_, rfl⟩
      | forest r => exact Nat.zero_le _
      | iter r => exact Nat.zero_le _
  | iterNext x =>
    simp only [step]
    show cost .fresh (match m.env x with | some (.iter f) => _ | _ => _) _ ≤ _
    cases hx : m.env x with
    | none => exact Nat.zero_le _
    | some hd => cases hd with
      | tree r => exact Nat.zero_le _
      | forest r => exact Nat.zero_le _
      | iter r => exact cost_run0 (cost_popFront_root (M.hnd x _ hx).root) (retPop_ret _)
  | iterLen x =>
    simp only [step]
    show cost .fresh (match m.env x with | some (.iter f) => _ | _ => _) _ ≤ _
    cases hx : m.env x with
    | none => exact Nat.zero_le _
    | some hd => cases hd with
      | tree r => exact Nat.zero_le _
      | forest r => exact Nat.zero_le _
      | iter r => exact cost_run0 (cst_degree _ _) fun _ => ⟨_, rfl⟩
  | data x l => exact cost_nodeC M A cst_dataRef fun _ => ⟨_, rfl⟩
  | degree x p => exact cost_kidsC M A cst_degree fun _ => ⟨_, rfl⟩
  | nodeCount x p => exact cost_kidsC M A cst_nodeCount fun _ => ⟨_, rfl⟩
  | hasNoChild x p => exact cost_kidsC M A cst_hasNoChild fun _ => ⟨_, rfl⟩
  | childData x p =>
    refine Nat.le_trans (cost_onKids (n := 2 * (Spec.kids S x p).length + 3) M A fun hd a v us c => ?_) (Nat.le_of_eq (Nat.add_assoc _ _ _).symm)
    rw [kids_at c]
    exact cost_run0 (childData_cost M (c.used M) c.kden) fun _ => ⟨_, rfl⟩
  | frontData x p => exact cost_kidsC M A (fun a => cst_endData _ (cst_getHead a)) fun _ => ⟨_, rfl⟩
  | backData x p => exact cost_kidsC M A (fun a => cst_endData _ (cst_getTail a)) fun _ => ⟨_, rfl⟩
  | mapBfs x l f =>
    refine Nat.le_trans (cost_onNode (n := 18 * Spec.nodesAt S x l + 5) M A (fun e r t hx hv hd ho => ?_) (fun q i hd u a v us t e c => ?_)) (by rw [locCost_eq]; exact Nat.le_of_eq (Nat.add_assoc _ _ _).symm)
    · subst e
      simp only [Spec.nodesAt, Spec.nodes, hv, Val.count]
      exact cost_run0 (mapBfs_cost M A ho.used hd f) fun _ => ⟨_, rfl⟩
    · subst e
      rw [nodesAt_child c]
      exact cost_run0 (mapBfs_cost M A (c.usedN M) c.den f) fun _ => ⟨_, rfl⟩
  | mapBfsForest x p f =>
    refine Nat.le_trans (cost_onKids (n := 18 * countL (Spec.kids S x p) + 18) M A fun hd a v us c => ?_) (Nat.le_of_eq (Nat.add_assoc _ _ _).symm)
    rw [kids_at c]
    exact cost_run0 (mapBfsForest_cost M A (c.used M) c.kden f) fun _ => ⟨_, rfl⟩
  | rebuild x f =>
    simp only [step]
    show cost .fresh (match m.env x with | some (.tree f) => _ | some (.forest f) => _ | _ => _) _ ≤ _
    have hA := A.vars x
    cases hx : m.env x with
    | none => exact Nat.zero_le _
    | some hd =>
      rw [hx] at hA
      obtain ⟨v, e, hv⟩ := hA
      simp only [Spec.budget, Spec.nodes, e]
      have hv0 := hv
      cases hd <;> cases v <;> simp only [HDen] at hv
      · exact cost_run0 (rebuildTree_cost M A hx e f) fun _ => ⟨_, rfl⟩
      · exact cost_run0 (rebuildForest_cost M A hx e hv0 f) fun _ => ⟨_, rfl⟩
      · exact Nat.zero_le _
  | bfs x l k => exact cost_nodeC M A (fun a => cst_bfsRun k a) fun _ => ⟨_, rfl⟩
  | bfsChildren x p k => exact cost_kidsC M A (fun a => cst_bfsChildrenRun k a) fun _ => ⟨_, rfl⟩
  | bfsMut x l k f => exact cost_nodeC M A (fun a => cst_bfsMutRun f k a) fun _ => ⟨_, rfl⟩
  | bfsChildrenMut x p k f => exact cost_kidsC M A (fun a => cst_bfsChildrenMutRun f k a) fun _ => ⟨_, rfl⟩
  | intoBfs x k =>
    simp only [step]
    show cost .fresh (match m.env x with | some (.tree f) => _ | some (.forest f) => _ | _ => _) _ ≤ _
    have hA := A.vars x
    cases hx : m.env x with
    | none => exact Nat.zero_le _
    | some hd =>
      rw [hx] at hA
      obtain ⟨v, e, hv⟩ := hA
      simp only [Spec.budget, Spec.nodes, e]
      have hl := (M.hnd x hd hx).used.1
      cases hd <;> cases v <;> simp only [HDen] at hv
      · rename_i r t
        obtain ⟨it, h1, e1, O⟩ := own_tree M A hx e
        have c := intoBfsDrive_cost O k
        refine cost_run0 ?_ fun _ => ⟨_, rfl⟩
        unfold intoBfsTreeRun
        refine Nat.le_trans (cost_seq (n := 1) (imp_getSize r).upto (getSize_ok hl) (Nat.le_of_eq (cost_access _ _))
          (cost_seq (upto_treeIntoIter r) e1 (intoIter_cost M hl) (cost_seqC (k := 0) c fun _ => Cst.pure _))) ?_
        simp [Val.count, countL]; omega
      · rename_i r ts
        have c := intoBfsDrive_cost (own_forest M A hx e) k
        refine cost_run0 ?_ fun _ => ⟨_, rfl⟩
        unfold intoBfsForestRun
        refine Nat.le_trans (cost_seq (n := 1) (imp_getSize r).upto (getSize_ok hl) (Nat.le_of_eq (cost_access _ _))
          (cost_seqC (k := 0) c fun _ => Cst.pure _)) ?_
        simp [Val.count]; omega
      · exact Nat.zero_le _
  | treeFromTuple t =>
    simp only [step]
    split
    · exact cost_run0 (cst_treeFromTuple t _) fun _ => ⟨_, rfl⟩
    · exact Nat.zero_le _
  | forestFromTuple ts =>
    simp only [step]
    split
    · exact cost_run0 (cst_forestFromTuple ts _) fun _ => ⟨_, rfl⟩
    · exact Nat.zero_le _

end
end Fine
end Trees
