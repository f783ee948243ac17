import Verif.Proof.MutSource
/-
The breadth-first calls refine their specification.
-/
namespace Trees
set_option linter.unusedSimpArgs false
variable {α : Type}
open RTree

theorem visits_flat (ts : List (RTree α)) : (visits ts).map flatVisit = (levelOrder ts).map visit := by
  rw [levelOrder_eq, visits, List.map_map]
  apply List.map_congr_left
  intro t _
  cases t; simp [flatVisit, szOf, visit]

theorem outVisits_eq (sz : Size) (k : Nat) (ts : List (RTree α)) :
    outVisits (sz, (List.range k).map (fun i => (visits ts)[i]?)) = .visits sz.degree sz.descendants (bfsCalls k ts) := by
  simp only [outVisits, bfsCalls, calls, ← visits_flat, List.map_map]
  congr 1
  apply List.map_congr_left
  intro i _
  simp

section
variable {m : Machine α} {K : Addr → List Addr} {S : Store α}

theorem AtC.usedN (M : MInv m K) {x q i hd u n} {v : Val α} {us t} (c : AtC m K S x q i hd u n v us t) : m.heap.Used n :=
  M.inv.used_of_mem (List.mem_of_getElem? c.get)

theorem refines_mapBfs (M : MInv m K) (A : Abs m K S) {x l f} :
    Sim (step m (.mapBfs x l f)) (specStep S (.mapBfs x l f)) := by
  refine sim_onNode M A ?_ ?_
  · intro r t hx hv hden ho
    obtain ⟨a, h', e, s, -⟩ := mapBfs_sim M A (n := r) ho.used hden f
    simp only [Machine.run, e]; exact s
  · intro q i hd u n v us t c
    obtain ⟨a, h', e, s, -⟩ := mapBfs_sim M A (c.usedN M) c.den f
    simp only [Machine.run, e]; exact s

theorem refines_mapBfsForest (M : MInv m K) (A : Abs m K S) {x p f} :
    Sim (step m (.mapBfsForest x p f)) (specStep S (.mapBfsForest x p f)) := by
  refine sim_onKids M A (fun _ n _ us a => ?_)
  obtain ⟨b, h', e, s, -⟩ := mapBfsForest_sim M A (a.used M) a.kden f
  simp only [Machine.run, e]; exact s

theorem bfsRun_ok (M : MInv m K) {n : Addr} {t : RTree α} (hn : m.heap.Used n) (hd : Den m.heap.val K n t) (k : Nat) :
    bfsRun k n m.heap = .ok (⟨1, t.count - 1⟩, (List.range k).map (fun i => (visits [t])[i]?)) m.heap := by
  obtain ⟨s', e⟩ := refDrive_ok M (s := bfsStart n) (ts := [t]) (.cons ⟨[n], once_at hn, by simpa using hn, by simpa using hd⟩ .nil) k
  have hsz : (m.heap.size n).descendants = t.count - 1 := by
    cases t with
    | node d ks => rw [Den_node] at hd; rw [M.inv.sz_den hn hd.2]; simp
  simp [bfsRun, getSize_ok hn.1, e, hsz]

theorem refines_bfs (M : MInv m K) (A : Abs m K S) {x l k} :
    Sim (step m (.bfs x l k)) (specStep S (.bfs x l k)) := by
  refine sim_onNode M A ?_ ?_
  · intro r t hx hv hden ho
    exact sim_read M A (bfsRun_ok M (n := r) ho.used hden k) _ (outVisits_eq _ _ _)
  · intro q i hd u n v us t c
    exact sim_read M A (bfsRun_ok M (c.usedN M) c.den k) _ (outVisits_eq _ _ _)

theorem refines_bfsChildren (M : MInv m K) (A : Abs m K S) {x p k} :
    Sim (step m (.bfsChildren x p k)) (specStep S (.bfsChildren x p k)) := by
  refine sim_onKids M A (fun _ n _ us a => ?_)
  have hn := a.used M
  refine sim_read M A (b := (⟨us.length, countL us⟩, (List.range k).map (fun i => (visits us)[i]?))) ?_ _ (outVisits_eq _ _ _)
  obtain ⟨it, e0, hit, -⟩ := iter_den M.inv hn a.kden
  obtain ⟨s', e⟩ := refDrive_ok M (s := [it]) (ts := us) (.cons hit .nil) k
  simp [bfsChildrenRun, bfsChildrenStart, e0, getSize_ok hn.1, e, M.inv.sz_den hn a.kden]

/-! ### Owning iterations -/

theorem own_start {x : Var} {f : Addr} {h : Heap α} {ts : List (RTree α)} {K1 : Addr → List Addr}
    (M : MInv m K) (A : Abs m K S)
    (M1 : MInv ⟨h, upd (m.setEnv x none) m.fresh (some (.iter f)), m.fresh + 1⟩ K1)
    (A1 : Abs ⟨h, upd (m.setEnv x none) m.fresh (some (.iter f)), m.fresh + 1⟩ K1 ((S.set x none).bind (.iter ts))) :
    OwnI (m.setEnv x none) m.fresh (S.set x none).vars S.dropped h [f] [ts] := by
  refine ⟨_, _, _, K1, [m.fresh], ⟨M1, A1⟩, rfl, .cons (by simp) .nil, .cons ?_ .nil, by simp, by simp, Nat.le_succ _, ?_, ?_⟩
  · simp [Store.bind, Store.set, A.fresh]
  · intro z hz
    have : z ≠ m.fresh := Nat.ne_of_lt hz
    simp [upd_apply, this, Store.bind, Store.set, A.fresh]
  · intro z hz hzn
    have hzn' : z ≠ m.fresh := by simpa using hzn
    have h1 := M.fr z hz
    have h2 := A.vars z
    simp only [h1] at h2
    simp [upd_apply, hzn', Machine.setEnv, h1, Store.bind, Store.set, A.fresh, h2]

theorem own_low (M : MInv m K) (A : Abs m K S) (x : Var) :
    (∀ z, m.fresh ≤ z → m.setEnv x none z = none) ∧ ∀ z, m.fresh ≤ z → (S.set x none).vars z = none := by
  constructor
  · intro z hz
    simp [Machine.setEnv, upd_apply, M.fr z hz]
  · intro z hz
    have h2 := A.vars z
    simp only [M.fr z hz] at h2
    simp [Store.set, h2]

theorem own_tree (M : MInv m K) (A : Abs m K S) {x : Var} {r : Addr} {t : RTree α} (hx : m.env x = some (.tree r))
    (hv : S.vars x = some (.tree t)) :
    ∃ f h, treeIntoIter r m.heap = .ok f h ∧ OwnI (m.setEnv x none) m.fresh (S.set x none).vars S.dropped h [f] [[t]] := by
  have := refines_intoIter M A (x := x)
  simp only [step, specStep, hx, hv, Machine.run] at this
  cases e : treeIntoIter r m.heap with
  | err er h => rw [e] at this; cases er <;> exact this.elim
  | ok f h =>
    rw [e] at this
    obtain ⟨-, K1, M1, A1⟩ := this
    exact ⟨f, h, rfl, own_start M A M1 A1⟩

theorem own_forest (M : MInv m K) (A : Abs m K S) {x : Var} {r : Addr} {ts : List (RTree α)} (hx : m.env x = some (.forest r))
    (hv : S.vars x = some (.forest ts)) : OwnI (m.setEnv x none) m.fresh (S.set x none).vars S.dropped m.heap [r] [ts] := by
  obtain ⟨-, K1, M1, A1⟩ := sim_toIter M A hx hv
  exact own_start M A M1 A1

/-- The size of the value in a variable. -/
theorem var_size (M : MInv m K) {hd : Handle} {x : Var} {v : Val α} (hx : m.env x = some hd) (hv : HDen m.heap K hd v) :
    m.heap.live hd.addr = true ∧ m.heap.size hd.addr = ⟨v.kids.length, countL v.kids⟩ :=
  ⟨(M.hnd x hd hx).used.1, M.inv.sz_den (M.hnd x hd hx).used hv.kids⟩

theorem store_eq_set (A : Abs m K S) (x : Var) : (⟨(S.set x none).vars, m.fresh, S.dropped⟩ : Store α) = S.set x none := by
  rw [← A.fresh]; rfl

/-- `Tree::from(tree.into_bfs().map(f))`. -/
theorem rebuildTree_sim (M : MInv m K) (A : Abs m K S) {x : Var} {r : Addr} {t : RTree α} (hx : m.env x = some (.tree r))
    (hv : S.vars x = some (.tree t)) (f : Nat → α → α) :
    ∃ a h', rebuildTree f r m.heap = .ok a h' ∧
      Sim (m.retVar h' (m.setEnv x none) (.tree a)) (.ok ((S.set x none).bind (.tree (updLevel f t))) (.var S.fresh)) ∧
      InBlock h' a (countL (updLevel f t).kids + 1) := by
  obtain ⟨l1, l2⟩ := own_low M A x
  have hF := (ownFull (L := S.dropped) l1 l2).map f
  rw [store_eq_set A] at hF
  obtain ⟨it, h1, e1, O⟩ := own_tree M A hx hv
  have hs : SrcR (OwnI (m.setEnv x none) m.fresh (S.set x none).vars S.dropped) [it] h1 (visits [t]) := ⟨[[t]], O, by simp⟩
  obtain ⟨a, h', e2, B⟩ := treeFromBfs_ok hF (s := ([it], 0)) (t := updLevel f t) ⟨_, hs, by simpa using visits_updLevel f t⟩
  refine ⟨a, h', ?_, ?_, B.inBlock (fun h ⟨K, MI, _⟩ => ⟨K, MI.inv⟩)⟩
  · simp only [rebuildTree, Trees.M.bind_apply, e1, Res.bind_ok, e2]
  · refine B.sim (hd := .tree a) rfl (fun w => .inl ⟨a, _, _, rfl, rfl, ?_, rfl⟩)
    rw [eta]

/-- `Forest::from(forest.into_bfs().map(f))`. -/
theorem rebuildForest_sim (M : MInv m K) (A : Abs m K S) {x : Var} {r : Addr} {ts : List (RTree α)} (hx : m.env x = some (.forest r))
    (hv : S.vars x = some (.forest ts)) (hd : HDen m.heap K (.forest r) (.forest ts)) (f : Nat → α → α) :
    ∃ a h', rebuildForest f r m.heap = .ok a h' ∧
      Sim (m.retVar h' (m.setEnv x none) (.forest a)) (.ok ((S.set x none).bind (.forest (updLevelL f ts))) (.var S.fresh)) ∧
      InBlock h' a (countL (updLevelL f ts) + 1) := by
  obtain ⟨l1, l2⟩ := own_low M A x
  have hF := (ownFull (L := S.dropped) l1 l2).map f
  rw [store_eq_set A] at hF
  have O := own_forest M A hx hv
  have hs : SrcR (OwnI (m.setEnv x none) m.fresh (S.set x none).vars S.dropped) [r] m.heap (visits ts) := ⟨[ts], O, by simp⟩
  obtain ⟨a, h', e2, B⟩ := forestFromBfs_ok hF (s := ([r], 0)) (ts := updLevelL f ts) ⟨_, hs, by simpa using visits_updLevelL f ts⟩
  obtain ⟨hlive, hsz⟩ := var_size M hx hd
  simp only [Handle.addr, Val.kids] at hsz hlive
  rw [countL_updLevelL, updLevelL_length] at e2
  refine ⟨a, h', ?_, ?_, B.inBlock (fun h ⟨K, MI, _⟩ => ⟨K, MI.inv⟩)⟩
  · simp only [rebuildForest, Trees.M.bind_apply, getSize_ok hlive, Res.bind_ok, hsz, e2]
  · exact B.sim (hd := .forest a) rfl (fun w => .inr ⟨a, rfl, rfl, rfl⟩)

theorem refines_rebuild (M : MInv m K) (A : Abs m K S) {x f} :
    Sim (step m (.rebuild x f)) (specStep S (.rebuild x f)) := by
  simp only [step, specStep]
  have hA := A.vars x
  cases hx : m.env x with
  | none => rw [hx] at hA; simp only at hA; simp [hA, Sim]
  | some hd =>
    rw [hx] at hA
    obtain ⟨v, e, hv⟩ := hA
    rw [e]
    have hv0 := hv
    cases hd <;> cases v <;> simp only [HDen] at hv
    · obtain ⟨a, h', e, s, -⟩ := rebuildTree_sim M A hx e f
      simp only [Machine.run, e]; exact s
    · obtain ⟨a, h', e, s, -⟩ := rebuildForest_sim M A hx e hv0 f
      simp only [Machine.run, e]; exact s
    · trivial

/-! ### Results are stored in one block -/

theorem onNode_ind (M : MInv m K) {x l} {k : Addr → Outcome (Machine α) α} {P : Outcome (Machine α) α → Prop} (h0 : P .rejected)
    (h1 : P (.ok m .absent)) (h2 : ∀ n t, m.heap.Used n → Den m.heap.val K n t → P (k n)) : P (m.onNode x l k) := by
  have hA := M.abs_store.vars x
  cases hx : m.env x with
  | none => simpa [Machine.onNode, hx] using h0
  | some hd =>
    rw [hx] at hA
    obtain ⟨v, e, hv⟩ := hA
    have ho := M.hnd x hd hx
    simp only [Machine.onNode, hx]
    cases hit : hd.isIter with
    | true => simpa using h0
    | false =>
      simp only [Bool.false_eq_true, if_false]
      cases l with
      | root =>
        cases hd with
        | tree r => cases v with
          | tree t => exact h2 r t ho.used hv
          | forest _ => exact hv.elim
          | iter _ => exact hv.elim
        | forest r => exact h0
        | iter r => simp [Handle.isIter] at hit
      | child q i =>
        simp only [Machine.run, locate_ok M.inv ho.used]
        cases hn : resolve K hd.addr (q ++ [i]) with
        | none => exact h1
        | some n =>
          have hr := resolve_kidsAt (p := q) hv.kids
          rw [resolve_append] at hn
          cases hu : resolve K hd.addr q with
          | none => rw [hu] at hn; simp at hn
          | some u =>
            rw [hu] at hr hn
            obtain ⟨us, h3, h4⟩ := hr
            simp only [Option.bind_some, resolve] at hn
            rcases h4.get i with ⟨g1, g2⟩ | ⟨c, t, g1, g2, g3⟩
            · simp [g1] at hn
            · simp only [g1, Option.some.injEq] at hn
              subst hn
              exact h2 c t (M.inv.used_of_mem (List.mem_of_getElem? g1)) g3

theorem onKids_ind (M : MInv m K) {x p} {k : Handle → Addr → Outcome (Machine α) α} {P : Outcome (Machine α) α → Prop} (h0 : P .rejected)
    (h1 : P (.ok m .absent)) (h2 : ∀ hd n us, m.heap.Used n → DenL m.heap.val K (K n) us → P (k hd n)) : P (m.onKids x p k) := by
  have hA := M.abs_store.vars x
  cases hx : m.env x with
  | none => simpa [Machine.onKids, hx] using h0
  | some hd =>
    rw [hx] at hA
    obtain ⟨v, e, hv⟩ := hA
    have ho := M.hnd x hd hx
    simp only [Machine.onKids, hx]
    cases hit : hd.isIter with
    | true => simpa using h0
    | false =>
      simp only [Bool.false_eq_true, if_false, Machine.run, locate_ok M.inv ho.used]
      have hr := resolve_kidsAt (p := p) hv.kids
      cases hn : resolve K hd.addr p with
      | none => exact h1
      | some n =>
        rw [hn] at hr
        obtain ⟨us, h3, h4⟩ := hr
        exact h2 hd n us (M.inv.reach_used ho.used (resolve_reach hn)) h4

/-- If an outcome binds a variable, its value is stored in one block of its own. -/
def BlockOut (r : Outcome (Machine α) α) : Prop :=
  ∀ m' y, r = .ok m' (.var y) → ∃ hd v, m'.env y = some hd ∧ m'.view y = some v ∧ InBlock m'.heap hd.addr (countL v.kids + 1)

theorem blockOut_ret {env : Var → Option Handle} {h' : Heap α} {hd : Handle} {S' : Store α} {v : Val α} (hf : S'.fresh = m.fresh)
    (s : Sim (m.retVar h' env hd) (.ok (S'.bind v) (.var S.fresh))) (b : InBlock h' hd.addr (countL v.kids + 1)) :
    BlockOut (m.retVar h' env hd) := by
  intro m' y e
  obtain ⟨-, K', M', A'⟩ := s
  simp only [Machine.retVar, Outcome.ok.injEq, Out.var.injEq] at e
  obtain ⟨rfl, rfl⟩ := e
  refine ⟨hd, v, by simp, ?_, b⟩
  have := A'.store_eq M'
  have h2 : (Machine.store ⟨h', upd env m.fresh (some hd), m.fresh + 1⟩ : Store α).vars m.fresh = some v := by
    rw [this]; simp [Store.bind, hf]
  exact h2

theorem mapBfs_block (M : MInv m K) {x l f} : BlockOut (step m (.mapBfs x l f)) := by
  refine onNode_ind M (by intro m' y e; simp at e) (by intro m' y e; simp at e) ?_
  intro n t hn hd
  obtain ⟨a, h', e, s, b⟩ := mapBfs_sim M M.abs_store hn hd f
  simp only [Machine.run, e]
  exact blockOut_ret (S' := m.store) rfl s b

theorem mapBfsForest_block (M : MInv m K) {x p f} : BlockOut (step m (.mapBfsForest x p f)) := by
  refine onKids_ind M (by intro m' y e; simp at e) (by intro m' y e; simp at e) ?_
  intro _ n us hn hd
  obtain ⟨a, h', e, s, b⟩ := mapBfsForest_sim M M.abs_store hn hd f
  simp only [Machine.run, e]
  exact blockOut_ret (S' := m.store) rfl s b

theorem rebuild_block (M : MInv m K) {x f} : BlockOut (step m (.rebuild x f)) := by
  have hA := M.abs_store.vars x
  simp only [step]
  cases hx : m.env x with
  | none => intro m' y e; simp at e
  | some hd =>
    rw [hx] at hA
    obtain ⟨v, e, hv⟩ := hA
    have hv0 := hv
    cases hd <;> cases v <;> simp only [HDen] at hv
    · obtain ⟨a, h', e, s, b⟩ := rebuildTree_sim M M.abs_store hx e f
      simp only [Machine.run, e]
      exact blockOut_ret (S' := m.store.set x none) rfl s b
    · obtain ⟨a, h', e, s, b⟩ := rebuildForest_sim M M.abs_store hx e hv0 f
      simp only [Machine.run, e]
      exact blockOut_ret (S' := m.store.set x none) rfl s b
    · intro m' y e; simp at e

theorem intoBfsDrive_ok (A : Abs m K S) {x : Var} (l1 : ∀ z, m.fresh ≤ z → m.setEnv x none z = none)
    (l2 : ∀ z, m.fresh ≤ z → (S.set x none).vars z = none) {f : Addr} {h : Heap α} {ts : List (RTree α)}
    (O : OwnI (m.setEnv x none) m.fresh (S.set x none).vars S.dropped h [f] [ts]) (k : Nat) :
    ∃ h' K', intoBfsDrive k f h = .ok ((List.range k).map (fun i => (visits ts)[i]?)) h' ∧
      MInv ⟨h', m.setEnv x none, m.fresh⟩ K' ∧ Abs ⟨h', m.setEnv x none, m.fresh⟩ K' ((S.set x none).drop (postL (bfsRest k ts))) := by
  obtain ⟨h1, s1, tss1, e1, O1, hr⟩ := ownSpec.drive k [f] h [ts] ts O (by simp)
  obtain ⟨h2, e2, O2⟩ := ownDrop s1 _ h1 tss1 O1
  obtain ⟨K', M', A'⟩ := O2.fin l1 l2
  refine ⟨h2, K', ?_, M', ?_⟩
  · simp [intoBfsDrive, e1, e2]
  · rw [hr, ← levelOrder_eq] at A'
    have : ((S.set x none).drop (postL (bfsRest k ts))) = ⟨(S.set x none).vars, m.fresh, S.dropped ++ postL (bfsRest k ts)⟩ := by
      rw [← A.fresh]; rfl
    rw [this]
    exact A'

theorem refines_intoBfs (M : MInv m K) (A : Abs m K S) {x k} :
    Sim (step m (.intoBfs x k)) (specStep S (.intoBfs x k)) := by
  simp only [step, specStep]
  have hA := A.vars x
  cases hx : m.env x with
  | none => rw [hx] at hA; simp only at hA; simp [hA, Sim]
  | some hd =>
    rw [hx] at hA
    obtain ⟨v, e, hv⟩ := hA
    rw [e]
    obtain ⟨hlive, hsz⟩ := var_size M hx hv
    obtain ⟨l1, l2⟩ := own_low M A x
    cases hd <;> cases v <;> simp only [HDen] at hv
    · rename_i r t
      obtain ⟨it, h1, e1, O⟩ := own_tree M A hx e
      obtain ⟨h2, K2, e2, M2, A2⟩ := intoBfsDrive_ok A l1 l2 O k
      simp only [Handle.addr, Val.kids] at hsz hlive
      simp only [Machine.run, intoBfsTreeRun, Trees.M.bind_apply, getSize_ok hlive, Res.bind_ok, hsz, e1, e2, Trees.M.pure_apply, Machine.ret, outVisits_eq]
      refine ⟨?_, K2, M2, A2⟩
      cases t; simp
    · rename_i r ts
      obtain ⟨h2, K2, e2, M2, A2⟩ := intoBfsDrive_ok A l1 l2 (own_forest M A hx e) k
      simp only [Handle.addr, Val.kids] at hsz hlive
      simp only [Machine.run, intoBfsForestRun, Trees.M.bind_apply, getSize_ok hlive, Res.bind_ok, hsz, e2, Trees.M.pure_apply, Machine.ret, outVisits_eq]
      exact ⟨rfl, K2, M2, A2⟩
    · trivial

/-! ### Iterations with mutable references -/

/-- Running an iteration with mutable references over the nodes `cs`. -/
theorem mut_core (M : MInv m K) {s : List RawIter} {cs : List Addr} {ts : List (RTree α)} {As : List (RTree Addr)}
    (H : MutI K m.heap s [As]) (dA : DenL (fun a => some a) K cs As) (dT : DenL m.heap.val K cs ts)
    (nd : (preL As).Nodup) (hr : ∀ x ∈ preL As, ∃ c ∈ cs, Reach K c x)
    (hE : ∀ h' : Heap α, DM m.heap h' → ∃ us, DenL h'.val K cs us) (f : Nat → α → α) (k : Nat) :
    ∃ h' us, driveMut f k 0 s m.heap = .ok ((List.range k).map (fun i => (visits ts)[i]?)) h' ∧ DM m.heap h' ∧
      DenL h'.val K cs us ∧ visits us = (visits ts).mapIdx (fun i x => (first k f i x.1, x.2)) ∧
      ∀ b, (∀ c ∈ cs, ¬ Reach K c b) → h'.val b = m.heap.val b := by
  have hp := preL_perm _ As (Nat.le_refl _)
  have nd' : ((qbfs As).map data).Nodup := hp.nodup_iff.mpr nd
  obtain ⟨h', e, D, hv⟩ := driveMut_ok f k 0 s m.heap [As] As H (by simp) nd'
  obtain ⟨us, dU⟩ := hE h' D
  have hv' : h'.val = mutVal m.heap.val ((qbfs As).map data) f k 0 := funext hv
  have dU' := dU
  rw [hv'] at dU'
  obtain ⟨g1, g2⟩ := mutVal_den dA dT nd' dU'
  refine ⟨h', us, by rw [e, g2], D, dU, g1, ?_⟩
  intro b hb
  rw [hv]
  unfold mutVal
  rw [if_neg]
  intro hm
  obtain ⟨c, hc, h2⟩ := hr b (hp.mem_iff.mp (List.mem_of_mem_take hm))
  exact hb c hc h2

theorem DM.isVal {h h' : Heap α} (D : DM h h') (b : Addr) : h'.IsVal b ↔ h.IsVal b := by
  have := D.some b
  simp only [Heap.IsVal, Heap.val] at this ⊢
  rw [this]

/-- Several data items of one value change. -/
theorem sim_modify (M : MInv m K) (A : Abs m K S) {x hd} {v' : Val α} (hx : m.env x = some hd) {h' : Heap α} (D : DM m.heap h')
    (hval : ∀ b, ¬ Reach K hd.addr b → h'.val b = m.heap.val b) (hden : HDen h' K hd v') (o : Out α) :
    Sim (m.ret h' m.env o) (.ok (S.set x (some v')) o) := by
  have hF : Frame m.heap K h' K (Reach K hd.addr) := by
    intro b hb hT
    exact ⟨(D.used b).mpr hb, rfl, hval b hT⟩
  have hnv : ∀ b, m.heap.val b = none → h'.val b = none := by
    intro b hb
    have := D.some b
    rw [hb] at this
    simpa using this
  refine ⟨rfl, K, ⟨D.inv M.inv, D.st M.st, fun a c hc => (D.isVal c).mpr (M.kv a c hc), ?_, M.dist, ?_, M.fr⟩, ⟨?_, A.fresh, ?_⟩⟩
  · intro z hz h1
    have ho := M.hnd z hz h1
    refine ⟨(D.used _).mpr ho.used, by simp only [D.up]; exact ho.root, ?_⟩
    have := ho.kind
    cases hz <;> simp only [HKind] at this ⊢
    · exact (D.isVal _).mpr this
    · exact hnv _ this
    · exact hnv _ this
  · intro b hb hb2
    simp only [D.up] at hb2
    exact M.all b ((D.used b).mp hb) hb2
  · intro z
    show match m.env z with
      | none => _
      | some hd => _
    by_cases hzx : z = x
    · subst hzx
      rw [hx]
      exact ⟨v', by simp [Store.set], hden⟩
    · have hA := A.vars z
      cases hz : m.env z with
      | none => rw [hz] at hA; simpa [Store.set, hzx] using hA
      | some hd' =>
        rw [hz] at hA
        obtain ⟨w, e, hw⟩ := hA
        refine ⟨w, by simpa [Store.set, hzx] using e, hden_frame hF M.inv (M.hnd z hd' hz) hw ?_⟩
        intro b hb hb'
        have := M.inv.root_disjoint (M.hnd z hd' hz).root (M.hnd x hd hx).root hb hb'
        exact hzx (M.dist z x _ _ hz hx this)
  · show S.dropped = h'.log
    rw [D.log, A.log]

theorem addr_den (M : MInv m K) {n : Addr} (hn : m.heap.Used n) : ∃ As, DenL (fun a => some a) K (K n) As :=
  M.inv.exists_den (fun a => some a) (fun _ _ _ => rfl) hn

theorem den_after (M : MInv m K) {n : Addr} (hn : m.heap.Used n) {h' : Heap α} (D : DM m.heap h') : ∃ us, DenL h'.val K (K n) us :=
  M.inv.exists_den h'.val (fun a c hc => by
    obtain ⟨d, e⟩ := Heap.isVal_iff.mp ((D.isVal c).mpr (M.kv a c hc)); simp [e]) hn

/-- `bfs_mut` on a node. -/
theorem bfsMut_core (M : MInv m K) {n : Addr} {t : RTree α} (hn : m.heap.Used n) (hd : Den m.heap.val K n t) (f : Nat → α → α) (k : Nat) :
    ∃ h', bfsMutRun f k n m.heap = .ok (⟨1, t.count - 1⟩, (List.range k).map (fun i => (visits [t])[i]?)) h' ∧ DM m.heap h' ∧
      Den h'.val K n (t.updLevel (first k f)) ∧ ∀ b, ¬ Reach K n b → h'.val b = m.heap.val b := by
  obtain ⟨Ks, dK⟩ := addr_den M hn
  have dA : Den (fun a => some a) K n (.node n Ks) := by rw [Den_node]; exact ⟨rfl, dK⟩
  have hiv : m.heap.IsVal n := Heap.isVal_iff.mpr ⟨_, den_val hd⟩
  obtain ⟨p1, p2⟩ := M.inv.nodup_pre dA
  have HM : MutI K m.heap (bfsStart n) [[.node n Ks]] := by
    refine ⟨⟨M.inv, M.st, M.kv⟩, .cons ⟨⟨[n], once_at hn, by simpa using hn, by simpa using dA⟩, ?_⟩ .nil⟩
    simpa using hiv
  obtain ⟨h', us, e, D, dU, hv, hout⟩ := mut_core M (cs := [n]) (ts := [t]) (f := f) (k := k) HM (by simpa using dA) (by simpa using hd)
    (by simpa [preL] using p1) (fun x hx => ⟨n, by simp, p2 x (by simpa [preL] using hx)⟩)
    (fun h' D => by
      obtain ⟨us, du⟩ := den_after M hn D
      obtain ⟨d', e'⟩ := Heap.isVal_iff.mp ((D.isVal n).mpr hiv)
      exact ⟨[.node d' us], by rw [DenL_cons, Den_node]; exact ⟨⟨e', du⟩, by simp⟩⟩)
  obtain ⟨u, us', rfl, du, dn⟩ := DenL_cons_left.mp dU
  simp only [DenL_nil] at dn
  subst dn
  have hu := updLevel_unique hv
  subst hu
  refine ⟨h', ?_, D, du, fun b hb => hout b (by simpa using hb)⟩
  have hsz : (m.heap.size n).descendants = t.count - 1 := by
    cases t with
    | node d ks => rw [Den_node] at hd; rw [M.inv.sz_den hn hd.2]; simp
  simp [bfsMutRun, getSize_ok hn.1, e, hsz]

/-- `bfs_children_mut` on a node. -/
theorem bfsChildrenMut_core (M : MInv m K) {n : Addr} {ts : List (RTree α)} (hn : m.heap.Used n) (hd : DenL m.heap.val K (K n) ts)
    (f : Nat → α → α) (k : Nat) :
    ∃ h', bfsChildrenMutRun f k n m.heap = .ok (⟨ts.length, countL ts⟩, (List.range k).map (fun i => (visits ts)[i]?)) h' ∧ DM m.heap h' ∧
      DenL h'.val K (K n) (updLevelL (first k f) ts) ∧ ∀ b, (b = n ∨ ¬ Reach K n b) → h'.val b = m.heap.val b := by
  obtain ⟨Ks, dK⟩ := addr_den M hn
  obtain ⟨p1, p2⟩ := M.inv.nodup_preL (a := n) (fun c hc => hc) (M.inv.l.nodup n) dK
  obtain ⟨it, e0, hit, -⟩ := iter_den M.inv hn dK
  have HM : MutI K m.heap [it] [Ks] := by
    refine ⟨⟨M.inv, M.st, M.kv⟩, .cons ⟨hit, ?_⟩ .nil⟩
    intro t ht
    have := dK.data_mem
    exact M.kv n _ (by rw [← this]; exact List.mem_map_of_mem ht)
  obtain ⟨h', us, e, D, dU, hv, hout⟩ := mut_core M (cs := K n) (ts := ts) (f := f) (k := k) HM dK hd p1 p2 (fun h' D => den_after M hn D)
  have hu := updLevelL_unique (by rw [← dU.length, hd.length]) hv
  subst hu
  refine ⟨h', ?_, D, dU, fun b hb => hout b ?_⟩
  · simp [bfsChildrenMutRun, bfsChildrenStart, e0, getSize_ok hn.1, e, M.inv.sz_den hn hd]
  · intro c hc hr
    rcases hb with rfl | hb
    · exact M.inv.not_reach_up hc hr
    · exact hb (.step hc hr)

theorem refines_bfsMut (M : MInv m K) (A : Abs m K S) {x l k f} :
    Sim (step m (.bfsMut x l k f)) (specStep S (.bfsMut x l k f)) := by
  refine sim_onNode M A ?_ ?_
  · intro r t hx hv hden ho
    obtain ⟨h', e, D, du, hout⟩ := bfsMut_core M (n := r) ho.used hden f k
    simp only [Machine.run, e, outVisits_eq]
    exact sim_modify M A hx D hout (by simpa [HDen] using du) _
  · intro q i hd u n v us t c
    obtain ⟨h1, h2, h3, h4⟩ := c.split
    have hnm : n ∈ K u := by rw [h1]; simp
    obtain ⟨h', e, D, du, hout⟩ := bfsMut_core M (c.usedN M) c.den f k
    simp only [Machine.run, e, outVisits_eq]
    refine sim_modify M A c.par.env D (fun b hb => hout b (fun hr => hb ((c.par.reach.tail hnm).trans hr))) ?_ _
    have hnd := M.inv.l.nodup u
    rw [h1] at hnd
    have hsib : ∀ z ∈ K u, z ≠ n → ∀ b, Reach K z b → h'.val b = m.heap.val b := by
      intro z hz hzn b hb
      exact hout b (fun hr => hzn (M.inv.sib_disjoint hz hnm hb hr))
    refine hden_modify (us := us) M.inv c.par.den c.par.res c.par.kids (fun _ _ _ => rfl) ?_ ?_
    · intro b hb hb2
      refine hout b (fun hr => ?_)
      rcases hb2 with rfl | hb2
      · exact M.inv.not_reach_up hnm hr
      · exact hb2 (.step hnm hr)
    · have hset : us.set i (t.updLevel (first k f)) = us.take i ++ (t.updLevel (first k f)) :: us.drop (i+1) := by
        rw [List.set_eq_take_append_cons_drop, if_pos]
        exact (List.getElem?_eq_some_iff.mp c.getT).1
      rw [hset, h1]
      simp only [List.nodup_append, List.nodup_cons] at hnd
      refine DenL.append (h3.congr ?_) ?_
      · intro z hz b hb
        exact ⟨rfl, hsib z (by rw [h1]; simp [hz]) (fun e => hnd.2.2 z hz n (by simp) e) b hb⟩
      · rw [DenL_cons]
        refine ⟨du, h4.congr ?_⟩
        intro z hz b hb
        exact ⟨rfl, hsib z (by rw [h1]; simp [hz]) (fun e => hnd.2.1.1 (e ▸ hz)) b hb⟩

theorem refines_bfsChildrenMut (M : MInv m K) (A : Abs m K S) {x p k f} :
    Sim (step m (.bfsChildrenMut x p k f)) (specStep S (.bfsChildrenMut x p k f)) := by
  refine sim_onKids' M A (fun hd n v us _ a => ?_)
  obtain ⟨h', e, D, du, hout⟩ := bfsChildrenMut_core M (a.used M) a.kden f k
  simp only [Machine.run, e, outVisits_eq]
  refine sim_modify M A a.env D (fun b hb => hout b (.inr fun hr => hb (a.reach.trans hr))) ?_ _
  exact hden_modify (us := us) M.inv a.den a.res a.kids (fun _ _ _ => rfl) (fun b _ hb => hout b hb) du

end
end Trees
