import Verif.Props.Memory
/-
C18–C23: breadth-first iteration, construction from it, cloning.
-/
namespace Trees
set_option linter.unusedSimpArgs false
variable {α : Type}
open RTree

/-! ### How to read the specification -/

/-- Level order lists every node exactly once: as many entries as nodes, with distinct positions, in
order of depth. -/
theorem levelOrder_once (ts : List (RTree α)) :
    (levelOrder ts).length = countL ts ∧ (levelPathsL ts).length = countL ts ∧ (levelPathsL ts).Nodup ∧
      ((levelOrder ts).map data).Perm (preL ts) := by
  have h1 := preL_perm _ (withPathL ts) (Nat.le_refl _)
  have e : levelPathsL ts = ((qbfs (withPathL ts)).map data).map (fun x => x.1) := by
    rw [levelPathsL, levelOrder_eq, List.map_map]; rfl
  have hc : countL (withPathL ts) = countL ts := by
    have := countL_mapL (fun x : Path × α => x.2) (withPathL ts)
    rw [withPathL_snd] at this; exact this.symm
  refine ⟨by rw [levelOrder_eq, length_qbfs], by rw [e]; simp [length_qbfs, hc], ?_, ?_⟩
  · rw [e, (h1.map _).nodup_iff]
    exact nodup_mapPathL [] 0 ts
  · rw [levelOrder_eq]; exact preL_perm _ _ (Nat.le_refl _)

/-- The reports of `next()`: the `i`-th call reports the `i`-th node in level order, and `None` once all
have been reported. -/
theorem bfsCalls_get (k i : Nat) (ts : List (RTree α)) (hi : i < k) :
    (bfsCalls k ts)[i]? = some ((levelOrder ts)[i]?.map visit) := by
  simp [bfsCalls, calls, hi]

theorem bfsCalls_none (k i : Nat) (ts : List (RTree α)) (hi : i < k) (hc : countL ts ≤ i) :
    (bfsCalls k ts)[i]? = some none := by
  rw [bfsCalls_get k i ts hi]
  have : (levelOrder ts).length ≤ i := by rw [(levelOrder_once ts).1]; exact hc
  simp [this]

/-- `updLevel f` keeps the shape and applies `f i` to the data of the `i`-th node in level order. -/
theorem updLevelL_spec (f : Nat → α → α) (ts : List (RTree α)) :
    mapL (fun _ => ()) (updLevelL f ts) = mapL (fun _ => ()) ts ∧
      (levelOrder (updLevelL f ts)).map visit = ((levelOrder ts).map visit).mapIdx (fun i v => (f i v.1, v.2)) := by
  have hv := visits_updLevelL f ts
  have h2 : (levelOrder (updLevelL f ts)).map visit = ((levelOrder ts).map visit).mapIdx (fun i v => (f i v.1, v.2)) := by
    rw [← visits_flat, ← visits_flat, hv]
    apply List.ext_getElem <;> simp [flatVisit]
  refine ⟨?_, h2⟩
  refine visits_inj _ _ _ (Nat.le_refl _) (by simp [mapL_eq, updLevelL_length]) ?_
  rw [visits_mapL, visits_mapL, hv]
  apply List.ext_getElem <;> simp

theorem updLevel_spec (f : Nat → α → α) (t : RTree α) :
    (t.updLevel f).map (fun _ => ()) = t.map (fun _ => ()) ∧
      (levelOrder [t.updLevel f]).map visit = ((levelOrder [t]).map visit).mapIdx (fun i v => (f i v.1, v.2)) := by
  have hv := visits_updLevel f t
  have h2 : (levelOrder [t.updLevel f]).map visit = ((levelOrder [t]).map visit).mapIdx (fun i v => (f i v.1, v.2)) := by
    rw [← visits_flat, ← visits_flat, hv]
    apply List.ext_getElem <;> simp [flatVisit]
  refine ⟨?_, h2⟩
  have : mapL (fun _ => ()) [t.updLevel f] = mapL (fun _ => ()) [t] := by
    refine visits_inj _ _ _ (Nat.le_refl _) (by simp [mapL_eq]) ?_
    rw [visits_mapL, visits_mapL, hv]
    apply List.ext_getElem <;> simp
  simpa [mapL_eq] using this

mutual
theorem map_id_eq : ∀ t : RTree α, t.map (fun d => d) = t
  | node d ks => by simp [mapL_id_eq ks]
theorem mapL_id_eq : ∀ ts : List (RTree α), mapL (fun d => d) ts = ts
  | [] => rfl
  | t :: ts => by simp [map_id_eq t, mapL_id_eq ts]
end

theorem bfsRest_nil (k : Nat) : bfsRest k ([] : List (RTree α)) = [] := by simp [bfsRest, levelOrder_eq]
theorem bfsRest_zero (ts : List (RTree α)) : bfsRest 0 ts = ts := by simp [bfsRest]
theorem bfsRest_succ (k : Nat) (t : RTree α) (r : List (RTree α)) : bfsRest (k + 1) (t :: r) = bfsRest k (r ++ t.kids) := by
  simp [bfsRest, levelOrder_eq, qbfs_cons]

theorem flatMap_perm {β γ : Type} (f g : β → List γ) : ∀ l : List β, (∀ a ∈ l, (f a).Perm (g a)) → (l.flatMap f).Perm (l.flatMap g)
  | [], _ => .refl _
  | a :: l, h => by
    simp only [List.flatMap_cons]
    exact (h a (by simp)).append (flatMap_perm f g l (fun b hb => h b (by simp [hb])))

theorem post_perm_pre : ∀ t : RTree α, t.post.Perm t.pre := by
  refine RTree.ind (fun d ks ih => ?_)
  have : (postL ks).Perm (preL ks) := by
    rw [postL_eq, preL_eq]; exact flatMap_perm _ _ ks ih
  exact (List.perm_append_comm (l₁ := postL ks) (l₂ := [d])).trans (by simpa using this)

theorem postL_perm_preL (ts : List (RTree α)) : (postL ts).Perm (preL ts) := by
  rw [postL_eq, preL_eq]; exact flatMap_perm _ _ ts (fun t _ => post_perm_pre t)

/-- Visited items together with the items dropped afterwards are all items, each once. -/
theorem bfs_conserve : ∀ (k : Nat) (ts : List (RTree α)),
    (((levelOrder ts).take k).map data ++ postL (bfsRest k ts)).Perm (preL ts) := by
  intro k
  induction k with
  | zero => intro ts; simpa [bfsRest_zero] using postL_perm_preL ts
  | succ k ih =>
    intro ts
    cases ts with
    | nil => simp [levelOrder_eq, bfsRest_nil]
    | cons t r =>
      have := ih (r ++ t.kids)
      rw [levelOrder_eq] at this
      rw [levelOrder_eq, qbfs_cons, bfsRest_succ, List.take_succ_cons, List.map_cons, List.cons_append]
      cases t with
      | node d ks =>
        simp only [data_node, preL, pre, List.cons_append]
        refine List.Perm.cons _ (this.trans ?_)
        rw [preL_append]
        exact List.perm_append_comm

/-- A call on a node that exists. -/
theorem Store.onNode_at {s : Store α} {x : Var} {l : Loc} {v : Val α} {t : RTree α} (hx : s.vars x = some v) (hv : v.isIter = false)
    (hl : v.at? l = some t) (r : Val α → RTree α → Outcome (Store α) α)
    (k : Val α → Path → Nat → List (RTree α) → RTree α → Outcome (Store α) α) :
    (l = .root ∧ v = .tree t ∧ s.onNode x l r k = r v t) ∨
    (∃ q i us, l = .child q i ∧ kidsAt v.kids q = some us ∧ us[i]? = some t ∧ s.onNode x l r k = k v q i us t) := by
  cases l with
  | root =>
    cases v <;> simp [Val.at?] at hl
    subst hl
    exact .inl ⟨rfl, rfl, by simp [Store.onNode, hx, Val.isIter]⟩
  | child q i =>
    right
    simp only [Val.at?] at hl
    cases hq : kidsAt v.kids q with
    | none => simp [hq] at hl
    | some us =>
      simp only [hq, Option.bind_some] at hl
      exact ⟨q, i, us, rfl, hq, hl, by simp [Store.onNode, hx, hv, hq, hl]⟩

/-- A call on a node that exists, when it does the same for roots and other nodes. -/
theorem Store.onNode_same {s : Store α} {x : Var} {l : Loc} {v : Val α} {t : RTree α} (hx : s.vars x = some v) (hv : v.isIter = false)
    (hl : v.at? l = some t) (g : RTree α → Outcome (Store α) α) :
    s.onNode x l (fun _ t => g t) (fun _ _ _ _ t => g t) = g t := by
  rcases Store.onNode_at hx hv hl (fun _ t => g t) (fun _ _ _ _ t => g t) with ⟨_, _, e⟩ | ⟨_, _, _, _, _, _, e⟩ <;> exact e

/-- All nodes of the value in variable `x` lie in one contiguous block made for them, and nothing else does
(a forest has one more node: its hidden root). -/
def Machine.Contiguous (m : Machine α) (x : Var) : Prop :=
  ∃ v nv w, m.heap.vec w = some nv ∧ m.view x = some v ∧ nv.cap = countL v.kids + 1 ∧ ∀ a, m.Holds x a ↔ nv.Has a

theorem BlockOut.contiguous {r : Outcome (Machine α) α} (h : BlockOut r) {m' : Machine α} {y : Var} (hr : Reachable m')
    (e : r = .ok m' (.var y)) : m'.Contiguous y := by
  obtain ⟨hd, v, h1, h2, h3⟩ := h m' y e
  obtain ⟨K, M⟩ := Proof.reachable_minv hr
  obtain ⟨w, nv, g1, g2, g3, g4⟩ := h3 K M.inv
  refine ⟨v, nv, w, g1, h2, g2, ?_⟩
  intro a
  have ho := M.hnd y hd h1
  rw [show nv.Has a ↔ InVec nv a from Iff.rfl, ← g4 a]
  constructor
  · rintro ⟨p, hp⟩
    simp only [Machine.nodeAt, h1, locate_ok M.inv ho.used] at hp
    exact resolve_reach hp
  · intro hr
    obtain ⟨p, hp⟩ := Proof.reach_resolve hr
    exact ⟨p, by simp [Machine.nodeAt, h1, locate_ok M.inv ho.used, hp]⟩

section
variable {m : Machine α} (hr : Reachable m)
include hr

/-- **C18** `bfs()` of a node: it announces degree 1 and the number of nodes below, and the calls of
`next()` report the nodes of the subtree in level order, each with its data, degree and number of
descendants, then `None`. Nothing changes. -/
theorem c18_bfs {x : Var} {l : Loc} {v : Val α} {t : RTree α} (hx : m.view x = some v) (hv : v.isIter = false)
    (hl : v.at? l = some t) (k : Nat) :
    ∃ m', step m (.bfs x l k) = .ok m' (.visits 1 (t.count - 1) ((List.range k).map (fun i => (levelOrder [t])[i]?.map visit))) ∧
      m'.store = m.store := by
  have hx' : m.store.vars x = some v := hx
  obtain ⟨m', h1, h2, _⟩ := step_ok hr (op := .bfs x l k) (by
    simp only [specStep]; exact Store.onNode_same hx' hv hl _)
  refine ⟨m', ?_, h2⟩
  rw [h1]; simp [bfsCalls, calls]

/-- **C18** `bfs_children()` of a node, `bfs()` of a forest (`p = []`): the same from the children on. -/
theorem c18_bfsChildren {x : Var} {p : Path} {v : Val α} {us : List (RTree α)} (hx : m.view x = some v)
    (hv : v.isIter = false) (hp : kidsAt v.kids p = some us) (k : Nat) :
    ∃ m', step m (.bfsChildren x p k) =
        .ok m' (.visits us.length (countL us) ((List.range k).map (fun i => (levelOrder us)[i]?.map visit))) ∧
      m'.store = m.store := by
  have hx' : m.store.vars x = some v := hx
  obtain ⟨m', h1, h2, _⟩ := step_ok hr (op := .bfsChildren x p k) (by simp only [specStep, Store.onKids, hx', hv, hp]; rfl)
  refine ⟨m', ?_, h2⟩
  rw [h1]; simp [bfsCalls, calls]

omit hr in
/-- What binding a fresh variable does, seen through the views. -/
theorem view_bind {m' : Machine α} {w : Val α} (h : m'.store = m.store.bind w) :
    m'.view m.fresh = some w ∧ (∀ z, z ≠ m.fresh → m'.view z = m.view z) ∧ m'.store.dropped = m.store.dropped := by
  have hvw : m'.view = m'.store.vars := rfl
  have hf : m.store.fresh = m.fresh := rfl
  refine ⟨?_, ?_, ?_⟩
  · rw [hvw, h]; simp [Store.bind, hf]
  · intro z hz; rw [hvw, h]; simp [Store.bind, hf, hz]; rfl
  · rw [h]; rfl

/-- **C21** `Tree::from(node.bfs().map(f))`, `f` possibly different at every call: the shape of the node's
subtree, with the `i`-th call's function applied to the `i`-th node in level order; nothing else changes;
the result is stored contiguously. -/
theorem c21_mapBfs {x : Var} {l : Loc} {v : Val α} {t : RTree α} (hx : m.view x = some v) (hv : v.isIter = false)
    (hl : v.at? l = some t) (f : Nat → α → α) :
    ∃ m', step m (.mapBfs x l f) = .ok m' (.var m.fresh) ∧ Reachable m' ∧ m'.view m.fresh = some (.tree (t.updLevel f)) ∧
      m'.Contiguous m.fresh ∧ (∀ z, z ≠ m.fresh → m'.view z = m.view z) ∧ m'.store.dropped = m.store.dropped := by
  have hx' : m.store.vars x = some v := hx
  obtain ⟨m', h1, h2, h3⟩ := step_ok hr (op := .mapBfs x l f) (by
    simp only [specStep]; exact Store.onNode_same hx' hv hl _)
  obtain ⟨g1, g2, g3⟩ := view_bind h2
  obtain ⟨K, M⟩ := Proof.reachable_minv hr
  exact ⟨m', h1, h3, g1, (mapBfs_block M).contiguous h3 h1, g2, g3⟩

/-- **C21** for a closure that is a plain function: `t.map f`. -/
theorem c21_mapBfs_fn {x : Var} {l : Loc} {v : Val α} {t : RTree α} (hx : m.view x = some v) (hv : v.isIter = false)
    (hl : v.at? l = some t) (f : α → α) :
    ∃ m', step m (.mapBfs x l (fun _ => f)) = .ok m' (.var m.fresh) ∧ m'.view m.fresh = some (.tree (t.map f)) ∧
      (∀ z, z ≠ m.fresh → m'.view z = m.view z) := by
  obtain ⟨m', h1, _, h2, _, h3, _⟩ := c21_mapBfs hr hx hv hl (fun _ => f)
  exact ⟨m', h1, by rw [h2, updLevel_const], h3⟩

/-- **C21** for `bfs_children()` / forests. -/
theorem c21_mapBfsForest {x : Var} {p : Path} {v : Val α} {us : List (RTree α)} (hx : m.view x = some v)
    (hv : v.isIter = false) (hp : kidsAt v.kids p = some us) (f : Nat → α → α) :
    ∃ m', step m (.mapBfsForest x p f) = .ok m' (.var m.fresh) ∧ Reachable m' ∧ m'.view m.fresh = some (.forest (updLevelL f us)) ∧
      m'.Contiguous m.fresh ∧ (∀ z, z ≠ m.fresh → m'.view z = m.view z) ∧ m'.store.dropped = m.store.dropped := by
  have hx' : m.store.vars x = some v := hx
  obtain ⟨m', h1, h2, h3⟩ := step_ok hr (op := .mapBfsForest x p f) (by simp only [specStep, Store.onKids, hx', hv, hp]; rfl)
  obtain ⟨g1, g2, g3⟩ := view_bind h2
  obtain ⟨K, M⟩ := Proof.reachable_minv hr
  exact ⟨m', h1, h3, g1, (mapBfsForest_block M).contiguous h3 h1, g2, g3⟩

theorem c21_mapBfsForest_fn {x : Var} {p : Path} {v : Val α} {us : List (RTree α)} (hx : m.view x = some v)
    (hv : v.isIter = false) (hp : kidsAt v.kids p = some us) (f : α → α) :
    ∃ m', step m (.mapBfsForest x p (fun _ => f)) = .ok m' (.var m.fresh) ∧ m'.view m.fresh = some (.forest (us.map (RTree.map f))) ∧
      (∀ z, z ≠ m.fresh → m'.view z = m.view z) := by
  obtain ⟨m', h1, _, h2, _, h3, _⟩ := c21_mapBfsForest hr hx hv hp (fun _ => f)
  exact ⟨m', h1, by rw [h2, updLevelL_const, mapL_eq], h3⟩

/-- The owning versions: `Tree::from(tree.into_bfs().map(f))`. -/
theorem c21_rebuildTree {x : Var} {t : RTree α} (hx : m.view x = some (.tree t)) (f : Nat → α → α) :
    ∃ m', step m (.rebuild x f) = .ok m' (.var m.fresh) ∧ Reachable m' ∧ m'.view m.fresh = some (.tree (t.updLevel f)) ∧
      m'.Contiguous m.fresh ∧ m'.view x = none ∧
      (∀ z, z ≠ x → z ≠ m.fresh → m'.view z = m.view z) ∧ m'.store.dropped = m.store.dropped := by
  have hx' : m.store.vars x = some (.tree t) := hx
  have hxf := fresh_ne_of_view hr hx
  have hf : m.store.fresh = m.fresh := rfl
  obtain ⟨m', h1, h2, h3⟩ := step_ok hr (op := .rebuild x f) (by simp only [specStep, hx']; rfl)
  have hvw : m'.view = m'.store.vars := rfl
  obtain ⟨K, M⟩ := Proof.reachable_minv hr
  refine ⟨m', h1, h3, ?_, (rebuild_block M).contiguous h3 h1, ?_, ?_, ?_⟩
  · rw [hvw, h2]; simp [Store.set, Store.bind, hf]
  · rw [hvw, h2]; simp [Store.set, Store.bind, hxf, hf]
  · intro z hz1 hz2; rw [hvw, h2]; simp [Store.set, Store.bind, hz1, hz2, hf]; rfl
  · rw [h2]; rfl

/-- `Forest::from(forest.into_bfs().map(f))`. -/
theorem c21_rebuildForest {x : Var} {ts : List (RTree α)} (hx : m.view x = some (.forest ts)) (f : Nat → α → α) :
    ∃ m', step m (.rebuild x f) = .ok m' (.var m.fresh) ∧ Reachable m' ∧ m'.view m.fresh = some (.forest (updLevelL f ts)) ∧
      m'.Contiguous m.fresh ∧ m'.view x = none ∧
      (∀ z, z ≠ x → z ≠ m.fresh → m'.view z = m.view z) ∧ m'.store.dropped = m.store.dropped := by
  have hx' : m.store.vars x = some (.forest ts) := hx
  have hxf := fresh_ne_of_view hr hx
  have hf : m.store.fresh = m.fresh := rfl
  obtain ⟨m', h1, h2, h3⟩ := step_ok hr (op := .rebuild x f) (by simp only [specStep, hx']; rfl)
  have hvw : m'.view = m'.store.vars := rfl
  obtain ⟨K, M⟩ := Proof.reachable_minv hr
  refine ⟨m', h1, h3, ?_, (rebuild_block M).contiguous h3 h1, ?_, ?_, ?_⟩
  · rw [hvw, h2]; simp [Store.set, Store.bind, hf]
  · rw [hvw, h2]; simp [Store.set, Store.bind, hxf, hf]
  · intro z hz1 hz2; rw [hvw, h2]; simp [Store.set, Store.bind, hz1, hz2, hf]; rfl
  · rw [h2]; rfl

/-- **C19** `Tree::from(node.bfs())` (the items are the references of the iteration; here the values they
refer to) is equal to the node's tree and stored contiguously. -/
theorem c19_from_bfs {x : Var} {l : Loc} {v : Val α} {t : RTree α} (hx : m.view x = some v) (hv : v.isIter = false)
    (hl : v.at? l = some t) :
    ∃ m', step m (.mapBfs x l (fun _ d => d)) = .ok m' (.var m.fresh) ∧ Reachable m' ∧ m'.view m.fresh = some (.tree t) ∧
      m'.Contiguous m.fresh ∧ (∀ z, z ≠ m.fresh → m'.view z = m.view z) ∧ m'.store.dropped = m.store.dropped := by
  obtain ⟨m', h1, h2, h3, h4⟩ := c21_mapBfs hr hx hv hl (fun _ d => d)
  refine ⟨m', h1, h2, ?_, h4⟩
  rw [h3, updLevel_const (fun d => d), map_id_eq]

/-- **C19** `Forest::from(forest.bfs())`, `Forest::from(node.bfs_children())`. -/
theorem c19_from_bfs_forest {x : Var} {p : Path} {v : Val α} {us : List (RTree α)} (hx : m.view x = some v)
    (hv : v.isIter = false) (hp : kidsAt v.kids p = some us) :
    ∃ m', step m (.mapBfsForest x p (fun _ d => d)) = .ok m' (.var m.fresh) ∧ Reachable m' ∧ m'.view m.fresh = some (.forest us) ∧
      m'.Contiguous m.fresh ∧ (∀ z, z ≠ m.fresh → m'.view z = m.view z) ∧ m'.store.dropped = m.store.dropped := by
  obtain ⟨m', h1, h2, h3, h4⟩ := c21_mapBfsForest hr hx hv hp (fun _ d => d)
  refine ⟨m', h1, h2, ?_, h4⟩
  rw [h3, updLevelL_const (fun d => d), mapL_id_eq]

/-- **C19** `Tree::from(tree.into_bfs())`: the same tree, now contiguous; no item is dropped. -/
theorem c19_from_intoBfs {x : Var} {t : RTree α} (hx : m.view x = some (.tree t)) :
    ∃ m', step m (.rebuild x (fun _ d => d)) = .ok m' (.var m.fresh) ∧ Reachable m' ∧ m'.view m.fresh = some (.tree t) ∧
      m'.Contiguous m.fresh ∧ m'.view x = none ∧
      (∀ z, z ≠ x → z ≠ m.fresh → m'.view z = m.view z) ∧ m'.store.dropped = m.store.dropped := by
  obtain ⟨m', h1, h2, h3, h4⟩ := c21_rebuildTree hr hx (fun _ d => d)
  refine ⟨m', h1, h2, ?_, h4⟩
  rw [h3, updLevel_const (fun d => d), map_id_eq]

/-- **C19** `Forest::from(forest.into_bfs())`. -/
theorem c19_from_intoBfs_forest {x : Var} {ts : List (RTree α)} (hx : m.view x = some (.forest ts)) :
    ∃ m', step m (.rebuild x (fun _ d => d)) = .ok m' (.var m.fresh) ∧ Reachable m' ∧ m'.view m.fresh = some (.forest ts) ∧
      m'.Contiguous m.fresh ∧ m'.view x = none ∧
      (∀ z, z ≠ x → z ≠ m.fresh → m'.view z = m.view z) ∧ m'.store.dropped = m.store.dropped := by
  obtain ⟨m', h1, h2, h3, h4⟩ := c21_rebuildForest hr hx (fun _ d => d)
  refine ⟨m', h1, h2, ?_, h4⟩
  rw [h3, updLevelL_const (fun d => d), mapL_id_eq]

/-- **C22** `into_bfs()` of a tree, `k` calls of `next()`, then the iterator is dropped: the reports are those of
`bfs()`; the items not handed out have been dropped once each, children before parents. -/
theorem c22_intoBfs {x : Var} {v : Val α} (hx : m.view x = some v) (hv : v.isIter = false) (k : Nat) :
    ∃ m' deg desc ds, step m (.intoBfs x k) =
        .ok m' (.visits deg desc ((List.range k).map (fun i => (levelOrder v.trees)[i]?.map visit))) ∧
      Reachable m' ∧ m'.view x = none ∧ (∀ z, z ≠ x → m'.view z = m.view z) ∧
      m'.store.dropped = m.store.dropped ++ ds ∧ ds = postL (bfsRest k v.trees) ∧
      (((levelOrder v.trees).take k).map data ++ ds).Perm (preL v.trees) ∧
      deg = v.trees.length ∧ desc = countL v.trees - (match v with | .tree _ => 1 | _ => 0) := by
  have hx' : m.store.vars x = some v := hx
  have hvw : ∀ m' : Machine α, m'.view = m'.store.vars := fun _ => rfl
  cases v with
  | iter _ => simp [Val.isIter] at hv
  | tree t =>
    obtain ⟨m', h1, h2, h3⟩ := step_ok hr (op := .intoBfs x k) (by simp only [specStep, hx']; rfl)
    refine ⟨m', 1, t.count - 1, _, ?_, h3, ?_, ?_, by rw [h2]; rfl, rfl, bfs_conserve k [t], rfl, by simp [Val.trees]⟩
    · rw [h1]; simp [bfsCalls, calls, Val.trees]
    · rw [hvw, h2]; simp [Store.set, Store.drop]
    · intro z hz; rw [hvw, h2]; simp [Store.set, Store.drop, hz]; rfl
  | forest ts =>
    obtain ⟨m', h1, h2, h3⟩ := step_ok hr (op := .intoBfs x k) (by simp only [specStep, hx']; rfl)
    refine ⟨m', ts.length, countL ts, _, ?_, h3, ?_, ?_, by rw [h2]; rfl, rfl, bfs_conserve k ts, rfl, by simp [Val.trees]⟩
    · rw [h1]; simp [bfsCalls, calls, Val.trees]
    · rw [hvw, h2]; simp [Store.set, Store.drop]
    · intro z hz; rw [hvw, h2]; simp [Store.set, Store.drop, hz]; rfl

/-- **C22** exhausting the iterator drops nothing. -/
theorem c22_exhausted {x : Var} {v : Val α} (hx : m.view x = some v) (hv : v.isIter = false) (k : Nat) (hk : countL v.trees ≤ k) :
    ∃ m' o, step m (.intoBfs x k) = .ok m' o ∧ m'.store.dropped = m.store.dropped := by
  obtain ⟨m', deg, desc, ds, h1, _, _, _, h2, h3, h4, _⟩ := c22_intoBfs hr hx hv k
  refine ⟨m', _, h1, ?_⟩
  have h5 := h4.length_eq
  have h6 := (levelOrder_once v.trees).2.2.2.length_eq
  have h7 := (levelOrder_once v.trees).1
  simp only [List.length_append, List.length_map, List.length_take] at h5 h6
  have : ds.length = 0 := by omega
  rw [h2, List.length_eq_zero_iff.mp this]; simp

/-- **C23** `bfs_mut()` of a root: `k` calls of `next()`, the data of the `j`-th visit updated with `f j`: the reports are those
of `bfs()` (with the data before the update), exactly the first `k` nodes in level order are updated. -/
theorem c23_bfsMut_root {x : Var} {t : RTree α} (hx : m.view x = some (.tree t)) (k : Nat) (f : Nat → α → α) :
    ∃ m', step m (.bfsMut x .root k f) =
        .ok m' (.visits 1 (t.count - 1) ((List.range k).map (fun i => (levelOrder [t])[i]?.map visit))) ∧ Reachable m' ∧
      m'.view x = some (.tree (t.updLevel (fun j d => if j < k then f j d else d))) ∧
      (∀ z, z ≠ x → m'.view z = m.view z) ∧ m'.store.dropped = m.store.dropped := by
  have hx' : m.store.vars x = some (.tree t) := hx
  obtain ⟨m', h1, h2, h3⟩ := step_ok hr (op := .bfsMut x .root k f) (by
    simp only [specStep, Store.onNode, hx', Val.isIter]; rfl)
  have hvw : m'.view = m'.store.vars := rfl
  refine ⟨m', by rw [h1]; simp [bfsCalls, calls], h3, ?_, ?_, ?_⟩
  · rw [hvw, h2]; simp [Store.set]; rfl
  · intro z hz; rw [hvw, h2]; simp [Store.set, hz]; rfl
  · rw [h2]; rfl

/-- **C23** `bfs_mut()` of any other node. -/
theorem c23_bfsMut_child {x : Var} {q : Path} {v : Val α} {l r : List (RTree α)} {t : RTree α} (hx : m.view x = some v)
    (hv : v.isIter = false) (hp : kidsAt v.kids q = some (l ++ t :: r)) (k : Nat) (f : Nat → α → α) :
    ∃ m', step m (.bfsMut x (.child q l.length) k f) =
        .ok m' (.visits 1 (t.count - 1) ((List.range k).map (fun i => (levelOrder [t])[i]?.map visit))) ∧ Reachable m' ∧
      m'.view x = some (v.setKids (modKids v.kids q
        (fun _ => l ++ t.updLevel (fun j d => if j < k then f j d else d) :: r))) ∧
      (∀ z, z ≠ x → m'.view z = m.view z) ∧ m'.store.dropped = m.store.dropped := by
  have hx' : m.store.vars x = some v := hx
  have hg : (l ++ t :: r)[l.length]? = some t := by simp
  obtain ⟨m', h1, h2, h3⟩ := step_ok hr (op := .bfsMut x (.child q l.length) k f) (by
    simp only [specStep, Store.onNode, hx', hv, hp, hg]; rfl)
  have hvw : m'.view = m'.store.vars := rfl
  refine ⟨m', by rw [h1]; simp [bfsCalls, calls], h3, ?_, ?_, ?_⟩
  · rw [hvw, h2]
    simp only [Store.setKids, Store.set, if_true]
    congr 2
    have := modKids_congr (f := fun us : List (RTree α) => us.set l.length (t.updLevel (first k f)))
      (g := fun _ => l ++ t.updLevel (first k f) :: r) hp (by simp)
    rw [this]; rfl
  · intro z hz; rw [hvw, h2]; simp [Store.setKids, Store.set, hz]; rfl
  · rw [h2]; rfl

/-- **C23** `bfs_children_mut()` of a node, `bfs_mut()` of a forest. -/
theorem c23_bfsChildrenMut {x : Var} {p : Path} {v : Val α} {us : List (RTree α)} (hx : m.view x = some v)
    (hv : v.isIter = false) (hp : kidsAt v.kids p = some us) (k : Nat) (f : Nat → α → α) :
    ∃ m', step m (.bfsChildrenMut x p k f) =
        .ok m' (.visits us.length (countL us) ((List.range k).map (fun i => (levelOrder us)[i]?.map visit))) ∧ Reachable m' ∧
      m'.view x = some (v.setKids (modKids v.kids p (fun us => updLevelL (fun j d => if j < k then f j d else d) us))) ∧
      (∀ z, z ≠ x → m'.view z = m.view z) ∧ m'.store.dropped = m.store.dropped := by
  have hx' : m.store.vars x = some v := hx
  obtain ⟨m', h1, h2, h3⟩ := step_ok hr (op := .bfsChildrenMut x p k f) (by simp only [specStep, Store.onKids, hx', hv, hp]; rfl)
  have hvw : m'.view = m'.store.vars := rfl
  refine ⟨m', by rw [h1]; simp [bfsCalls, calls], h3, ?_, ?_, ?_⟩
  · rw [hvw, h2]; simp [Store.setKids, Store.set]; rfl
  · intro z hz; rw [hvw, h2]; simp [Store.setKids, Store.set, hz]; rfl
  · rw [h2]; rfl

end

/-! ### C20 -/

/-- The variables a call names. -/
def Op.names : Op α → List Var
  | .treeNew _ => []
  | .forestNew => []
  | .pushFront x _ y => [x, y]
  | .pushBack x _ y => [x, y]
  | .popFront x _ => [x]
  | .popBack x _ => [x]
  | .prepend x _ y => [x, y]
  | .append x _ y => [x, y]
  | .insertPrevSib x _ y => [x, y]
  | .insertNextSib x _ y => [x, y]
  | .detach x _ => [x]
  | .abandon x => [x]
  | .setData x _ _ => [x]
  | .drop x => [x]
  | .intoIter x => [x]
  | .iterNext x => [x]
  | .iterLen x => [x]
  | .data x _ => [x]
  | .degree x _ => [x]
  | .nodeCount x _ => [x]
  | .hasNoChild x _ => [x]
  | .childData x _ => [x]
  | .frontData x _ => [x]
  | .backData x _ => [x]
  | .mapBfs x _ _ => [x]
  | .mapBfsForest x _ _ => [x]
  | .rebuild x _ => [x]
  | .bfs x _ _ => [x]
  | .bfsChildren x _ _ => [x]
  | .intoBfs x _ => [x]
  | .bfsMut x _ _ _ => [x]
  | .bfsChildrenMut x _ _ _ => [x]
  | .treeFromTuple _ => []
  | .forestFromTuple _ => []

namespace Proof

/-- The state of an outcome. -/
def stateOr {σ : Type} (s : σ) : Outcome σ α → σ
  | .ok s' _ => s'
  | .panic s' => s'
  | _ => s

theorem spec_frame (S : Store α) (op : Op α) (z : Var) (hz : z ∉ op.names) (hf : z < S.fresh) :
    (stateOr S (specStep S op)).vars z = S.vars z ∧ S.fresh ≤ (stateOr S (specStep S op)).fresh := by
  have hne : z ≠ S.fresh := Nat.ne_of_lt hf
  cases op <;> simp only [Op.names, List.mem_cons, List.not_mem_nil, or_false, not_or] at hz <;>
    simp only [specStep, Store.takeTree, Store.takeForest, Store.onKids, Store.onNode] <;>
    (repeat' split) <;>
    simp_all [stateOr, Store.bind, Store.set, Store.drop, Store.setKids]

end Proof

/-- **C20** independence: whatever a program does that does not name variable `z`, the value in `z`
stays the same. (A clone is in a variable of its own: `c20_clone`.) -/
theorem c20_independent (z : Var) : ∀ (ops : List (Op α)) {m : Machine α}, Reachable m → z < m.fresh →
    (∀ op ∈ ops, z ∉ op.names) → (exec step m ops).1.view z = m.view z := by
  intro ops
  induction ops with
  | nil => intro m _ _ _; rfl
  | cons op ops ih =>
    intro m hr hf h
    have h1 := c10_step hr op
    have hz := Proof.spec_frame m.store op z (h op (by simp)) hf
    rw [← h1] at hz
    have hvw : ∀ m' : Machine α, m'.view = m'.store.vars := fun _ => rfl
    cases e : step m op with
    | ok m' o =>
      rw [e] at hz
      simp only [Outcome.map, Proof.stateOr] at hz
      have := ih (m := m') (.ok hr e) (Nat.lt_of_lt_of_le hf hz.2) (fun op' h' => h op' (by simp [h']))
      simp only [exec, e, this]
      exact hz.1
    | panic m' =>
      rw [e] at hz
      simp only [Outcome.map, Proof.stateOr] at hz
      have := ih (m := m') (.panic hr e) (Nat.lt_of_lt_of_le hf hz.2) (fun op' h' => h op' (by simp [h']))
      simp only [exec, e, this]
      exact hz.1
    | rejected =>
      have := ih hr hf (fun op' h' => h op' (by simp [h']))
      simp only [exec, e, this]
    | bad =>
      have := ih hr hf (fun op' h' => h op' (by simp [h']))
      simp only [exec, e, this]

theorem step_fresh_var {m m' : Machine α} (hr : Reachable m) {op : Op α} (h : step m op = .ok m' (.var m.fresh))
    (hv : (m'.view m.fresh).isSome) : m.fresh < m'.fresh := by
  have hr' : Reachable m' := .ok hr h
  obtain ⟨K, M⟩ := Proof.reachable_minv hr'
  rcases Nat.lt_or_ge m.fresh m'.fresh with h1 | h1
  · exact h1
  · have := M.fr m.fresh h1
    simp [Machine.view, this] at hv

/-- **C20** `deep_clone()` / `clone()` (`f` is `T::clone`, which returns an equal value): the new variable
holds an equal tree in a block of its own; no node is shared with any other variable; whatever later happens
to the original, its drop included, the clone stays the same, and the other way round. -/
theorem c20_clone {m : Machine α} (hr : Reachable m) {x : Var} {l : Loc} {v : Val α} {t : RTree α} (hx : m.view x = some v)
    (hv : v.isIter = false) (hl : v.at? l = some t) {f : α → α} (hf : ∀ d, f d = d) :
    ∃ m', step m (.mapBfs x l (fun _ => f)) = .ok m' (.var m.fresh) ∧ Reachable m' ∧
      m'.view m.fresh = some (.tree t) ∧ m'.view x = some v ∧ m'.Contiguous m.fresh ∧
      (∀ z a, m'.Holds m.fresh a → m'.Holds z a → z = m.fresh) ∧
      (∀ ops : List (Op α), (∀ op ∈ ops, m.fresh ∉ op.names) → (exec step m' ops).1.view m.fresh = some (.tree t)) ∧
      (∀ ops : List (Op α), (∀ op ∈ ops, x ∉ op.names) → (exec step m' ops).1.view x = some v) := by
  have e : f = fun d => d := funext hf
  subst e
  obtain ⟨m', h1, h2, h3, h4, h5, h6⟩ := c19_from_bfs hr hx hv hl
  have hxf := fresh_ne_of_view hr hx
  have h7 := h5 x hxf
  have h8 : m.fresh < m'.fresh := step_fresh_var hr h1 (by rw [h3]; rfl)
  refine ⟨m', h1, h2, h3, h7.trans hx, h4, ?_, ?_, ?_⟩
  · rintro z a ⟨p, hp⟩ ⟨q, hq⟩
    exact (c14_no_sharing h2 hq hp).1
  · intro ops ho; rw [c20_independent m.fresh ops h2 h8 ho]; exact h3
  · intro ops ho
    rw [c20_independent x ops h2 ?_ ho]; · exact h7.trans hx
    have : x < m.fresh := by
      obtain ⟨K, M⟩ := Proof.reachable_minv hr
      rcases Nat.lt_or_ge x m.fresh with h | h
      · exact h
      · have := M.fr x h
        simp [Machine.view, this] at hx
    exact Nat.lt_trans this h8

/-- **C20** for `deep_clone_forest()` and `Forest::clone`. -/
theorem c20_clone_forest {m : Machine α} (hr : Reachable m) {x : Var} {p : Path} {v : Val α} {us : List (RTree α)}
    (hx : m.view x = some v) (hv : v.isIter = false) (hp : kidsAt v.kids p = some us) {f : α → α} (hf : ∀ d, f d = d) :
    ∃ m', step m (.mapBfsForest x p (fun _ => f)) = .ok m' (.var m.fresh) ∧ Reachable m' ∧
      m'.view m.fresh = some (.forest us) ∧ m'.view x = some v ∧ m'.Contiguous m.fresh ∧
      (∀ z a, m'.Holds m.fresh a → m'.Holds z a → z = m.fresh) ∧
      (∀ ops : List (Op α), (∀ op ∈ ops, m.fresh ∉ op.names) → (exec step m' ops).1.view m.fresh = some (.forest us)) := by
  have e : f = fun d => d := funext hf
  subst e
  obtain ⟨m', h1, h2, h3, h4, h5, h6⟩ := c19_from_bfs_forest hr hx hv hp
  have hxf := fresh_ne_of_view hr hx
  have h8 : m.fresh < m'.fresh := step_fresh_var hr h1 (by rw [h3]; rfl)
  refine ⟨m', h1, h2, h3, (h5 x hxf).trans hx, h4, ?_, ?_⟩
  · rintro z a ⟨p, hp⟩ ⟨q, hq⟩
    exact (c14_no_sharing h2 hq hp).1
  · intro ops ho; rw [c20_independent m.fresh ops h2 h8 ho]; exact h3

/-! ### Non-vacuity -/

/-- The tree of the examples: root 0, children 1 and 2, and 5 below 1. -/
def demoT : RTree Nat := .node 0 [.node 1 [.node 5 []], .node 2 []]

example : (levelOrder [demoT]).map visit = [(0, 2, 3), (1, 1, 1), (2, 0, 0), (5, 0, 0)] := by rfl
example : demoT.updLevel (fun i d => 10 * i + d) = .node 0 [.node 11 [.node 35 []], .node 22 []] := by rfl
example : demoT.updLevel (fun i d => if i < 3 then i + d else d) = .node 0 [.node 2 [.node 5 []], .node 4 []] := by rfl

/-- C18: iterate a four-node tree, two calls past its end. -/
example : ∃ m', step demo2 (.bfs 0 .root 6) =
    .ok m' (.visits 1 3 [some (0, 2, 3), some (1, 1, 1), some (2, 0, 0), some (5, 0, 0), none, none]) := by
  obtain ⟨m', h, _⟩ := c18_bfs demo2_reachable (l := .root) demo2_view0 rfl rfl 6
  exact ⟨m', h⟩

example : ∃ m', step demo2 (.bfsChildren 0 [] 2) = .ok m' (.visits 2 3 [some (1, 1, 1), some (2, 0, 0)]) := by
  obtain ⟨m', h, _⟩ := c18_bfsChildren demo2_reachable (p := []) demo2_view0 rfl rfl 2
  exact ⟨m', h⟩

/-- C19, C20, C15: a reachable state with a tree in a contiguous block. -/
theorem demo2_clone : ∃ m', Reachable m' ∧ m'.view demo2.fresh = some (.tree demoT) ∧ m'.Contiguous demo2.fresh ∧
    m'.view 0 = some (.tree demoT) ∧
    -- the original is dropped, the clone stays
    (exec step m' [.drop 0]).1.view demo2.fresh = some (.tree demoT) := by
  obtain ⟨m', _, h1, h2, h3, h4, _, h5, _⟩ := c20_clone demo2_reachable (l := .root) demo2_view0 rfl rfl (f := fun d => d) (fun _ => rfl)
  refine ⟨m', h1, h2, h4, h3, h5 [.drop 0] ?_⟩
  simp only [List.mem_singleton, forall_eq, Op.names]
  exact fresh_ne_of_view demo2_reachable demo2_view0 ∘ Eq.symm

/-- C19: rebuilt from its own owning iteration. -/
example : ∃ m', step demo2 (.rebuild 0 (fun _ d => d)) = .ok m' (.var demo2.fresh) ∧
    m'.view demo2.fresh = some (.tree demoT) ∧ m'.Contiguous demo2.fresh ∧ m'.view 0 = none := by
  obtain ⟨m', h1, _, h2, h3, h4, _⟩ := c19_from_intoBfs demo2_reachable demo2_view0
  exact ⟨m', h1, h2, h3, h4⟩

/-- C21 with a counting closure: level-order numbering of a subtree. -/
example : ∃ m', step demo2 (.mapBfs 0 .root (fun i d => 10 * i + d)) = .ok m' (.var demo2.fresh) ∧
    m'.view demo2.fresh = some (.tree (.node 0 [.node 11 [.node 35 []], .node 22 []])) := by
  obtain ⟨m', h1, _, h2, _⟩ := c21_mapBfs demo2_reachable (l := .root) demo2_view0 rfl rfl (fun i d => 10 * i + d)
  exact ⟨m', h1, h2⟩

/-- C22: abandoned after two items; the two below are dropped. -/
example : ∃ m', step demo2 (.intoBfs 0 2) = .ok m' (.visits 1 3 [some (0, 2, 3), some (1, 1, 1)]) ∧
    m'.store.dropped = demo2.store.dropped ++ [2, 5] := by
  obtain ⟨m', deg, desc, ds, h1, _, _, _, h2, h3, _, h4, h5⟩ := c22_intoBfs demo2_reachable demo2_view0 rfl 2
  subst h4 h5 h3
  exact ⟨m', h1, h2⟩

/-- C23: three of four items updated through `bfs_mut()`. -/
example : ∃ m', step demo2 (.bfsMut 0 .root 3 (fun i d => i + d)) =
      .ok m' (.visits 1 3 [some (0, 2, 3), some (1, 1, 1), some (2, 0, 0)]) ∧
    m'.view 0 = some (.tree (.node 0 [.node 2 [.node 5 []], .node 4 []])) := by
  obtain ⟨m', h1, _, h2, _⟩ := c23_bfsMut_root demo2_reachable demo2_view0 3 (fun i d => i + d)
  exact ⟨m', h1, h2⟩

example : ∃ m' vs, step demo2 (.bfsMut 0 (.child [] 0) 2 (fun i d => i + d)) = .ok m' vs ∧
    m'.view 0 = some (.tree (.node 0 [.node 1 [.node 6 []], .node 2 []])) := by
  obtain ⟨m', h1, _, h2, _⟩ := c23_bfsMut_child demo2_reachable (q := []) (l := []) (r := [.node 2 []]) demo2_view0 rfl rfl 2 (fun i d => i + d)
  exact ⟨m', _, h1, h2⟩

/-- C15 is about reachable states: one with a block of four nodes of which all are held. -/
example : ∃ (m' : Machine Nat) (v : Nat) (nv : NodeVec), Reachable m' ∧ m'.heap.vec v = some nv ∧ nv.cap = 4 ∧ ∃ held : List Addr, held.Nodup ∧
    (∀ a, a ∈ held ↔ nv.Has a ∧ ∃ x, m'.Holds x a) ∧ nv.refCnt = held.length := by
  obtain ⟨m', h1, h2, ⟨v, nv, w, g1, g2, g3, _⟩, _⟩ := demo2_clone
  rw [h2] at g2
  cases Option.some.inj g2
  exact ⟨m', w, nv, h1, g1, g3, (c15_not_leaked h1 g1).2⟩

end Trees
