import Verif.Proof.Ident
import Verif.Props.Bfs
import Verif.Spec.Param
/-
C48: nodes keep their identity.  C49: the crate treats items as opaque.
-/
namespace Trees
set_option linter.unusedSimpArgs false
set_option linter.unusedVariables false
variable {α β : Type}

/-! ### C48 -/

section
variable {m m' : Machine α}

/-- What `lview` shows is the contents, with an address for every item. -/
theorem c48_view (hr : Reachable m) (x : Var) : (m.lview x).map (Val.map Prod.snd) = m.view x := by
  obtain ⟨K, M⟩ := Proof.reachable_minv hr
  exact M.lview_snd x

/-- **C48** (identity): different nodes of a value have different addresses, all of them in allocated memory. -/
theorem c48_distinct (hr : Reachable m) {x : Var} {v : Val (Addr × α)} (hv : m.lview x = some v) :
    (v.nodes.map Prod.fst).Nodup ∧ ∀ a ∈ v.nodes.map Prod.fst, m.heap.live a = true := by
  obtain ⟨K, M⟩ := Proof.reachable_minv hr
  obtain ⟨h1, hd, _, h2⟩ := M.lview_nodes hv
  exact ⟨h1, fun a ha => (h2 a ha).1.1⟩

/-- **C48** (identity): no node is in two values. -/
theorem c48_apart (hr : Reachable m) {x y : Var} {v w : Val (Addr × α)} (hv : m.lview x = some v) (hw : m.lview y = some w)
    (hxy : x ≠ y) : ∀ a ∈ v.nodes.map Prod.fst, a ∉ w.nodes.map Prod.fst := by
  obtain ⟨K, M⟩ := Proof.reachable_minv hr
  exact M.lview_apart hv hw hxy

/-- **C48** (calls that make no nodes).  Such a call moves, removes and updates the nodes as the specification says for
the values in which every item is paired with the address of its node: no node is ever relocated, copied or exchanged. -/
theorem c48_moves (hr : Reachable m) {S : Store (Addr × α)} (hS : m.Shows S) {op : Op α} {opL : Op (Addr × α)}
    (ho : op.onNodes S = some opL) :
    (∀ m' o, step m op = .ok m' o → ∃ S' o', specStep S opL = .ok S' o' ∧ m'.Shows S' ∧ o'.map Prod.snd = o) ∧
    (∀ m', step m op = .panic m' → ∃ S', specStep S opL = .panic S' ∧ m'.Shows S') ∧
    (step m op = .rejected ↔ specStep S opL = .rejected) := by
  obtain ⟨K, M⟩ := Proof.reachable_minv hr
  have key := shows_step M hS ho
  have e : (Val.map fun (q : Addr × α) => (id q.1, q.2)) = id := by
    funext v; exact v.map_same
  have e' : ∀ m' : Machine α, (fun x => (m'.lview x).map (Val.map fun (q : Addr × α) => (id q.1, q.2))) = m'.lview := by
    intro m'; rw [e]; simp
  refine ⟨fun m' o h => ?_, fun m' h => ?_, ?_⟩
  · rw [h] at key
    cases hs : specStep S opL <;> rw [hs] at key <;> simp only [IdRes] at key
    rw [e'] at key
    exact ⟨_, _, rfl, ⟨key.1, key.2.1, key.2.2.1⟩, key.2.2.2⟩
  · rw [h] at key
    cases hs : specStep S opL <;> rw [hs] at key <;> simp only [IdRes] at key
    rw [e'] at key
    exact ⟨_, rfl, ⟨key.1, key.2.1, key.2.2⟩⟩
  · constructor
    · intro h; rw [h] at key
      cases hs : specStep S opL <;> rw [hs] at key <;> simp only [IdRes] at key
    · intro h; rw [h] at key
      cases hs : step m op <;> rw [hs] at key <;> simp only [IdRes] at key

/-- What a state shows with addresses always exists. -/
theorem c48_shows (m : Machine α) : m.Shows ⟨m.lview, m.fresh, m.heap.log.map fun d => (0, d)⟩ :=
  ⟨rfl, rfl, map_pair_snd _ _⟩

/-- **C48** (every call).  With every item tagged by the node of the state before the call that it is in (`none` if that
node has been made by the call), the call does what `tagStep` says. -/
theorem c48_step (hr : Reachable m) (op : Op α) :
    (∀ m' o, step m op = .ok m' o → ∃ S o', tagStep (m.tags m) op = .ok S o' ∧ S.vars = (m.tags m').vars ∧
      S.fresh = m'.fresh ∧ S.dropped.map Prod.snd = m'.heap.log ∧ o'.map Prod.snd = o) ∧
    (∀ m', step m op = .panic m' → ∃ S, tagStep (m.tags m) op = .panic S ∧ S.vars = (m.tags m').vars ∧
      S.fresh = m'.fresh ∧ S.dropped.map Prod.snd = m'.heap.log) ∧
    (step m op = .rejected ↔ tagStep (m.tags m) op = .rejected) := by
  obtain ⟨K, M⟩ := Proof.reachable_minv hr
  have key := ident_step M op
  refine ⟨fun m' o h => ?_, fun m' h => ?_, ?_⟩
  · rw [h] at key
    cases hs : tagStep (m.tags m) op <;> rw [hs] at key <;> simp only [IdRes] at key
    exact ⟨_, _, rfl, key⟩
  · rw [h] at key
    cases hs : tagStep (m.tags m) op <;> rw [hs] at key <;> simp only [IdRes] at key
    exact ⟨_, rfl, key⟩
  · constructor
    · intro h; rw [h] at key
      cases hs : tagStep (m.tags m) op <;> rw [hs] at key <;> simp only [IdRes] at key
    · intro h; rw [h] at key
      cases hs : step m op <;> rw [hs] at key <;> simp only [IdRes] at key
end

namespace Proof

theorem tag_live {m : Machine α} {a : Addr} (h : m.heap.live a = true) : m.tag a = some a := by simp [Machine.tag, h]
theorem tag_eq {m : Machine α} {a b : Addr} (h : m.tag b = some a) : b = a := by
  simp only [Machine.tag] at h
  split at h
  · exact Option.some.inj h
  · simp at h

mutual
theorem tags_tree {m : Machine α} : ∀ {t t' : RTree (Addr × α)}, (∀ a ∈ t.pre.map Prod.fst, m.heap.live a = true) →
    t'.map (fun q => (m.tag q.1, q.2)) = t.map (fun q => (m.tag q.1, q.2)) → t' = t
  | .node (a, d) ts, .node (a', d') ts', hl, h => by
    simp only [RTree.map, RTree.node.injEq, Prod.mk.injEq] at h
    simp only [RTree.pre, List.map_cons, List.mem_cons, forall_eq_or_imp] at hl
    rw [tag_live hl.1] at h
    rw [tag_eq h.1.1, h.1.2, tags_list hl.2 h.2]
theorem tags_list {m : Machine α} : ∀ {ts ts' : List (RTree (Addr × α))}, (∀ a ∈ (RTree.preL ts).map Prod.fst, m.heap.live a = true) →
    RTree.mapL (fun q => (m.tag q.1, q.2)) ts' = RTree.mapL (fun q => (m.tag q.1, q.2)) ts → ts' = ts
  | [], [], _, _ => rfl
  | [], _ :: _, _, h => by simp [RTree.mapL] at h
  | _ :: _, [], _, h => by simp [RTree.mapL] at h
  | t :: ts, t' :: ts', hl, h => by
    simp only [RTree.mapL, List.cons.injEq] at h
    simp only [RTree.preL, List.map_append, List.mem_append] at hl
    rw [tags_tree (fun a ha => hl a (.inl ha)) h.1, tags_list (fun a ha => hl a (.inr ha)) h.2]
end

theorem tags_val {m : Machine α} {v v' : Val (Addr × α)} (hl : ∀ a ∈ v.nodes.map Prod.fst, m.heap.live a = true)
    (h : v'.map (fun q => (m.tag q.1, q.2)) = v.map (fun q => (m.tag q.1, q.2))) : v' = v := by
  cases v <;> cases v' <;> simp only [Val.map, Val.tree.injEq, Val.forest.injEq, Val.iter.injEq, reduceCtorEq] at h
  · rw [tags_tree hl h]
  · rw [tags_list hl h]
  · rw [tags_list hl h]

theorem tags_lview {m m' : Machine α} (hr : Reachable m) {x z : Var} (h : (m.tags m').vars x = (m.tags m).vars z) :
    m'.lview x = m.lview z := by
  simp only [Machine.tags] at h
  cases h1 : m.lview z with
  | none => rw [h1] at h; simpa using h
  | some v =>
    rw [h1] at h
    simp only [Option.map_some, Option.map_eq_some_iff] at h
    obtain ⟨v', h2, h3⟩ := h
    rw [h2, tags_val (c48_distinct hr h1).2 h3]

theorem tag_frame (S : Store (Tagged α)) (op : Op α) (z : Var) (hz : z ∉ op.names) (hf : z < S.fresh) :
    (stateOr S (tagStep S op)).vars z = S.vars z := by
  cases op with
  | abandon x =>
    simp only [Op.names, List.mem_cons, List.not_mem_nil, or_false] at hz
    simp only [tagStep]
    have hne : z ≠ S.fresh := Nat.ne_of_lt hf
    split <;> simp [stateOr, Store.bind, Store.set, hz, hne]
  | _ => simp only [tagStep]; refine (spec_frame S _ z ?_ hf).1; exact hz
end Proof

section
variable {m m' : Machine α}

/-- **C48**: a call that does not name the value in `z` leaves every node of it where it is. -/
theorem c48_frame (hr : Reachable m) {op : Op α} {z : Var} (hz : z ∉ op.names) (hf : z < m.fresh) :
    (∀ o, step m op = .ok m' o → m'.lview z = m.lview z) ∧ (step m op = .panic m' → m'.lview z = m.lview z) := by
  have hfr := Proof.tag_frame (m.tags m) op z hz hf
  obtain ⟨h1, h2, _⟩ := c48_step hr op
  constructor
  · intro o h
    obtain ⟨S, o', e, hv, _⟩ := h1 m' o h
    rw [e] at hfr
    exact Proof.tags_lview hr (by rw [← hv]; exact hfr)
  · intro h
    obtain ⟨S, e, hv, _⟩ := h2 m' h
    rw [e] at hfr
    exact Proof.tags_lview hr (by rw [← hv]; exact hfr)

/-- **C48** (whole programs): whatever a program does without naming `z`, every node of the value in `z` stays at its
address. -/
theorem c48_program (z : Var) : ∀ (ops : List (Op α)) {m : Machine α}, Reachable m → z < m.fresh →
    (∀ op ∈ ops, z ∉ op.names) → (exec step m ops).1.lview z = m.lview z := by
  intro ops
  induction ops with
  | nil => intro m _ _ _; rfl
  | cons op ops ih =>
    intro m hr hf h
    have h1 := c10_step hr op
    have hz := (Proof.spec_frame m.store op z (h op (by simp)) hf).2
    rw [← h1] at hz
    cases e : step m op with
    | ok m' o =>
      rw [e] at hz
      simp only [Outcome.map, Proof.stateOr] at hz
      have := ih (m := m') (.ok hr e) (Nat.lt_of_lt_of_le hf hz) (fun op' h' => h op' (by simp [h']))
      simp only [exec, e, this]
      exact (c48_frame hr (h op (by simp)) hf).1 o e
    | panic m' =>
      rw [e] at hz
      simp only [Outcome.map, Proof.stateOr] at hz
      have := ih (m := m') (.panic hr e) (Nat.lt_of_lt_of_le hf hz) (fun op' h' => h op' (by simp [h']))
      simp only [exec, e, this]
      exact (c48_frame hr (h op (by simp)) hf).2 e
    | rejected =>
      have := ih hr hf (fun op' h' => h op' (by simp [h']))
      simp only [exec, e, this]
    | bad =>
      have := ih hr hf (fun op' h' => h op' (by simp [h']))
      simp only [exec, e, this]

/-- **C48** (`push_back`): the pushed tree becomes the last child with all its nodes, and the other nodes stay. -/
theorem c48_push_back (hr : Reachable m) {x y : Var} {q : Addr × α} {ts : List (RTree (Addr × α))} {t : RTree (Addr × α)}
    (hxy : x ≠ y) (hx : m.lview x = some (.tree (.node q ts))) (hy : m.lview y = some (.tree t)) :
    ∃ m', step m (.pushBack x [] y) = .ok m' .unit ∧ m'.lview x = some (.tree (.node q (ts ++ [t]))) ∧ m'.lview y = none := by
  have hx' := c48_view hr x
  have hy' := c48_view hr y
  rw [hx] at hx'
  rw [hy] at hy'
  simp only [Option.map_some, Val.map, RTree.map] at hx' hy'
  obtain ⟨m', h1, _, _⟩ := step_ok hr (op := .pushBack x [] y) (S := _) (o := .unit) (by
    simp only [specStep, Store.takeTree, Store.onKids, hxy, if_false, show m.store.vars y = _ from hy'.symm,
      show m.store.vars x = _ from hx'.symm, Val.isIter, Bool.false_eq_true, kidsAt]; rfl)
  refine ⟨m', h1, ?_⟩
  obtain ⟨S', o', e, hS, _⟩ := (c48_moves hr (c48_shows m) (op := .pushBack x [] y) rfl).1 m' _ h1
  simp only [specStep, Store.takeTree, Store.onKids, hxy, if_false, hx, hy, Val.isIter, Bool.false_eq_true, kidsAt,
    Outcome.ok.injEq] at e
  rw [← hS.vars, ← e.1]
  constructor
  · simp [Store.set, Store.setKids, Val.setKids, Val.kids, modKids, hxy, RTree.kids]
  · simp [Store.set, Store.setKids, Ne.symm hxy]

/-- **C48** (`detach`): the detached tree consists of the very nodes that were in the place. -/
theorem c48_detach (hr : Reachable m) {x : Var} {v : Val (Addr × α)} {q : Path} {i : Nat} {us : List (RTree (Addr × α))} {t : RTree (Addr × α)}
    (hx : m.lview x = some v) (hv : v.isIter = false) (hq : kidsAt v.kids q = some us) (hi : us[i]? = some t)
    {o : Out α} (h : step m (.detach x (.child q i)) = .ok m' o) :
    o = .var m.fresh ∧ m'.lview m.fresh = some (.tree t) ∧
      (x ≠ m.fresh → m'.lview x = some (v.setKids (modKids v.kids q fun us => us.eraseIdx i))) := by
  obtain ⟨S', o', e, hS, ho⟩ := (c48_moves hr (c48_shows m) (op := .detach x (.child q i)) rfl).1 m' _ h
  simp only [specStep, Store.onNode, hx, hv, hq, hi, Bool.false_eq_true, if_false, Outcome.ok.injEq] at e
  rw [← hS.vars, ← e.1]
  rw [← e.2] at ho
  refine ⟨ho.symm, ?_, fun hne => ?_⟩
  · simp [Store.bind, Store.setKids, Store.set]
  · simp [Store.bind, Store.setKids, Store.set, hne]

/-- **C48** (`abandon`): the children stay in their nodes, but the item of the root goes to a new node: the handle of
the tree does not refer to the node it referred to before. -/
theorem c48_abandon (hr : Reachable m) {x : Var} {q : Addr × α} {ts : List (RTree (Addr × α))} (hf : x ≠ m.fresh)
    (hx : m.lview x = some (.tree (.node q ts))) {o : Out α} (h : step m (.abandon x) = .ok m' o) :
    m'.lview m.fresh = some (.forest ts) ∧
      ∃ a, m.heap.live a = false ∧ m'.lview x = some (.tree (.node (a, q.2) [])) := by
  obtain ⟨S, o', e, hv, _⟩ := (c48_step hr (.abandon x)).1 m' o h
  have hx' : (m.tags m).vars x = some (.tree (RTree.map (fun q => (m.tag q.1, q.2)) (.node q ts))) := by
    simp only [Machine.tags, hx, Option.map_some]; rfl
  simp only [tagStep, hx', Outcome.ok.injEq, RTree.map, RTree.data, RTree.kids] at e
  have hv1 := congrFun hv m.fresh
  have hv2 := congrFun hv x
  rw [← e.1] at hv1 hv2
  have hfr : (m.tags m).fresh = m.fresh := rfl
  simp only [Store.bind, Store.set, hfr, if_true, hf, if_false] at hv1 hv2
  simp only [Machine.tags] at hv1 hv2
  constructor
  · obtain ⟨v', h1, h2⟩ := Option.map_eq_some_iff.mp hv1.symm
    rw [h1]
    congr 1
    refine Proof.tags_val (v := .forest ts) ?_ h2
    intro a ha
    have := (c48_distinct hr hx).2 a
    simp only [Val.nodes, RTree.pre, List.map_cons, List.mem_cons] at this
    exact this (.inr ha)
  · obtain ⟨v', h1, h2⟩ := Option.map_eq_some_iff.mp hv2.symm
    cases v' with
    | tree t =>
      cases t with
      | node p us =>
        simp only [Val.map, RTree.map, Val.tree.injEq, RTree.node.injEq, Prod.mk.injEq] at h2
        obtain ⟨⟨g1, g2⟩, g3⟩ := h2
        cases us with
        | cons _ _ => simp [RTree.mapL] at g3
        | nil =>
          refine ⟨p.1, ?_, by rw [h1, ← g2]⟩
          simp only [Machine.tag] at g1
          split at g1
          · simp at g1
          · rename_i hh; exact Bool.eq_false_iff.mpr hh
    | forest _ => simp [Val.map] at h2
    | iter _ => simp [Val.map] at h2
end

/-! ### C49 -/

namespace Proof

/-- Any items anywhere. -/
def freeC (g : β → α) : NCtx β α := ⟨g, fun _ _ => True, fun _ => True, 0, 0, fun _ _ _ _ => trivial⟩

theorem like_rel {g : β → α} {op : Op β} {op' : Op α} (h : op.Like g op') : OpRel (freeC g) op op' := by
  cases op <;> cases op' <;> simp only [Op.Like] at h
  case treeFromTuple.treeFromTuple t t' => exact ⟨_, id, g, t, fun _ => ⟨rfl, trivial⟩, (Tup.map_same t).symm, h.symm⟩
  case forestFromTuple.forestFromTuple t t' => exact ⟨_, id, g, t, fun _ => ⟨rfl, trivial⟩, (Tup.mapL_same t).symm, h.symm⟩
  all_goals simp only [OpRel, CRel, FRel, IRel, freeC, and_true, implies_true, true_implies]
  all_goals first
    | exact h
    | exact ⟨h.1, h.2.1, h.2.2.1, fun _ => h.2.2.2⟩

theorem mrel_empty (g : β → α) : MRel (freeC g) Machine.empty Machine.empty := by
  refine ⟨⟨rfl, rfl, rfl, rfl, rfl, rfl, rfl, rfl, rfl, rfl, rfl, rfl, rfl, fun a => rfl, fun _ _ _ => trivial, Nat.zero_le _, Nat.zero_le _,
    fun _ _ _ _ => Nat.zero_le _⟩, rfl, rfl⟩

theorem mrel_view {g : β → α} {m : Machine β} {m' : Machine α} {K} (r : MRel (freeC g) m m') (M' : MInv m' K) (x : Var) :
    m'.view x = (m.view x).map (Val.map g) := by
  have M := r.minv M'
  cases hx : m.env x with
  | none =>
    have hx' := hx
    rw [r.env] at hx'
    simp [Machine.view, hx, hx']
  | some hd =>
    have hx' := hx
    rw [r.env] at hx'
    have := M.abs_store.vars x
    rw [hx] at this
    obtain ⟨v, e, hv⟩ := this
    rw [show m.view x = some v from e, Option.map_some]
    refine M'.view_of_den hx' ?_
    have h2 := (HDenV_val.mpr hv).mapF g
    have e2 : (fun a => (m.heap.val a).map g) = m'.heap.val := by
      funext a; rw [r.heap.val a]; rfl
    rwa [e2] at h2
end Proof

/-- **C49** (opacity).  Take any program and change all items in it by a function `g` (closures accordingly).  Then the
whole run changes by `g`: same results, same panics, same rejections, same shapes, same destructions in the same order,
only with the items changed.  The crate never looks at an item, and never makes, loses or exchanges one. -/
theorem c49_opaque (g : β → α) {ops : List (Op β)} {ops' : List (Op α)} (h : List.Forall₂ (Op.Like g) ops ops') :
    (exec step Machine.empty ops').2 = (exec step Machine.empty ops).2.map (Outcome.mapOut g) ∧
    (∀ x, (exec step Machine.empty ops').1.view x = ((exec step Machine.empty ops).1.view x).map (Val.map g)) ∧
    (exec step Machine.empty ops').1.heap.log = (exec step Machine.empty ops).1.heap.log.map g := by
  have key : ∀ {ops : List (Op β)} {ops' : List (Op α)}, List.Forall₂ (Op.Like g) ops ops' → ∀ {m : Machine β} {m' : Machine α},
      MRel (Proof.freeC g) m m' → (exec step m' ops').2 = (exec step m ops).2.map (Outcome.mapOut g) ∧
      MRel (Proof.freeC g) (exec step m ops).1 (exec step m' ops').1 := by
    intro ops ops' h
    induction h with
    | nil => intro m m' r; exact ⟨rfl, r⟩
    | cons h1 _ ih =>
      rename_i op op' ops ops' _
      intro m m' r
      have hs := nat_step r (Proof.like_rel h1)
      simp only [exec]
      revert hs
      generalize step m op = q
      generalize step m' op' = q'
      intro hs
      match q, q', hs with
      | .ok m1 o, .ok m1' o', hs =>
        obtain ⟨g1, g2⟩ := ih hs.1
        refine ⟨?_, g2⟩
        simp only [List.map_cons, ← g1, ← hs.2]; rfl
      | .panic m1, .panic m1', hs =>
        obtain ⟨g1, g2⟩ := ih hs
        exact ⟨by simp only [List.map_cons, ← g1]; rfl, g2⟩
      | .rejected, .rejected, hs =>
        obtain ⟨g1, g2⟩ := ih r
        exact ⟨by simp only [List.map_cons, ← g1]; rfl, g2⟩
      | .bad, .bad, hs =>
        obtain ⟨g1, g2⟩ := ih r
        exact ⟨by simp only [List.map_cons, ← g1]; rfl, g2⟩
  obtain ⟨h1, h2⟩ := key h (Proof.mrel_empty g)
  obtain ⟨K, M⟩ := Proof.reachable_minv (exec_reachable (α := α) ops')
  exact ⟨h1, Proof.mrel_view h2 M, h2.heap.log.symm⟩

/-! ### Concrete cases -/

theorem demo_lview0 : demo.lview 0 = some (.tree (.node (0, 0) [.node (1, 1) [], .node (2, 2) []])) := by rfl
theorem demo_lview3 : demo.lview 3 = some (.tree (.node (3, 3) [])) := by rfl

/-- `push_back` in the example: node 3 becomes the last child of node 0. -/
example : ∃ m', step demo (.pushBack 0 [] 3) = .ok m' .unit ∧
    m'.lview 0 = some (.tree (.node (0, 0) [.node (1, 1) [], .node (2, 2) [], .node (3, 3) []])) := by
  obtain ⟨m', h1, h2, _⟩ := c48_push_back demo_reachable (by decide) demo_lview0 demo_lview3
  exact ⟨m', h1, h2⟩

/-- `abandon` in the example: the root item is in the new node 4, the nodes 1 and 2 stay. -/
example : ∃ m', step demo (.abandon 0) = .ok m' (.var 4) ∧ m'.lview 0 = some (.tree (.node (4, 0) [])) ∧
    m'.lview 4 = some (.forest [.node (1, 1) [], .node (2, 2) []]) := ⟨_, rfl, rfl, rfl⟩

/-- `detach` in the example: node 2 leaves node 0. -/
example : ∃ m', step demo (.detach 0 (.child [] 1)) = .ok m' (.var 4) ∧ m'.lview 4 = some (.tree (.node (2, 2) [])) ∧
    m'.lview 0 = some (.tree (.node (0, 0) [.node (1, 1) []])) := by
  have h : ∃ m', step demo (.detach 0 (.child [] 1)) = .ok m' (.var 4) := ⟨_, rfl⟩
  obtain ⟨m', h⟩ := h
  obtain ⟨_, h2, h3⟩ := c48_detach demo_reachable demo_lview0 rfl (q := []) (i := 1) rfl rfl h
  exact ⟨m', h, h2, h3 (by decide)⟩

/-- The program of `demo` on Boolean items. -/
example : List.Forall₂ (Op.Like fun n : Nat => n % 2 == 0) demoOps
    [.treeNew true, .treeNew false, .treeNew true, .treeNew false, .pushBack 0 [] 1, .pushBack 0 [] 2] := by
  simp [demoOps, Op.Like]

end Trees
