import Verif.Proof.PinItem
import Verif.Props.Pin
/-
C72, C48: the item of a node stays in the node until it is assigned.
-/
namespace Trees
set_option linter.unusedSimpArgs false
set_option linter.unusedVariables false
variable {α : Type}
open RTree

namespace Proof

mutual
theorem lab_tree {h : Heap α} {K : Addr → List Addr} : ∀ {a : Addr} {t : RTree (Addr × α)}, Den h.lab K a t → ∀ q ∈ t.pre, h.val q.1 = some q.2
  | a, .node d ts, hd => by
    rw [Den_node] at hd
    intro q hq
    simp only [RTree.pre, List.mem_cons] at hq
    rcases hq with rfl | hq
    · exact Heap.lab_some.mp hd.1 |>.1 ▸ (Heap.lab_some.mp hd.1).2
    · exact lab_list hd.2 q hq
theorem lab_list {h : Heap α} {K : Addr → List Addr} : ∀ {cs : List Addr} {ts : List (RTree (Addr × α))}, DenL h.lab K cs ts → ∀ q ∈ preL ts, h.val q.1 = some q.2
  | [], [], _ => by simp [RTree.preL]
  | [], t :: ts, hd => by simp at hd
  | c :: cs, [], hd => by simp at hd
  | c :: cs, t :: ts, hd => by
    simp only [DenL_cons] at hd
    intro q hq
    simp only [RTree.preL, List.mem_append] at hq
    rcases hq with hq | hq
    · exact lab_tree hd.1 q hq
    · exact lab_list hd.2 q hq
end

theorem nodes_val {m : Machine α} {K : Addr → List Addr} (M : MInv m K) {x : Var} {v : Val (Addr × α)} (hv : m.lview x = some v) :
    ∀ q ∈ v.nodes, m.heap.val q.1 = some q.2 := by
  obtain ⟨hd, e, ho, hden⟩ := M.lview_some hv
  intro q hq
  cases hd <;> cases v <;> simp only [HDenV] at hden <;> simp only [Val.nodes] at hq
  · exact lab_tree hden q hq
  · exact lab_list hden q hq
  · exact lab_list hden q hq

end Proof

/-- **C48** (items): a call that does not assign items leaves the item of every node as it is, wherever the node is after the call. -/
theorem c48_items {m m' : Machine α} (hr : Reachable m) {op : Op α} (hu : op.updates = false) (h : (∃ o, step m op = .ok m' o) ∨ step m op = .panic m')
    {x y : Var} {v w : Val (Addr × α)} (hv : m.lview x = some v) (hw : m'.lview y = some w) {a : Addr} {d d' : α}
    (hd : (a, d) ∈ v.nodes) (hd' : (a, d') ∈ w.nodes) : d' = d := by
  obtain ⟨K, M⟩ := Proof.reachable_minv hr
  have hr' : Reachable m' := by
    rcases h with ⟨o, e⟩ | e
    · exact .ok hr e
    · exact .panic hr e
  obtain ⟨K', M'⟩ := Proof.reachable_minv hr'
  have hval := Proof.nodes_val M hv _ hd
  have hval' := Proof.nodes_val M' hw _ hd'
  obtain ⟨-, hd0, -, hl⟩ := M.lview_nodes hv
  have hlt := M.st.liveB a (hl a (List.mem_map_of_mem (f := Prod.fst) hd)).1.1
  have key := items_keep M hu
  have : m.heap.val a = some d' := by
    rcases h with ⟨o, e⟩ | e <;> rw [e] at key <;> exact key a d' hlt hval'
  exact Option.some.inj (this.symm.trans hval)

/-- **C48** (an item assigned): assigning the item of a node leaves the item of every other node as it is. -/
theorem c48_assign {m m' : Machine α} (hr : Reachable m) {x : Var} {l : Loc} {e : α} {v : Val (Addr × α)} {t : RTree (Addr × α)} (hi : v.isIter = false)
    (hx : m.lview x = some v) (hl : v.at? l = some t) {o : Out α} (h : step m (.setData x l e) = .ok m' o)
    {y z : Var} {u w : Val (Addr × α)} (hu : m.lview y = some u) (hw : m'.lview z = some w) {a : Addr} {d d' : α} (ha : a ≠ t.data.1)
    (hd : (a, d) ∈ u.nodes) (hd' : (a, d') ∈ w.nodes) : d' = d := by
  obtain ⟨K, M⟩ := Proof.reachable_minv hr
  have hr' : Reachable m' := .ok hr h
  obtain ⟨K', M'⟩ := Proof.reachable_minv hr'
  have hval := Proof.nodes_val M hu _ hd
  have hval' := Proof.nodes_val M' hw _ hd'
  obtain ⟨-, hd0, -, hlv⟩ := M.lview_nodes hu
  have hlt := M.st.liveB a (hlv a (List.mem_map_of_mem (f := Prod.fst) hd)).1.1
  have hn : ∀ k : Addr → Outcome (Machine α) α, m.onNode x l k = k t.data.1 := by
    obtain ⟨hd1, e1, ho, hden⟩ := M.lview_some hx
    have hit : hd1.isIter = false := by
      cases hd1 <;> cases v <;> simp only [HDenV] at hden <;> first | rfl | exact hi
    have hres := (at_lab M ho hden hl).2.2
    intro k
    simp only [Machine.onNode, e1, hit, Bool.false_eq_true, if_false]
    cases l with
    | root =>
      cases v with
      | tree _ =>
        cases hd1 <;> simp only [HDenV] at hden
        simp only [Loc.full, resolve, Handle.addr, Option.some.injEq] at hres
        simp only [hres]
      | forest _ => cases hl
      | iter _ => cases hl
    | child q i =>
      simp only [Loc.full] at hres
      simp only [Machine.run, locate_ok M.inv ho.used, hres]
  have key := items_set M hn e
  rw [h] at key
  exact Option.some.inj ((key a d' hlt ha hval').symm.trans hval)

namespace Proof

theorem runCalls_append {σ ω ο : Type} (st : σ → ω → σ × ο) : ∀ (ops ops' : List ω) (s : σ), runCalls st s (ops ++ ops') =
    ((runCalls st (runCalls st s ops).1 ops').1, (runCalls st s ops).2 ++ (runCalls st (runCalls st s ops).1 ops').2)
  | [], ops', s => rfl
  | op :: ops, ops', s => by
    simp only [List.cons_append, runCalls, runCalls_append st ops ops']

/-- References are numbered in the order in which they are made. -/
theorem made_step {P : PMachine α} (H : ∀ j, P.made ≤ j → P.refs j = none) (op : POp α) :
    P.made ≤ (pinStep P op).1.made ∧ (∀ j, (pinStep P op).1.made ≤ j → (pinStep P op).1.refs j = none) ∧ ∀ j, j < P.made → (pinStep P op).1.refs j = P.refs j := by
  have same : ∀ {Q : PMachine α}, Q.made = P.made → Q.refs = P.refs → P.made ≤ Q.made ∧ (∀ j, Q.made ≤ j → Q.refs j = none) ∧ ∀ j, j < P.made → Q.refs j = P.refs j := by
    intro Q h1 h2
    rw [h1, h2]
    exact ⟨Nat.le_refl _, H, fun _ _ => rfl⟩
  have ha : ∀ o, (P.after o).1.made = P.made ∧ (P.after o).1.refs = P.refs := by
    intro o; cases o <;> exact ⟨rfl, rfl⟩
  have hf : ∀ a p, P.made ≤ (P.find a p).1.made ∧ (∀ j, (P.find a p).1.made ≤ j → (P.find a p).1.refs j = none) ∧ ∀ j, j < P.made → (P.find a p).1.refs j = P.refs j := by
    intro a p
    simp only [PMachine.find]
    cases locate a p P.m.heap with
    | err _ _ => exact same rfl rfl
    | ok n h =>
      cases n with
      | none => exact same rfl rfl
      | some n =>
        refine ⟨Nat.le_succ _, fun j hj => ?_, fun j hj => ?_⟩
        · have hj : P.made + 1 ≤ j := hj
          show (if j = P.made then some n else P.refs j) = none
          rw [if_neg (by omega), H j (by omega)]
        · show (if j = P.made then some n else P.refs j) = P.refs j
          rw [if_neg (by omega)]
  cases op with
  | call op => exact same (ha _).1 (ha _).2
  | take x l =>
    simp only [pinStep]
    split
    · exact hf _ _
    · exact hf _ _
    · exact same rfl rfl
  | kid i j =>
    simp only [pinStep]
    split
    · exact same rfl rfl
    · exact hf _ _
  | use i c =>
    simp only [pinStep]
    split
    · exact same rfl rfl
    · exact same (ha _).1 (ha _).2

theorem made_run : ∀ (ops : List (POp α)) {P : PMachine α}, (∀ j, P.made ≤ j → P.refs j = none) →
    ∀ j, (runCalls pinStep P ops).1.made ≤ j → (runCalls pinStep P ops).1.refs j = none
  | [], P, H => H
  | op :: ops, P, H => by
    simp only [runCalls]
    exact made_run ops (made_step H op).2.1

/-- The node at `a` keeps the item `d`. -/
def Holds (P : PMachine α) (a : Addr) (d : α) : Prop := a < P.m.heap.nextAddr ∧ ∀ b, P.m.heap.val a = some b → b = d

theorem holds_after {P : PMachine α} {K} (M : MInv P.m K) {a : Addr} {d : α} (H : Holds P a d) {op : Op α} (hu : op.updates = false) :
    Holds (P.after (step P.m op)).1 a d := by
  have h1 := nextAddr_mono M op
  have h2 := items_keep M hu
  cases e : step P.m op <;> rw [e] at h1 h2
  · exact ⟨Nat.lt_of_lt_of_le H.1 h1, fun b hb => H.2 b (h2 a b H.1 hb)⟩
  · exact ⟨Nat.lt_of_lt_of_le H.1 h1, fun b hb => H.2 b (h2 a b H.1 hb)⟩
  · exact H
  · exact H

theorem holds_find {P : PMachine α} {K} (M : MInv P.m K) {a : Addr} {d : α} (H : Holds P a d) {n : Addr} (hn : P.m.heap.Used n) (p : Path) :
    Holds (P.find n p).1 a d := by
  simp only [PMachine.find, locate_ok M.inv hn]
  cases resolve K n p <;> exact H

theorem updates_at (x : Var) (l : Loc) (c : NodeCall α) : (c.at x l).updates = c.updates := by cases c <;> rfl

theorem holds_step {P : PMachine α} {S : PStore α} (H : POK P S) {a : Addr} {d : α} (h : Holds P a d) (op : POp α) (hd : (pspec S op).2 ≠ .dangling)
    (hu : op.updates = false) : Holds (pinStep P op).1 a d := by
  obtain ⟨K, M⟩ := Proof.reachable_minv H.reach
  have hnone : ∀ {i}, S.marks i = none → P.refs i = none := by
    obtain ⟨mk, own, h1, h2, h3, h4⟩ := H.marks
    intro i hi
    rw [(h4 i).1, hi]; rfl
  cases op with
  | call op => exact holds_after M h hu
  | take x l =>
    simp only [pinStep]
    cases hx : P.m.env x with
    | none => exact h
    | some hd =>
      have ho := M.hnd x hd hx
      cases hd with
      | iter r => exact h
      | tree r => exact holds_find M h ho.used _
      | forest f =>
        cases l with
        | root => exact h
        | child q j => exact holds_find M h ho.used _
  | kid i j =>
    simp only [pinStep, pspec] at hd ⊢
    cases hm : S.marks i with
    | none => simp only [hnone hm]; exact h
    | some k =>
      rw [hm] at hd
      simp only at hd ⊢
      cases hp : S.store.place k with
      | none => rw [hp] at hd; exact absurd rfl hd
      | some q =>
        obtain ⟨x, l⟩ := q
        obtain ⟨n, -, -, g1, g2, -⟩ := H.at_place M hm hp
        simp only [g1]
        exact holds_find M h g2 _
  | use i c =>
    simp only [pinStep, pspec] at hd ⊢
    cases hm : S.marks i with
    | none => simp only [hnone hm]; exact h
    | some k =>
      rw [hm] at hd
      simp only at hd ⊢
      cases hp : S.store.place k with
      | none => rw [hp] at hd; exact absurd rfl hd
      | some q =>
        obtain ⟨x, l⟩ := q
        rw [hp] at hd
        simp only at hd ⊢
        by_cases hg : c.gives = some x
        · rw [if_pos hg] at hd; exact absurd rfl hd
        · obtain ⟨n, _, _, g1, g2, g3, g4, g5, g6, g7, g8⟩ := H.at_place M hm hp
          simp only [g1]
          rw [direct_step M g3 g4 g7 g8 hg]
          exact holds_after M h (by rw [updates_at]; exact hu)

theorem holds_run : ∀ (ops : List (POp α)) {P : PMachine α} {S : PStore α}, POK P S → POut.dangling ∉ (runCalls pspec S ops).2 →
    (∀ j, P.made ≤ j → P.refs j = none) → (∀ op ∈ ops, op.updates = false) → ∀ {i a d}, P.refs i = some a → Holds P a d →
    (runCalls pinStep P ops).1.refs i = some a ∧ Holds (runCalls pinStep P ops).1 a d
  | [], P, S, _, _, _, _, i, a, d, h1, h2 => ⟨h1, h2⟩
  | op :: ops, P, S, H, hd, hm, hu, i, a, d, h1, h2 => by
    simp only [runCalls, List.mem_cons, not_or] at hd ⊢
    obtain ⟨g1, -, -⟩ := psim H op (Ne.symm hd.1)
    obtain ⟨k1, k2, k3⟩ := made_step hm op
    refine holds_run ops g1 hd.2 k2 (fun o ho => hu o (List.mem_cons_of_mem _ ho)) ?_ (holds_step H h2 op (Ne.symm hd.1) (hu op List.mem_cons_self))
    rw [k3 i, h1]
    refine Nat.lt_of_not_le fun hle => ?_
    rw [hm i hle] at h1; cases h1

theorem dataRef_eq (a : Addr) (h : Heap α) : dataRef a h =
    if h.live a then (match h.val a with | some d => .ok d h | none => .err .panic h) else .err .ub h := by
  unfold dataRef
  simp only [Trees.M.bind_apply, getData, rd, Heap.val]
  by_cases hl : h.live a = true
  · simp only [hl, if_true]
    cases h.data a <;> rfl
  · simp [hl]

/-- The item that is read through a reference. -/
theorem use_data {P : PMachine α} {i : Nat} {a : Addr} (h1 : P.refs i = some a) {d : α} :
    (pinStep P (.use i .data)).2 = .ok (.item (some d)) ↔ P.m.heap.live a = true ∧ P.m.heap.val a = some d := by
  simp only [pinStep, h1, Machine.direct, Machine.run, dataRef_eq]
  by_cases hl : P.m.heap.live a = true
  · simp only [hl, if_true, true_and]
    cases P.m.heap.val a <;> simp [PMachine.after, Machine.ret]
  · simp [hl, PMachine.after]

end Proof

/-- **C72** (the item stays): what is read through a reference is what was read through it before, whatever was done in between (the node may have been
detached, moved to another tree, its tree may have become an iterator of trees, and so on) - unless the calls in between assign items. -/
theorem c72_item (pre ops : List (POp α)) {i : Nat} {d : α} (hd : POut.dangling ∉ (runCalls pspec .empty (pre ++ (ops ++ [.use i .data]))).2)
    (hu : ∀ op ∈ ops, op.updates = false) (h0 : (pinStep (runCalls pinStep .empty pre).1 (.use i .data)).2 = .ok (.item (some d))) :
    (pinStep (runCalls pinStep .empty (pre ++ ops)).1 (.use i .data)).2 = .ok (.item (some d)) := by
  simp only [Proof.runCalls_append, List.mem_append, not_or] at hd
  obtain ⟨hd1, hd2, hd3⟩ := hd
  obtain ⟨H0, -, -⟩ := Proof.psim_run pre Proof.pok_empty hd1
  obtain ⟨H1, -, -⟩ := Proof.psim_run ops H0 hd2
  simp only [Proof.runCalls_append]
  have hmade := Proof.made_run pre (P := (PMachine.empty : PMachine α)) fun _ _ => rfl
  revert h0 H0 H1 hmade
  generalize (runCalls pinStep .empty pre).1 = P
  intro h0 H0 H1 hmade
  cases hr : P.refs i with
  | none => simp only [pinStep, hr] at h0; cases h0
  | some a =>
    rw [Proof.use_data hr] at h0
    obtain ⟨K0, M0⟩ := Proof.reachable_minv H0.reach
    obtain ⟨e1, -, e2⟩ := Proof.holds_run ops H0 hd2 hmade hu hr (a := a) (d := d)
      ⟨M0.st.liveB _ h0.1, fun b hb => Option.some.inj (hb.symm.trans h0.2)⟩
    rw [Proof.use_data e1]
    revert hd3 H1
    generalize (runCalls pspec (runCalls pspec PStore.empty pre).1 ops).1 = S
    revert e1 e2
    generalize (runCalls pinStep P ops).1 = Q
    intro e1 e2 hd3 H1
    simp only [runCalls, List.mem_singleton] at hd3
    obtain ⟨K, M⟩ := Proof.reachable_minv H1.reach
    simp only [pspec] at hd3
    cases hm : S.marks i with
    | none =>
      obtain ⟨mk, own, -, -, -, h4⟩ := H1.marks
      rw [(h4 i).1, hm] at e1; cases e1
    | some k =>
      rw [hm] at hd3
      simp only at hd3
      cases hp : S.store.place k with
      | none => rw [hp] at hd3; exact absurd rfl hd3
      | some q =>
        obtain ⟨x, l⟩ := q
        obtain ⟨n, _, v, g1, g2, g3, g4, g5, g6, -⟩ := H1.at_place M hm hp
        obtain rfl := Option.some.inj (e1.symm.trans g1)
        rw [Option.map_eq_some_iff] at g6
        obtain ⟨u, g6, rfl⟩ := g6
        have hval := Proof.nodes_val M g5 _ (at_nodes g6)
        refine ⟨g2.1, ?_⟩
        rw [hval, e2 _ hval]

/-! ### A concrete case -/

/-- A tree `10(11(12))` with a reference to node 12 (number 0) and to node 11 (number 1). -/
def itemPre : List (POp Nat) :=
  [.call (.treeNew 10), .call (.treeNew 11), .call (.treeNew 12), .call (.pushBack 1 [] 2), .call (.pushBack 0 [] 1),
   .take 0 (.child [0] 0), .take 0 (.child [] 0)]

/-- Node 12 is detached, the rest goes below a node 13, and node 12 below 11 again. -/
def itemOps : List (POp Nat) :=
  [.use 0 .detach, .call (.treeNew 13), .call (.pushFront 4 [] 0), .use 1 .detach, .call (.drop 4), .use 1 (.pushFront 3), .use 1 .childData]

example : POut.dangling ∉ (runCalls pspec .empty (itemPre ++ (itemOps ++ [.use 0 .data]))).2 ∧ (∀ op ∈ itemOps, op.updates = false) ∧
    (pinStep (runCalls pinStep .empty itemPre).1 (.use 0 .data)).2 = .ok (.item (some 12)) := by
  refine ⟨?_, by simp [itemOps, POp.updates, Op.updates, NodeCall.updates], ?_⟩
  · have : (runCalls pspec .empty (itemPre ++ (itemOps ++ [.use 0 .data]))).2 =
        [.ok (.var 0), .ok (.var 1), .ok (.var 2), .ok .unit, .ok .unit, .ref 0, .ref 1, .ok (.var 3), .ok (.var 4), .ok .unit, .ok (.var 5), .ok .unit,
         .ok .unit, .ok (.items [12]), .ok (.item (some 12))] := by rfl
    rw [this]; simp
  · rfl

/-- `c48_items` and `c48_assign` on the tree `10(11(12))`: node 11 is detached, and its item is assigned. -/
example : ((exec step Machine.empty [.treeNew 10, .treeNew 11, .treeNew 12, .pushBack 1 [] 2, .pushBack 0 [] 1]).1.lview 0,
      (exec step Machine.empty [.treeNew 10, .treeNew 11, .treeNew 12, .pushBack 1 [] 2, .pushBack 0 [] 1, .detach 0 (.child [] 0)]).1.lview 3,
      (exec step Machine.empty [.treeNew 10, .treeNew 11, .treeNew 12, .pushBack 1 [] 2, .pushBack 0 [] 1, .setData 0 (.child [] 0) 21]).1.lview 0) =
    (some (.tree (.node (0, 10) [.node (1, 11) [.node (2, 12) []]])), some (.tree (.node (1, 11) [.node (2, 12) []])),
      some (.tree (.node (0, 10) [.node (1, 21) [.node (2, 12) []]]))) := by rfl

end Trees
