import Verif.Proof.LiveMut
/-
C70: mutable breadth-first iterators and the `&mut T` they yield, held while the program goes on calling.
-/
namespace Trees
set_option linter.unusedSimpArgs false
set_option linter.unusedVariables false
variable {α : Type}
open RTree

namespace Proof

theorem lreach_distinct {L : LMachine α} (hr : LReachable L) : ∃ S, LOK L S ∧ Distinct S := by
  induction hr with
  | init => exact ⟨_, lok_empty, .empty⟩
  | @step L op _ ih =>
    obtain ⟨S, H, D⟩ := ih
    exact ⟨_, (lsim H op).1, D.step op⟩

/-- A held item is an item of the value. -/
theorem item_at {L : LMachine α} {S : LStore α} (H : LOK L S) {i : Nat} {x : Var} {a : Addr} (h : L.refs i = some (x, .item a)) :
    ∃ v l u, L.m.lview x = some v ∧ v.isIter = false ∧ v.at? l = some u ∧ u.data.1 = a ∧ S.refs i = some (x, .item l) := by
  have hi := H.ref i
  rw [h] at hi
  generalize hS : S.refs i = s at hi
  generalize hb : some (x, Live.item a) = b at hi
  cases hi with
  | @item x v l w h1 h2 h3 =>
    simp only [Option.some.injEq, Prod.mk.injEq, Live.item.injEq] at hb
    obtain ⟨rfl, rfl⟩ := hb
    rw [Val.at?_map, Option.map_eq_some_iff] at h3
    obtain ⟨u, hu, rfl⟩ := h3
    exact ⟨v, l, u, h1, h2, hu, by cases u; simp, rfl⟩
  | _ => simp at hb

theorem node_at {L : LMachine α} {S : LStore α} (H : LOK L S) {i : Nat} {x : Var} {a : Addr} (h : L.refs i = some (x, .node a)) :
    ∃ v l u, L.m.lview x = some v ∧ v.at? l = some u ∧ u.data.1 = a := by
  have hi := H.ref i
  rw [h] at hi
  generalize hS : S.refs i = s at hi
  generalize hb : some (x, Live.node a) = b at hi
  cases hi with
  | @node x v l u h1 h2 =>
    simp only [Option.some.injEq, Prod.mk.injEq, Live.node.injEq] at hb
    obtain ⟨rfl, rfl⟩ := hb
    exact ⟨v, l, u, h1, h2, rfl⟩
  | _ => simp at hb

end Proof

/-- **C70** (no aliasing): of the references to nodes and items that a program holds, one `&mut T` made by a mutable
breadth-first iterator is the only one to its item. -/
theorem c70_noalias {L : LMachine α} (hr : LReachable L) {i j : Nat} {x y : Var} {a : Addr} (hi : L.refs i = some (x, .item a)) :
    (L.refs j = some (y, .item a) → i = j) ∧ L.refs j ≠ some (y, .node a) := by
  obtain ⟨S, H, D⟩ := Proof.lreach_distinct hr
  obtain ⟨K, M⟩ := Proof.reachable_minv H.reach
  obtain ⟨v, l, u, h1, -, h2, h3, h4⟩ := Proof.item_at H hi
  constructor
  · intro hj
    obtain ⟨w, l', u', k1, -, k2, k3, k4⟩ := Proof.item_at H hj
    obtain rfl := at_var M h1 k1 h2 k2 (h3.trans k3.symm)
    rw [h1] at k1
    obtain rfl := Option.some.inj k1
    obtain rfl := at_inj M h1 h2 k2 (h3.trans k3.symm)
    exact D.items _ _ _ _ h4 k4
  · intro hj
    obtain ⟨w, l', u', k1, k2, k3⟩ := Proof.node_at H hj
    obtain rfl := at_var M h1 k1 h2 k2 (h3.trans k3.symm)
    have := H.excl _ _ _ _ _ hi hj
    cases this

/-- **C70** (exclusive): while a program holds a mutable breadth-first iterator over `x`, or a `&mut T` from one, it holds no
shared borrow of `x`. -/
theorem c70_exclusive {L : LMachine α} (hr : LReachable L) {i j : Nat} {x : Var} {l l' : Live} (hi : L.refs i = some (x, l)) (he : l.excl = true)
    (hj : L.refs j = some (x, l')) : l'.excl = true := by
  obtain ⟨S, H, -⟩ := Proof.lreach_distinct hr
  rw [← H.excl _ _ _ _ _ hi hj, he]

/-- **C70** (reading): a `&mut T` shows the item of its node as it is now. -/
theorem c70_get {L : LMachine α} (hr : LReachable L) {i : Nat} {x : Var} {a : Addr} (hi : L.refs i = some (x, .item a)) :
    ∃ v l u, L.m.lview x = some v ∧ v.at? l = some u ∧ u.data.1 = a ∧ lstep L (.get i) = (L, .ok (.item (some u.data.2))) := by
  obtain ⟨S, H, -⟩ := Proof.lreach_distinct hr
  obtain ⟨K, M⟩ := Proof.reachable_minv H.reach
  obtain ⟨v, l, u, h1, -, h2, h3, h4⟩ := Proof.item_at H hi
  obtain ⟨hd, -, ho, hv⟩ := M.lview_some h1
  obtain ⟨g1, g2, -⟩ := at_lab M ho hv h2
  refine ⟨v, l, u, h1, h2, h3, ?_⟩
  subst h3
  simp only [lstep, clash, lexec, hi, Bool.false_eq_true, if_false]
  rw [L.run_read (dataRef_ok g1.1 (node_lab M g1 g2).1)]

/-- **C70** (writing): assigning through a `&mut T` changes the item of its node and nothing else; the old item is destroyed. -/
theorem c70_set {L : LMachine α} (hr : LReachable L) {i : Nat} {x : Var} {a : Addr} (hi : L.refs i = some (x, .item a)) (d : α) :
    ∃ m v v' d0, lstep L (.set i d) = ({ L with m := m }, .ok .unit) ∧ L.m.lview x = some v ∧ m.lview x = some v' ∧
      v'.map Prod.fst = v.map Prod.fst ∧
      (∀ l u u', v.at? l = some u → v'.at? l = some u' → u'.data = if u.data.1 = a then (a, d) else u.data) ∧
      (∀ y, y ≠ x → y < L.m.fresh → m.lview y = L.m.lview y) ∧
      (∃ l u, v.at? l = some u ∧ u.data = (a, d0)) ∧ m.heap.log = L.m.heap.log ++ [d0] := by
  obtain ⟨S, H, -⟩ := Proof.lreach_distinct hr
  obtain ⟨K, M⟩ := Proof.reachable_minv H.reach
  obtain ⟨v, l, u, h1, hit, h2, rfl, h4⟩ := Proof.item_at H hi
  obtain ⟨hd, -, ho, hv⟩ := M.lview_some h1
  obtain ⟨g1, g2, -⟩ := at_lab M ho hv h2
  obtain ⟨h', e1, e2⟩ := set_lab H.reach h1 hit h2 d
  obtain ⟨h'', e1', -, -, -, hval, -, hlog⟩ := dataMutSet_ok (d := d) M.inv M.st g1 (node_lab M g1 g2).1
  rw [e1] at e1'
  obtain rfl : h' = h'' := by simpa using e1'
  obtain ⟨v', k1, k2⟩ := set_shape H.reach h1 h2 e2
  obtain ⟨K', M'⟩ := Proof.reachable_minv (.ok H.reach e2)
  refine ⟨{ L.m with heap := h' }, v, v', u.data.2, ?_, h1, k1, k2, ?_, ?_, ⟨l, u, h2, rfl⟩, hlog⟩
  · simp only [lstep, clash, lexec, hi, Bool.false_eq_true, if_false, LMachine.run, e1]
  · intro q w w' hw hw'
    have ea : w'.data.1 = w.data.1 := by
      have h5 : (v'.map Prod.fst).at? q = some (w'.map Prod.fst) := by rw [Val.at?_map, hw']; rfl
      rw [k2, Val.at?_map, hw] at h5
      have := congrArg data (Option.some.inj h5)
      cases w; cases w'; simpa using this.symm
    obtain ⟨hd1, -, ho1, hv1⟩ := M.lview_some h1
    obtain ⟨b1, b2, -⟩ := at_lab M ho1 hv1 hw
    obtain ⟨hd2, -, ho2, hv2⟩ := M'.lview_some k1
    obtain ⟨c1, c2, -⟩ := at_lab M' ho2 hv2 hw'
    have n1 := (node_lab M b1 b2).1
    have n2 := (node_lab M' c1 c2).1
    simp only [hval, upd_apply, ea] at n2
    split
    · rename_i he
      rw [if_pos he] at n2
      refine Prod.ext (ea.trans he) (Option.some.inj n2).symm
    · rename_i he
      rw [if_neg he, n1] at n2
      exact Prod.ext ea (Option.some.inj n2).symm
  · intro y hy hf
    exact (writes_frame H.reach (op := .setData x l d) (by simpa [Op.writes] using hy) hf).1 _ e2

namespace Proof

/-- What is left of a mutable iteration. -/
theorem mut_rest (i : Nat) : ∀ (ops : List (LOp α)) {S : LStore α} {x : Var} {ps : List (Loc × Nat × Nat)}, i < S.made →
    S.refs i = some (x, .bfsMut ps) → (.release i) ∉ ops →
    (runCalls lspec S ops).1.refs i = some (x, .bfsMut (ps.drop (nextsOf i ops (runCalls lspec S ops).2).length)) := by
  intro ops
  induction ops with
  | nil => intro S x ps _ hr _; simpa [nextsOf, runCalls] using hr
  | cons op ops ih =>
    intro S x ps hi hr hn
    simp only [List.mem_cons, not_or] at hn
    by_cases hop : op = .next i
    · subst hop
      simp only [runCalls, nextsOf, if_true, List.length_cons]
      cases ps with
      | nil =>
        have e : lspec S (.next i) = (S, .nothing) := by simp only [lspec, clash, ldo, hr]; rfl
        rw [e]
        rw [ih hi hr hn.2]
        simp
      | cons p ps =>
        have e : lspec S (.next i) = (((S.put i (some (x, .bfsMut ps))).new x (.item p.1)).1, .visitMut S.made p.2.1 p.2.2) := by
          simp only [lspec, clash, ldo, hr]; rfl
        rw [e]
        have hne : i ≠ S.made := Nat.ne_of_lt hi
        rw [ih (S := ((S.put i (some (x, .bfsMut ps))).new x (.item p.1)).1) (x := x) (ps := ps) (Nat.lt_succ_of_lt hi)
            (by simp [LStore.new, LStore.put, hne]) hn.2, List.drop_succ_cons]
    · obtain ⟨h1, h2⟩ := keep_ref hi hop (Ne.symm hn.1)
      have e : nextsOf i (op :: ops) (runCalls lspec S (op :: ops)).2 = nextsOf i ops (runCalls lspec (lspec S op).1 ops).2 := by
        simp only [runCalls]
        cases op with
        | next j => simp only [nextsOf]; rw [if_neg (fun e => hop (by rw [e]))]
        | _ => rfl
      rw [e]
      exact ih (Nat.lt_of_lt_of_le hi h2) (h1.trans hr) hn.2

end Proof

/-- **C70** (order): whatever a program does between the calls of `next()` of a mutable breadth-first iterator — assign the
items, also those still to be visited — the call that follows `j` others hands out a `&mut T` to the `j`-th node of the tree
in breadth-first order, at its place in the tree, with its number of children and of descendants. -/
theorem c70_order {L L' : LMachine α} (hr : LReachable L) {x : Var} {l : Loc} {i : Nat} (h : lstep L (.bfsMut x l) = (L', .ref i)) :
    ∃ v t, L.m.view x = some v ∧ v.at? l = some t ∧ ∀ ops, .release i ∉ ops →
      match (levelOrder [withPath t])[(nextsOf i ops (runCalls lstep L' ops).2).length]? with
      | none => (lstep (runCalls lstep L' ops).1 (.next i)).2 = .nothing
      | some s => ∃ k a w u, (lstep (runCalls lstep L' ops).1 (.next i)).2 = .visitMut k s.kids.length (s.count - 1) ∧
          (lstep (runCalls lstep L' ops).1 (.next i)).1.refs k = some (x, .item a) ∧
          (lstep (runCalls lstep L' ops).1 (.next i)).1.m.lview x = some w ∧ w.at? (.ofPath (l.full ++ s.data.1)) = some u ∧ u.data.1 = a := by
  obtain ⟨S, H⟩ := Proof.lreach_ok hr
  obtain ⟨H', e⟩ := lsim H (.bfsMut x l)
  rw [h] at H' e
  have key : ∃ v t, S.store.vars x = some v ∧ v.at? l = some t ∧
      lspec S (.bfsMut x l) = S.new x (.bfsMut (mutVisits l.full [withPath t])) := by
    replace e := e.symm
    have hcl : clash View.excl S.refs S.made (.bfsMut x l : LOp α) = false := by
      simp only [lspec] at e
      split at e
      · cases e
      · rename_i h; simpa using h
    simp only [lspec, hcl, Bool.false_eq_true, if_false, ldo, LStore.atNode] at e ⊢
    cases hx : S.store.vars x with
    | none => rw [hx] at e; simp at e
    | some v =>
      rw [hx] at e
      simp only [] at e ⊢
      split at e
      · simp at e
      · rename_i hit
        rw [if_neg hit]
        cases l with
        | root =>
          cases v with
          | tree t => exact ⟨_, t, rfl, rfl, rfl⟩
          | forest ts => simp at e
          | iter ts => simp at e
        | child q j =>
          simp only [] at e ⊢
          cases hat : v.at? (.child q j) with
          | none => rw [hat] at e; simp at e
          | some t => exact ⟨v, t, rfl, hat, rfl⟩
  obtain ⟨v, t, hx, hl, he⟩ := key
  rw [he] at e H'
  refine ⟨v, t, by rw [← hx, H.store]; rfl, hl, fun ops hn => ?_⟩
  obtain ⟨H2, e2⟩ := Proof.lsim_run ops H'
  simp only [LStore.new, LOut.ref.injEq] at e
  subst e
  have hrest := Proof.mut_rest S.made ops (S := (S.new x (.bfsMut (mutVisits l.full [withPath t]))).1) (x := x)
    (ps := mutVisits l.full [withPath t]) (by simp [LStore.new]) (by simp [LStore.new]) hn
  rw [← e2] at hrest
  obtain ⟨H3, e3⟩ := lsim H2 (.next S.made)
  revert hrest H3 e3
  generalize (runCalls lspec (S.new x (.bfsMut (mutVisits l.full [withPath t]))).1 ops).1 = T
  intro hrest H3 e3
  generalize (nextsOf S.made ops (runCalls lstep (L', LOut.ref S.made).1 ops).2).length = j at hrest ⊢
  have hj : (mutVisits l.full [withPath t])[j]? =
      ((levelOrder [withPath t])[j]?).map fun s => (.ofPath (l.full ++ s.data.1), s.kids.length, s.count - 1) := by
    simp only [mutVisits, List.getElem?_map]
  cases hs : (levelOrder [withPath t])[j]? with
  | none =>
    rw [hs] at hj
    have hd : (mutVisits l.full [withPath t]).drop j = [] := by simpa using hj
    rw [hd] at hrest
    rw [e3]
    simp only [lspec, clash, ldo, hrest]; rfl
  | some s =>
    rw [hs] at hj
    have hd : (mutVisits l.full [withPath t]).drop j =
        (.ofPath (l.full ++ s.data.1), s.kids.length, s.count - 1) :: (mutVisits l.full [withPath t]).drop (j + 1) := by
      obtain ⟨hlt', e⟩ := List.getElem?_eq_some_iff.mp hj
      rw [List.drop_eq_getElem_cons hlt', e]
    rw [hd] at hrest
    have e4 : lspec T (.next S.made) = (((T.put S.made (some (x, .bfsMut ((mutVisits l.full [withPath t]).drop (j + 1))))).new x
        (.item (.ofPath (l.full ++ s.data.1)))).1, .visitMut T.made s.kids.length (s.count - 1)) := by
      simp only [lspec, clash, ldo, hrest]; rfl
    rw [e4] at e3 H3
    have hk := H3.ref T.made
    simp only [LStore.new, LStore.put] at hk
    revert hk e3
    generalize hL : (lstep (runCalls lstep (L', LOut.ref S.made).1 ops).1 (.next S.made)) = R
    intro e3 hk
    rw [if_pos trivial] at hk
    generalize hb : R.1.refs T.made = b at hk
    cases hk with
    | @item _ w _ u' g1 g2 g3 =>
      rw [Val.at?_map, Option.map_eq_some_iff] at g3
      obtain ⟨u, hu, rfl⟩ := g3
      exact ⟨T.made, _, w, u, e3, hb, g1, hu, by cases u; simp⟩

/-! ### A concrete case -/

/-- The tree `0( 1( 2 ) 3 )`: two items held at the same time are assigned, one of them after the next visit; a call that would
use the tree meanwhile is refused; after the borrows end the tree can be used again. -/
def mutOps : List (LOp Nat) :=
  [.call (.treeNew 0), .call (.treeNew 1), .call (.treeNew 2), .call (.treeNew 3), .call (.pushBack 1 [] 2),
   .call (.pushBack 0 [] 1), .call (.pushBack 0 [] 3),
   .bfsMut 0 .root, .next 0, .next 0, .set 1 10, .next 0, .set 2 11, .call (.data 0 .root), .hold 0 .root, .get 1, .set 1 20, .get 1, .get 2,
   .next 0, .next 0, .release 0, .release 1, .release 2, .release 3, .release 4, .call (.data 0 .root), .call (.data 0 (.child [] 0))]

theorem mut_outs : ((runCalls lstep .empty mutOps).2.drop 7) =
    [.ref 0, .visitMut 1 2 3, .visitMut 2 1 1, .ok .unit, .visitMut 3 0 0, .ok .unit, .rejected, .rejected, .ok (.item (some 10)), .ok .unit,
     .ok (.item (some 20)), .ok (.item (some 11)), .visitMut 4 0 0, .nothing, .unit, .unit, .unit, .unit, .unit, .ok (.item (some 20)),
     .ok (.item (some 11))] ∧
    (runCalls lstep .empty mutOps).1.m.heap.log = [0, 1, 10] := by
  rw [(c69_program mutOps).1, (c69_program mutOps).2.2]
  exact ⟨rfl, rfl⟩

end Trees
