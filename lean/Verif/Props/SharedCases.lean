import Verif.Props.Shared
/-
Concrete, non-trivial cases that meet the hypotheses of the theorems of `Props/Shared.lean`.
-/
namespace Trees
open Classical

/-- No guard, checked over all variables in use. -/
def RMachine.noGuards (m : RMachine Nat) : Bool :=
  (List.range m.fresh).all fun g => match m.refs g with
    | some (.guard _ _ _) => false
    | _ => true

theorem RMachine.free_of_noGuards {m : RMachine Nat} (hr : SReachable m) (h : m.noGuards = true) : ∀ a w, ¬ m.Guarded a w := by
  rintro a w ⟨g, k, hg⟩
  have hlt : g < m.fresh := by
    by_contra hge
    obtain ⟨G, K, T, I, B⟩ := hr.si
    have := (I.fr g (Nat.le_of_not_lt hge)).2
    rw [this] at hg; simp at hg
  simp only [RMachine.noGuards, List.all_eq_true, List.mem_range] at h
  have := h g hlt
  rw [hg] at this; simp at this

theorem sdemo_free (a : Addr) (w : Bool) : ¬ sdemo.Guarded a w := RMachine.free_of_noGuards sdemo_reach (by decide +kernel) a w

/-- Test of what an exclusive variable shows. -/
def RMachine.showsTree (m : RMachine Nat) (k : Var) (t : RTree (Addr × Nat)) : Bool :=
  match m.lookTree k with
  | some u => RTree.same u t
  | none => false
theorem RMachine.lookTree_of_shows {m : RMachine Nat} {k : Var} {t : RTree (Addr × Nat)} (h : m.showsTree k t = true) : m.lookTree k = some t := by
  simp only [RMachine.showsTree] at h
  split at h
  · rename_i u hu; rw [hu, RTree.eq_of_same h]
  · simp at h
def RMachine.showsForest (m : RMachine Nat) (k : Var) (t : List (RTree (Addr × Nat))) : Bool :=
  match m.lookForest k with
  | some u => RTree.sameL u t
  | none => false
theorem RMachine.lookForest_of_shows {m : RMachine Nat} {k : Var} {t : List (RTree (Addr × Nat))} (h : m.showsForest k t = true) : m.lookForest k = some t := by
  simp only [RMachine.showsForest] at h
  split at h
  · rename_i u hu; rw [hu, RTree.eq_of_sameL h]
  · simp at h

theorem sdemo_tree7 : sdemo.lookTree 7 = some (.node (4,9) []) := RMachine.lookTree_of_shows (by decide +kernel)
theorem sdemo_forest8 : sdemo.lookForest 8 = some [.node (6,8) []] := RMachine.lookForest_of_shows (by decide +kernel)

theorem sdemo_parent : sdemo.HasParent 1 := ⟨4, _, sdemo_look4, by decide⟩
theorem sdemo_fresh : sdemo.fresh = 10 := by decide +kernel

/-- Handles in use, checked over all variables. -/
def RMachine.handles (m : RMachine Nat) : List Var := (List.range m.fresh).filter fun k => match m.refs k with
  | some (.rc _) => true
  | _ => false
theorem RMachine.mem_handles {m : RMachine Nat} (hr : SReachable m) {k : Var} {t} (h : m.look k = some t) : k ∈ m.handles := by
  obtain ⟨r, e⟩ := look_ref h
  have hlt : k < m.fresh := by
    by_contra hge
    obtain ⟨G, K, T, I, B⟩ := hr.si
    have := (I.fr k (Nat.le_of_not_lt hge)).2
    rw [this] at e; simp at e
  simp only [RMachine.handles, List.mem_filter, List.mem_range]
  exact ⟨hlt, by rw [e]⟩

theorem sdemo_handles {k : Var} {t} (h : sdemo.look k = some t) : k = 4 ∨ k = 5 ∨ k = 6 := by
  have h1 := RMachine.mem_handles sdemo_reach h
  have h2 : sdemo.handles = [4, 5, 6] := by decide +kernel
  rw [h2] at h1
  simpa using h1

theorem sdemo_root : ¬ sdemo.HasParent 0 := by
  rintro ⟨j, t, h, ha⟩
  rcases sdemo_handles h with rfl | rfl | rfl
  · rw [sdemo_look4] at h; cases h; revert ha; decide
  · rw [sdemo_look5] at h; cases h; revert ha; decide
  · rw [sdemo_look6] at h; cases h; revert ha; decide

theorem sdemo_held (x : Addr) : sdemo.heldElse 4 x = decide (x = 1) := by
  by_cases hx : x = 1
  · subst hx
    simp only [RMachine.heldElse, decide_eq_decide]
    exact iff_of_true ⟨5, by decide, by simp [RMachine.nodeOf, sdemo_look5, RTree.data]⟩ trivial
  · simp only [RMachine.heldElse, decide_eq_decide]
    refine iff_of_false ?_ hx
    rintro ⟨j, hj, h⟩
    simp only [RMachine.nodeOf, Option.map_eq_some_iff] at h
    obtain ⟨t, h, e⟩ := h
    rcases sdemo_handles h with rfl | rfl | rfl
    · exact hj rfl
    · rw [sdemo_look5] at h; cases h; exact hx e.symm
    · rw [sdemo_look6] at h; cases h; exact hx e.symm

/-! ### C34 -/

/-- The drop of the handle to the root of `1(2(3) 4)`: the handles to node `2` still show `2(3)`, now a root; `4` and `1` are dropped. -/
example : ∃ m', rstep sdemo (.drop 4) = .ok m' .unit ∧ SReachable m' ∧ m'.look 5 = some (.node (1,2) [.node (2,3) []]) ∧
    ¬ m'.HasParent 1 ∧ m'.heap.log = sdemo.heap.log ++ [4, 1] := by
  obtain ⟨m', h, h1, h2, h3, h4, h5⟩ := c34_drop sdemo_reach sdemo_look4 (by decide +kernel)
  refine ⟨m', h, h1, by rw [h3 5 (by decide), sdemo_look5], ?_, ?_⟩
  · have := c34_new_roots sdemo_reach sdemo_look4 sdemo_root h (.node (1,2) [.node (2,3) []]) (by
      simp [RTree.survivors, RTree.survivorsL, sdemo_held])
    exact this.2
  · have := congrArg Store.dropped h5
    rw [if_neg (show ¬ sdemo.HasParent (RTree.node ((0 : Addr), 1) [RTree.node ((1 : Addr), 2) [RTree.node ((2 : Addr), 3) []], RTree.node ((3 : Addr), 4) []]).data.1 from sdemo_root)] at this
    simp only [Store.drop, Machine.store] at this
    have h6 : m'.heap.log = sdemo.heap.log ++ _ := this
    rw [h6]
    simp [RTree.released, RTree.releasedL, sdemo_held]

/-- The drop of one of two handles to a node with a parent: nothing is released. -/
example : ∃ m', rstep sdemo (.drop 5) = .ok m' .unit ∧ m'.look 6 = sdemo.look 6 ∧ m'.heap.log = sdemo.heap.log := by
  obtain ⟨m', h, -, -, h3, -, h5⟩ := c34_drop sdemo_reach sdemo_look5 (by decide +kernel)
  refine ⟨m', h, h3 6 (by decide), ?_⟩
  rw [if_pos (show sdemo.HasParent (RTree.node ((1 : Addr), 2) [RTree.node ((2 : Addr), 3) []]).data.1 from sdemo_parent)] at h5
  have := congrArg Store.dropped h5
  have h6 : m'.heap.log = sdemo.heap.log ++ [] := this
  simpa using h6

/-- `c34_stable`, `c34_once` -/
example {m'} (h : rstep sdemo (.drop 4) = .ok m' .unit) : m'.nodeOf 6 = some 1 ∧ m'.Shown 2 ∧ ¬ m'.Shown 3 := by
  refine ⟨c34_stable sdemo_reach (op := .drop 4) trivial (.inl ⟨_, h⟩) (by simp [RMachine.nodeOf, sdemo_look6, RTree.data]) (by simp [ROp.Consumes]), ?_⟩
  have hs : ∀ a, a ∈ [0,1,2,3] → sdemo.Shown a := fun a ha => ⟨4, _, sdemo_look4, by revert ha; revert a; decide⟩
  have := (c34_once sdemo_reach sdemo_look4 sdemo_root h).2.2
  refine ⟨(this 2 (hs 2 (by decide))).mpr ?_, fun h3 => (this 3 (hs 3 (by decide))).mp h3 ?_⟩
  · simp [RTree.released, RTree.releasedL, sdemo_held]
  · simp [RTree.released, RTree.releasedL, sdemo_held]

/-- `c34_all_released`: a history that ends without handles and exclusive values but has had both. -/
def sgone : RMachine Nat := sAfter (sdemoOps ++ [.drop 4, .drop 6, .drop 5, .excl (.drop 7), .excl (.drop 8)])
example : (∀ a, sgone.heap.live a = false) ∧ sgone.heap.log = [4, 1, 3, 2, 9, 8] := by
  have hr : SReachable sgone := sAfter_reach _
  have hf : sgone.fresh = 10 := by decide +kernel
  have hlt : ∀ x, 10 ≤ x → sgone.env x = none ∧ sgone.refs x = none := by
    intro x hx
    obtain ⟨G, K, T, I, B⟩ := hr.si
    exact I.fr x (by rw [hf]; exact hx)
  refine ⟨(c34_all_released hr ?_ ?_).1, by decide +kernel⟩
  · intro k
    cases h : sgone.look k with
    | none => rfl
    | some t =>
      have h1 := RMachine.mem_handles hr h
      have h2 : sgone.handles = [] := by decide +kernel
      rw [h2] at h1; simp at h1
  · intro x
    have : sgone.env x = none := by
      by_cases hx : 10 ≤ x
      · exact (hlt x hx).1
      · have : ∀ x < 10, sgone.env x = none := by decide +kernel
        exact this x (Nat.lt_of_not_le hx)
    simp [Machine.view, RMachine.excl, this]

/-! ### C37 -/

example : (RTree.node ((1 : Addr), 2) [.node (2,3) []]) ∈ (RTree.node ((0 : Addr), 1) [.node (1,2) [.node (2,3) []], .node (3,4) []]).subs :=
  c37_same_tree sdemo_reach sdemo_look4 sdemo_look5 (by decide)

/-- `push_back` of `9` through one of the handles to node `2`, seen through the others. -/
example : ∃ m', rstep sdemo (.pushBack 6 7) = .ok m' .unit ∧ m'.look 5 = some (.node (1,2) [.node (2,3) [], .node (4,9) []]) ∧
    m'.look 4 = some (.node (0,1) [.node (1,2) [.node (2,3) [], .node (4,9) []], .node (3,4) []]) := by
  obtain ⟨m', h, -, -, -, h1⟩ := c37_push_back sdemo_reach sdemo_look6 sdemo_tree7 (sdemo_free _)
  exact ⟨m', h, by rw [h1 5, sdemo_look5]; rfl, by rw [h1 4, sdemo_look4]; rfl⟩

example : ∃ m', rstep sdemo (.pushFront 6 7) = .ok m' .unit ∧ m'.look 5 = some (.node (1,2) [.node (4,9) [], .node (2,3) []]) := by
  obtain ⟨m', h, -, -, -, h1⟩ := c37_push_front sdemo_reach sdemo_look6 sdemo_tree7 (sdemo_free _)
  exact ⟨m', h, by rw [h1 5, sdemo_look5]; rfl⟩

example : ∃ m', rstep sdemo (.append 6 8) = .ok m' .unit ∧ m'.look 5 = some (.node (1,2) [.node (2,3) [], .node (6,8) []]) := by
  obtain ⟨m', h, -, -, -, h1⟩ := c37_append sdemo_reach sdemo_look6 sdemo_forest8 (sdemo_free _)
  exact ⟨m', h, by rw [h1 5, sdemo_look5]; rfl⟩

example : ∃ m', rstep sdemo (.prepend 6 8) = .ok m' .unit ∧ m'.look 5 = some (.node (1,2) [.node (6,8) [], .node (2,3) []]) := by
  obtain ⟨m', h, -, -, -, h1⟩ := c37_prepend sdemo_reach sdemo_look6 sdemo_forest8 (sdemo_free _)
  exact ⟨m', h, by rw [h1 5, sdemo_look5]; rfl⟩

example : ∃ m', rstep sdemo (.insertNextSib 6 7) = .ok m' .unit ∧
    m'.look 4 = some (.node (0,1) [.node (1,2) [.node (2,3) []], .node (4,9) [], .node (3,4) []]) := by
  obtain ⟨m', h, -, -, -, h1⟩ := c37_insert_next_sib sdemo_reach sdemo_look6 sdemo_tree7 (sdemo_free _) sdemo_parent
  exact ⟨m', h, by rw [h1 4, sdemo_look4]; rfl⟩

example : ∃ m', rstep sdemo (.insertPrevSib 6 7) = .ok m' .unit ∧
    m'.look 4 = some (.node (0,1) [.node (4,9) [], .node (1,2) [.node (2,3) []], .node (3,4) []]) := by
  obtain ⟨m', h, -, -, -, h1⟩ := c37_insert_prev_sib sdemo_reach sdemo_look6 sdemo_tree7 (sdemo_free _) sdemo_parent
  exact ⟨m', h, by rw [h1 4, sdemo_look4]; rfl⟩

example : ∃ m', rstep sdemo (.insertPrevSib 4 7) = .panic m' ∧ m'.look 4 = sdemo.look 4 := by
  obtain ⟨m', h, -, -, -, h1⟩ := c37_insert_sib_root sdemo_reach sdemo_look4 sdemo_tree7 (sdemo_free _) sdemo_root (.insertPrevSib 4 7) (by simp)
  exact ⟨m', h, h1 4⟩

example : ∃ m', rstep sdemo (.popBack 4) = .ok m' (.var 10) ∧ m'.look 10 = some (.node (3,4) []) ∧ m'.look 4 = some (.node (0,1) [.node (1,2) [.node (2,3) []]]) := by
  obtain ⟨m', h, -, h1, h2, -⟩ := c37_pop_back sdemo_reach sdemo_look4 (sdemo_free _) rfl
  rw [sdemo_fresh] at h h1 h2
  exact ⟨m', h, h2, by rw [(h1 4 (by decide)).2, sdemo_look4]; rfl⟩

example : ∃ m', rstep sdemo (.popFront 4) = .ok m' (.var 10) ∧ m'.look 10 = some (.node (1,2) [.node (2,3) []]) ∧ m'.look 4 = some (.node (0,1) [.node (3,4) []]) := by
  obtain ⟨m', h, -, h1, h2, -⟩ := c37_pop_front sdemo_reach sdemo_look4 (sdemo_free _) rfl
  rw [sdemo_fresh] at h h1 h2
  exact ⟨m', h, h2, by rw [(h1 4 (by decide)).2, sdemo_look4]; rfl⟩

example : ∃ m', rstep sdemo (.detach 5) = .ok m' .unit ∧ m'.look 4 = some (.node (0,1) [.node (3,4) []]) ∧ m'.look 6 = sdemo.look 6 := by
  obtain ⟨m', h, -, -, h1, -⟩ := c37_detach sdemo_reach sdemo_look5 (sdemo_free _) sdemo_parent
  exact ⟨m', h, by rw [h1 4, sdemo_look4]; rfl, by rw [h1 6, sdemo_look6]; rfl⟩

example : rstep sdemo (.detach 4) = .panic sdemo := c37_detach_root sdemo_reach sdemo_look4 (sdemo_free _) sdemo_root

example : ∃ m', rstep sdemo (.setData 6 20) = .ok m' .unit ∧ m'.look 4 = some (.node (0,1) [.node (1,20) [.node (2,3) []], .node (3,4) []]) := by
  obtain ⟨m', h, -, -, h1, -⟩ := c37_data_mut sdemo_reach 20 sdemo_look6 (sdemo_free _)
  exact ⟨m', h, by rw [h1 4, sdemo_look4]; rfl⟩

example : rstep sdemo (.nodeCount 4) = .ok sdemo (.nat 4) ∧ rstep sdemo (.degree 4) = .ok sdemo (.nat 2) :=
  ⟨(c37_observe sdemo_reach sdemo_look4 (sdemo_free _ _)).2.2.1, (c37_observe sdemo_reach sdemo_look4 (sdemo_free _ _)).2.1⟩

example : ∃ m', rstep sdemo (.back 4) = .ok m' (.var sdemo.fresh) ∧ NewHandle sdemo m' (.node (3,4) []) :=
  (c37_back sdemo_reach sdemo_look4 (sdemo_free _ _)).2 _ rfl

example : ∃ m' p, rstep sdemo (.parent 5) = .ok m' (.var sdemo.fresh) ∧ NewHandle sdemo m' p ∧ (RTree.node ((1 : Addr),2) [.node (2,3) []]) ∈ p.kids :=
  (c37_parent sdemo_reach sdemo_look5 (sdemo_free _ _)).2 sdemo_parent

/-- An iteration over the children of `1`, with a change of the data of node `4` in between. -/
example : ∃ m1 m2 m3 m4, rstep sdemo (.iterRc 4) = .ok m1 (.var 10) ∧ rstep m1 (.iterNext 10) = .ok m2 (.var 11) ∧ m2.look 11 = some (.node (1,2) [.node (2,3) []]) ∧
    rstep m2 (.setData 4 30) = .ok m3 .unit ∧ rstep m3 (.iterNext 10) = .ok m4 (.var m3.fresh) ∧ m4.look m3.fresh = some (.node (3,4) []) := by
  obtain ⟨m1, e1, r1, i1, l1⟩ := c37_iter_rc sdemo_reach sdemo_look4 (sdemo_free _ _)
  rw [sdemo_fresh] at e1 i1 l1
  have f1 : m1.fresh = 11 := by
    have : (match rstep sdemo (.iterRc 4) with | .ok m _ => m.fresh | _ => 0) = 11 := by decide +kernel
    rw [e1] at this; exact this
  obtain ⟨m2, e2, r2, i2, i3, l2⟩ := c37_iter_next r1 (c := .node (1,2) [.node (2,3) []]) (cs := [.node (3,4) []]) i1
    (by rw [(l1 4 (by decide)).2]; exact sdemo_look4) (RTree.self_mem_subs _) (List.suffix_refl _)
  rw [f1] at e2 i2 l2
  have h2 : m2.look 4 = some (.node (0,1) [.node (1,2) [.node (2,3) []], .node (3,4) []]) := by
    rw [l2 4 (by decide), (l1 4 (by decide)).2, sdemo_look4]
  have g2 : ∀ w, ¬ m2.Guarded 0 w := by
    intro w
    refine RMachine.free_of_noGuards r2 ?_ 0 w
    have : (match rstep sdemo (.iterRc 4) with | .ok m _ => (match rstep m (.iterNext 10) with | .ok m _ => m.noGuards | _ => false) | _ => false) = true := by decide +kernel
    rw [e1] at this; dsimp only at this; rw [e2] at this; exact this
  obtain ⟨m3, e3, r3, rf3, l3, -⟩ := c37_data_mut r2 30 h2 g2
  have i3' : m3.IterAt 10 ([RTree.node ((3 : Addr), 4) []].map fun c => c.data.1) := by
    obtain ⟨it, q1, q2⟩ := i3
    exact ⟨it, by rw [rf3]; exact q1, q2⟩
  obtain ⟨m4, e4, r4, i4, -, -⟩ := c37_iter_next r3 (c := .node (3,4) []) (cs := []) i3' (j := 4) (t := .node (0,30) [.node (1,2) [.node (2,3) []], .node (3,4) []])
    (by rw [l3 4, h2]; rfl) (RTree.self_mem_subs _) ⟨[.node (1,2) [.node (2,3) []]], rfl⟩
  exact ⟨m1, m2, m3, m4, e1, e2, i2, e3, e4, i4⟩

example : ∃ m', rstep sdemo (.deepClone 4 fun i x => 100 * i + x) = .ok m' (.var 10) ∧
    m'.excl.view 10 = some (.tree (.node 1 [.node 102 [.node 303 []], .node 204 []])) := by
  obtain ⟨m', h, -, -, -, h1⟩ := c37_deep_clone sdemo_reach (fun i x => 100 * i + x) sdemo_look4 (sdemo_free _ _)
  rw [sdemo_fresh] at h
  refine ⟨m', h, ?_⟩
  have := congrFun (congrArg Store.vars h1) 10
  have e : sdemo.excl.store.fresh = 10 := sdemo_fresh
  simp only [Store.bind, e, if_true] at this
  have h2 : m'.excl.view 10 = _ := this
  rw [h2]
  exact congrArg (fun t => some (Val.tree t)) (RTree.eq_of_same (by decide +kernel))

/-! ### C38 -/

/-- Variable 10 is a `Ref` for the data of node `2`, obtained from handle 5. -/
def sguard : RMachine Nat := sAfter (sdemoOps ++ [.borrow 5])
theorem sguard_reach : SReachable sguard := sAfter_reach _
theorem sguard_look6 : sguard.look 6 = some (.node (1,2) [.node (2,3) []]) := RMachine.look_of_shows (by decide +kernel)
theorem sguard_look4 : sguard.look 4 = some (.node (0,1) [.node (1,2) [.node (2,3) []], .node (3,4) []]) := RMachine.look_of_shows (by decide +kernel)
/-- Test of a guard. -/
def RMachine.isGuarding (m : RMachine Nat) (g k : Var) (a : Addr) (w : Bool) : Bool := match m.refs g with
  | some (.guard k' a' w') => k' == k && a' == a && w' == w
  | _ => false
theorem RMachine.guard_of {m : RMachine Nat} {g k a w} (h : m.isGuarding g k a w = true) : m.refs g = some (.guard k a w) := by
  simp only [RMachine.isGuarding] at h
  split at h
  · rename_i hg; simp only [Bool.and_eq_true, beq_iff_eq] at h; obtain ⟨⟨rfl, rfl⟩, rfl⟩ := h; exact hg
  · simp at h
theorem sguard_guard : sguard.refs 10 = some (.guard 5 1 false) := RMachine.guard_of (by decide +kernel)

/-- The same with a `RefMut`. -/
def sguardMut : RMachine Nat := sAfter (sdemoOps ++ [.borrowMut 5])
theorem sguardMut_reach : SReachable sguardMut := sAfter_reach _
theorem sguardMut_look6 : sguardMut.look 6 = some (.node (1,2) [.node (2,3) []]) := RMachine.look_of_shows (by decide +kernel)
theorem sguardMut_guard : sguardMut.refs 10 = some (.guard 5 1 true) := RMachine.guard_of (by decide +kernel)

example : ∃ m', rstep sdemo (.borrowMut 5) = .ok m' (.var 10) ∧ m'.refs 10 = some (.guard 5 1 true) := by
  obtain ⟨m', h, -, h1, -⟩ := c38_borrow_mut sdemo_reach sdemo_look5 (sdemo_free _)
  rw [sdemo_fresh] at h h1
  exact ⟨m', h, h1⟩

/-- A second `Ref` through another handle is fine ... -/
example : ∃ m', rstep sguard (.borrow 6) = .ok m' (.var sguard.fresh) := by
  obtain ⟨m', h, -⟩ := c38_borrow sguard_reach sguard_look6 (by
    rintro ⟨g, k, h⟩
    have h0 : (List.range sguard.fresh).all (fun g => match sguard.refs g with | some (.guard _ _ true) => false | _ => true) = true := by decide +kernel
    have hlt : g < sguard.fresh := by
      by_contra hge
      obtain ⟨G, K, T, I, B⟩ := sguard_reach.si
      have := (I.fr g (Nat.le_of_not_lt hge)).2
      rw [this] at h; simp at h
    have := List.all_eq_true.mp h0 g (List.mem_range.mpr hlt)
    rw [h] at this; simp at this)
  exact ⟨m', h⟩

/-- ... a change of the node is not, through any handle, ... -/
example : rstep sguard (.popFront 6) = .panic sguard ∧ rstep sguard (.setData 6 0) = .panic sguard :=
  ⟨c38_conflict_mut sguard_reach sguard_look6 ⟨10, 5, sguard_guard⟩ 0 _ (by simp), c38_conflict_mut sguard_reach sguard_look6 ⟨10, 5, sguard_guard⟩ 0 _ (by simp)⟩

/-- ... but other nodes may be changed ... -/
example : ∃ m', rstep sguard (.setData 4 50) = .ok m' .unit := by
  obtain ⟨m', h, -⟩ := c37_data_mut sguard_reach 50 sguard_look4 (by
    rintro w ⟨g, k, h⟩
    have h0 : (List.range sguard.fresh).all (fun g => match sguard.refs g with | some (.guard _ 0 _) => false | _ => true) = true := by decide +kernel
    have hlt : g < sguard.fresh := by
      by_contra hge
      obtain ⟨G, K, T, I, B⟩ := sguard_reach.si
      have := (I.fr g (Nat.le_of_not_lt hge)).2
      rw [this] at h; simp at h
    have := List.all_eq_true.mp h0 g (List.mem_range.mpr hlt)
    rw [h] at this; simp [RTree.data] at this)
  exact ⟨m', h⟩

/-- ... and with a `RefMut` not even a read. -/
example : rstep sguardMut (.data 6) = .panic sguardMut ∧ rstep sguardMut (.front 6) = .panic sguardMut :=
  ⟨c38_conflict_shared sguardMut_reach sguardMut_look6 ⟨10, 5, sguardMut_guard⟩ (fun _ => id) _ (by simp),
   c38_conflict_shared sguardMut_reach sguardMut_look6 ⟨10, 5, sguardMut_guard⟩ (fun _ => id) _ (by simp)⟩

theorem sguard_view7 : sguard.excl.view 7 = some (.tree (.node 9 [])) :=
  (c39_look_tree sguard_reach).mpr ⟨.node (4,9) [], RMachine.lookTree_of_shows (by decide +kernel), rfl⟩
example : ∃ m', rstep sguard (.pushBack 6 7) = .panic m' ∧ m'.look 4 = sguard.look 4 ∧ m'.heap.log = sguard.heap.log ++ [9] := by
  obtain ⟨m', h, -, -, h1, h2⟩ := c38_conflict_arg sguard_reach sguard_look6 ⟨10, 5, sguard_guard⟩ sguard_view7 (.pushBack 6 7) (.inl ⟨by simp, _, rfl⟩)
  refine ⟨m', h, h1 4, ?_⟩
  have := congrArg Store.dropped h2
  have h3 : m'.heap.log = sguard.heap.log ++ _ := this
  rw [h3]; rfl

example : ∃ t m', sguardMut.look 5 = some t ∧ t.data.1 = 1 ∧ rstep sguardMut (.guardWrite 10 77) = .ok m' .unit ∧ m'.look 6 = some (.node (1,77) [.node (2,3) []]) := by
  obtain ⟨t, m', h1, h2, h3, -, -, h4, -⟩ := c38_guard_write sguardMut_reach 77 sguardMut_guard
  exact ⟨t, m', h1, h2, h3, by rw [h4 6, sguardMut_look6]; rfl⟩

example : ∃ m', rstep sguardMut (.drop 10) = .ok m' .unit ∧ ∀ w, ¬ m'.Guarded 1 w := by
  obtain ⟨m', h, -, -, -, -, h1⟩ := c38_release sguardMut_reach sguardMut_guard
  exact ⟨m', h, h1 rfl⟩

/-! ### C39 -/

example : ∃ m', rstep sdemo (.fromTree 7) = .ok m' (.var 10) ∧ m'.look 10 = some (.node (4,9) []) := by
  obtain ⟨m', h, -, h1, -⟩ := c39_from_tree sdemo_reach sdemo_tree7
  rw [sdemo_fresh] at h h1
  exact ⟨m', h, h1⟩

example : ∃ m₁ m₂, rstep sdemo (.fromTree 7) = .ok m₁ (.var 10) ∧ rstep m₁ (.intoTree 10) = .ok m₂ (.var 11) ∧ m₂.excl.view 11 = some (.tree (.node 9 [])) := by
  obtain ⟨m1, m2, h1, h2, -, -, h3, -⟩ := c39_round_trip sdemo_reach sdemo_tree7
  rw [sdemo_fresh] at h1 h2 h3
  exact ⟨m1, m2, h1, h2, h3⟩

example : ∃ m', rstep sdemo (.intoTree 5) = .panic m' ∧ m'.look 6 = sdemo.look 6 := by
  obtain ⟨m', h, -, -, h1, -⟩ := c39_into_tree_panics sdemo_reach sdemo_look5 (by decide +kernel) sdemo_parent
  exact ⟨m', h, h1 6 (by decide)⟩

/-- After the drop of the handles to node `2`, the handle to the root is the only one. -/
def slone : RMachine Nat := sAfter (sdemoOps ++ [.drop 5, .drop 6])
example : ∃ m', rstep slone (.intoTree 4) = .ok m' (.var slone.fresh) ∧
    m'.excl.view slone.fresh = some (.tree (.node 1 [.node 2 [.node 3 []], .node 4 []])) := by
  have hr : SReachable slone := sAfter_reach _
  have hl : slone.look 4 = some (.node (0,1) [.node (1,2) [.node (2,3) []], .node (3,4) []]) := RMachine.look_of_shows (by decide +kernel)
  have hh : ∀ {k t}, slone.look k = some t → k = 4 := by
    intro k t h
    have h1 := RMachine.mem_handles hr h
    have h2 : slone.handles = [4] := by decide +kernel
    rw [h2] at h1; simpa using h1
  have hw : ∀ w, w < slone.fresh → (match slone.refs w with | some (.weak _) => false | _ => true) = true := by
    have : (List.range slone.fresh).all (fun w => match slone.refs w with | some (.weak _) => false | _ => true) = true := by decide +kernel
    intro w hw
    exact List.all_eq_true.mp this w (List.mem_range.mpr hw)
  obtain ⟨m', h, h1, h2, -⟩ := c39_into_tree hr hl (by decide +kernel)
    (by rintro ⟨j, t, h, ha⟩
        have := hh h; subst this
        rw [hl] at h; cases h; revert ha; decide)
    (by intro j b hj hn
        simp only [RMachine.nodeOf, Option.map_eq_some_iff] at hn
        obtain ⟨t, ht, -⟩ := hn
        exact absurd (hh ht) hj)
    (by intro w c h
        have hlt : w < slone.fresh := by
          by_contra hge
          obtain ⟨G, K, T, I, B⟩ := hr.si
          have := (I.fr w (Nat.le_of_not_lt hge)).2
          rw [this] at h; simp at h
        have := hw w hlt
        rw [h] at this; simp at this)
  exact ⟨m', h, view_of_lookTree h1.si h2⟩

end Trees
