import Verif.Props.Crash
/-
C51: destructors of user data that panic, and values that are forgotten (`mem::forget`).
-/
namespace Trees
set_option linter.unusedSimpArgs false
variable {α : Type}
open RTree

/-! ### How to read the specification -/

theorem postUntil_tree (j : Nat) (t : RTree α) : (Val.tree t).postUntil j = t.post.take (j + 1) := rfl
theorem postUntil_forest (j : Nat) (ts : List (RTree α)) : (Val.forest ts).postUntil j = (postL ts).take (j + 1) := rfl

/-- `dropEach`: the trees before the one with the item that panics are dropped, and so are the trees after it; of that one
tree, the items up to the one that panics. -/
theorem dropEach_eq (us : List (RTree α)) (t : RTree α) (vs : List (RTree α)) (i : Nat) (hi : i < t.count) :
    dropEach (countL us + i) (us ++ t :: vs) = postL us ++ t.post.take (i + 1) ++ postL vs := by
  induction us with
  | nil => simp [dropEach, hi]
  | cons u us ih =>
    have h1 : ¬ countL (u :: us) + i < u.count := by simp; omega
    have h2 : countL (u :: us) + i - u.count = countL us + i := by simp; omega
    rw [List.cons_append, dropEach, if_neg h1, h2, ih]
    simp

/-- Nothing is destroyed twice: what is destroyed is part of what the value held. -/
theorem dropEach_sub (ts : List (RTree α)) : ∀ j, List.Sublist (dropEach j ts) (postL ts) := by
  induction ts with
  | nil => intro j; exact .refl _
  | cons t ts ih =>
    intro j
    rw [dropEach]
    split
    · exact (List.take_sublist _ _).append (.refl _)
    · exact (List.Sublist.refl _).append (ih _)

/-- The same for every kind of value. -/
theorem postUntil_sub (v : Val α) (j : Nat) : List.Sublist (v.postUntil j) v.post := by
  cases v with
  | tree t => exact List.take_sublist _ _
  | forest ts => exact List.take_sublist _ _
  | iter ts => exact dropEach_sub _ _

theorem setDataPanic_spec {s S : Store α} {x : Var} {l : Loc} {d : α} (h : specStep s (.setData x l d) = .ok S .unit) :
    specCrash s (.setDataPanic x l d) = .panic S := by
  simp only [specCrash, h]

/-! ### The theorems -/

section
variable {m : Machine α} (hr : CReachable m)
include hr

/-- **C51** `mem::forget(x)`: the variable is gone, no item is destroyed, every other variable is as before. -/
theorem c51_forget {x : Var} {v : Val α} (hx : m.view x = some v) :
    ∃ m', cstep m (.forget x) = .ok m' .unit ∧ CReachable m' ∧ m'.view x = none ∧ (∀ z, z ≠ x → m'.view z = m.view z) ∧
      m'.store.dropped = m.store.dropped := by
  have hx' : m.store.vars x = some v := hx
  obtain ⟨m', h1, h2, h3⟩ := cstep_ok hr (op := .forget x) (S := m.store.set x none) (o := .unit) (by simp [specCrash, hx'])
  have hvw : m'.view = m'.store.vars := rfl
  refine ⟨m', h1, h3, ?_, ?_, by rw [h2]; rfl⟩
  · rw [hvw, h2]; simp [Store.set]
  · intro z hz; rw [hvw, h2]; simp [Store.set, hz]; rfl

/-- **C51** a destructor of user data that panics while a tree, a forest or an owning iterator is dropped: the call panics, the
variable is gone, every other variable is as before, and every item that was destroyed was an item of the dropped value. -/
theorem c51_drop_panics {x : Var} {v : Val α} (hx : m.view x = some v) {j : Nat} (hj : j < v.count) :
    ∃ m', cstep m (.dropPanic x j) = .panic m' ∧ CReachable m' ∧ m'.view x = none ∧ (∀ z, z ≠ x → m'.view z = m.view z) ∧
      m'.store.dropped = m.store.dropped ++ v.postUntil j := by
  have hx' : m.store.vars x = some v := hx
  have hj' : j < v.post.length := by
    cases v with
    | tree t => simpa [Val.post, post_length, Val.count] using hj
    | forest t => simpa [Val.post, postL_length, Val.count] using hj
    | iter t => simpa [Val.post, postL_length, Val.count] using hj
  obtain ⟨m', h1, h2, h3⟩ := cstep_panic hr (op := .dropPanic x j) (S := (m.store.set x none).drop (v.postUntil j))
    (by simp [specCrash, hx', hj'])
  have hvw : m'.view = m'.store.vars := rfl
  refine ⟨m', h1, h3, ?_, ?_, by rw [h2]; rfl⟩
  · rw [hvw, h2]; simp [Store.drop, Store.set]
  · intro z hz; rw [hvw, h2]; simp [Store.drop, Store.set, hz]; rfl

/-- **C51** dropping a tree whose `j`-th destructor panics, in order of destruction: exactly the first `j + 1` items, in
post-order, are destroyed; the rest of the tree is leaked. -/
theorem c51_drop_tree {x : Var} {t : RTree α} (hx : m.view x = some (.tree t)) {j : Nat} (hj : j < t.count) :
    ∃ m', cstep m (.dropPanic x j) = .panic m' ∧ CReachable m' ∧ m'.view x = none ∧ (∀ z, z ≠ x → m'.view z = m.view z) ∧
      m'.store.dropped = m.store.dropped ++ t.post.take (j + 1) :=
  c51_drop_panics hr hx hj

/-- **C51** the same for a forest. -/
theorem c51_drop_forest {x : Var} {ts : List (RTree α)} (hx : m.view x = some (.forest ts)) {j : Nat} (hj : j < countL ts) :
    ∃ m', cstep m (.dropPanic x j) = .panic m' ∧ CReachable m' ∧ m'.view x = none ∧ (∀ z, z ≠ x → m'.view z = m.view z) ∧
      m'.store.dropped = m.store.dropped ++ (postL ts).take (j + 1) :=
  c51_drop_panics hr hx hj

/-- **C51** dropping an owning iterator, where the `i`-th destructor of tree `t` panics: the trees before `t` are destroyed, then
the first `i + 1` items of `t`, and then, while unwinding, the trees after `t`. -/
theorem c51_drop_iter {x : Var} {us vs : List (RTree α)} {t : RTree α} (hx : m.view x = some (.iter (us ++ t :: vs))) {i : Nat} (hi : i < t.count) :
    ∃ m', cstep m (.dropPanic x (countL us + i)) = .panic m' ∧ CReachable m' ∧ m'.view x = none ∧ (∀ z, z ≠ x → m'.view z = m.view z) ∧
      m'.store.dropped = m.store.dropped ++ (postL us ++ t.post.take (i + 1) ++ postL vs) := by
  have := c51_drop_panics hr hx (j := countL us + i) (by simp [Val.count, countL_append]; omega)
  rwa [show (Val.iter (us ++ t :: vs)).postUntil (countL us + i) = _ from dropEach_eq us t vs i hi] at this

/-- **C51** if there is no such item, the drop is an ordinary one. -/
theorem c51_drop_returns {x : Var} {v : Val α} (hx : m.view x = some v) {j : Nat} (hj : v.count ≤ j) :
    ∃ m', cstep m (.dropPanic x j) = .ok m' .unit ∧ CReachable m' ∧ m'.view x = none ∧ (∀ z, z ≠ x → m'.view z = m.view z) ∧
      m'.store.dropped = m.store.dropped ++ v.post := by
  have hx' : m.store.vars x = some v := hx
  have hj' : ¬ j < v.post.length := by
    cases v with
    | tree t => simpa [Val.post, post_length, Val.count] using hj
    | forest t => simpa [Val.post, postL_length, Val.count] using hj
    | iter t => simpa [Val.post, postL_length, Val.count] using hj
  obtain ⟨m', h1, h2, h3⟩ := cstep_ok hr (op := .dropPanic x j) (S := (m.store.set x none).drop v.post) (o := .unit)
    (by simp [specCrash, hx', hj'])
  have hvw : m'.view = m'.store.vars := rfl
  refine ⟨m', h1, h3, ?_, ?_, by rw [h2]; rfl⟩
  · rw [hvw, h2]; simp [Store.drop, Store.set]
  · intro z hz; rw [hvw, h2]; simp [Store.drop, Store.set, hz]; rfl

/-- **C51** `*tree.data_mut() = d'`, where the destructor of the old item panics: the call panics, the new item is in place,
the old one was destroyed once, nothing else changed. -/
theorem c51_write_root {x : Var} {d d' : α} {ts : List (RTree α)} (hx : m.view x = some (.tree (.node d ts))) :
    ∃ m', cstep m (.setDataPanic x .root d') = .panic m' ∧ CReachable m' ∧ m'.view x = some (.tree (.node d' ts)) ∧
      (∀ z, z ≠ x → m'.view z = m.view z) ∧ m'.store.dropped = m.store.dropped ++ [d] := by
  have hx' : m.store.vars x = some (.tree (.node d ts)) := hx
  obtain ⟨m', h1, h2, h3⟩ := cstep_panic hr (setDataPanic_spec (x := x) (l := .root) (d := d') (s := m.store) (by
    simp only [specStep, Store.onNode, hx', Val.isIter]; rfl))
  have hvw : m'.view = m'.store.vars := rfl
  refine ⟨m', h1, h3, by rw [hvw, h2]; simp [Store.set, Store.drop], ?_, by rw [h2]; rfl⟩
  intro z hz1; rw [hvw, h2]; simp [Store.set, Store.drop, hz1]; rfl

/-- **C51** the same at any other node. -/
theorem c51_write_child {x : Var} {q : Path} {v : Val α} {d d' : α} {ks l r : List (RTree α)}
    (hx : m.view x = some v) (hv : v.isIter = false) (hp : kidsAt v.kids q = some (l ++ .node d ks :: r)) :
    ∃ m', cstep m (.setDataPanic x (.child q l.length) d') = .panic m' ∧ CReachable m' ∧
      m'.view x = some (v.setKids (modKids v.kids q (fun _ => l ++ .node d' ks :: r))) ∧
      (∀ z, z ≠ x → m'.view z = m.view z) ∧ m'.store.dropped = m.store.dropped ++ [d] := by
  have hx' : m.store.vars x = some v := hx
  have hg : (l ++ RTree.node d ks :: r)[l.length]? = some (.node d ks) := by simp
  obtain ⟨m', h1, h2, h3⟩ := cstep_panic hr (setDataPanic_spec (x := x) (l := .child q l.length) (d := d') (s := m.store) (by
    simp only [specStep, Store.onNode, hx', hv, hp, hg]; rfl))
  have hm := modKids_congr (f := fun us => us.set l.length (.node d' ks)) (g := fun _ => l ++ .node d' ks :: r) hp (by simp)
  have hvw : m'.view = m'.store.vars := rfl
  refine ⟨m', h1, h3, ?_, ?_, by rw [h2]; rfl⟩
  · rw [hvw, h2]
    simp only [Store.setKids, Store.set, Store.drop, if_true, RTree.kids_node]
    rw [hm]
  · intro z hz1; rw [hvw, h2]; simp [Store.setKids, Store.set, Store.drop, hz1]; rfl

/-- **C51** whatever was forgotten or left behind by a panicking destructor, no later call accesses dead memory or loops. -/
theorem c51_never_bad (op : COp α) : cstep m op ≠ .bad := c45_never_bad hr op

end

/-! ### Concrete cases -/

example : dropEach 2 [.node 0 [.node 1 []], .node 2 [], .node 3 [.node 4 [], .node 5 []]] = [1, 0, 2, 4, 5, 3] := by decide +kernel
example : dropEach 3 [.node 0 [.node 1 []], .node 2 [], .node 3 [.node 4 [], .node 5 []]] = [1, 0, 2, 4] := by decide +kernel

example : ∃ m', cstep demo (.forget 0) = .ok m' .unit ∧ CReachable m' ∧ m'.view 0 = none ∧ (∀ z, z ≠ 0 → m'.view z = demo.view z) ∧
    m'.store.dropped = demo.store.dropped :=
  c51_forget (reachable_creachable demo_reachable) demo_view0

/-- `0(1 2)`; the destructor of `2`, the second in order of destruction, panics. -/
example : ∃ m', cstep demo (.dropPanic 0 1) = .panic m' ∧ CReachable m' ∧ m'.view 0 = none ∧ (∀ z, z ≠ 0 → m'.view z = demo.view z) ∧
    m'.store.dropped = demo.store.dropped ++ [1, 2] :=
  c51_drop_tree (reachable_creachable demo_reachable) demo_view0 (j := 1) (by decide +kernel)

example : ∃ m', cstep demo (.setDataPanic 0 (.child [] 1) 9) = .panic m' ∧ m'.view 0 = some (.tree (.node 0 [.node 1 [], .node 9 []])) := by
  obtain ⟨m', h1, _, h3, _⟩ := c51_write_child (reachable_creachable demo_reachable) (x := 0) (q := []) (l := [.node 1 []]) (r := []) (d' := 9)
    demo_view0 rfl rfl
  exact ⟨m', h1, h3⟩

/-- A forest `0 1 2` turned into an iterator; the destructor of `1` panics: all three are destroyed, and the program goes on. -/
def boomOps : List (COp Nat) := [.call .forestNew, .call (.treeNew 0), .call (.treeNew 1), .call (.treeNew 2), .call (.pushBack 0 [] 1),
  .call (.pushBack 0 [] 2), .call (.pushBack 0 [] 3), .call (.intoIter 0), .dropPanic 4 1, .call (.treeNew 5), .call (.data 5 .root)]

example : ((execC cstep Machine.empty boomOps).2.drop 7, (execC cstep Machine.empty boomOps).1.heap.log) =
    ([.ok () (.var 4), .panic (), .ok () (.var 5), .ok () (.item (some 5))], [0, 1, 2]) := by decide +kernel

/-- A tree `0(1)`: the destructor of `1` panics, the root is left in memory for ever. -/
def leftOps : List (COp Nat) := [.call (.treeNew 0), .call (.treeNew 1), .call (.pushBack 0 [] 1), .dropPanic 0 0]

/-- The state after it. -/
def leftEnd : Machine Nat := (execC cstep Machine.empty leftOps).1

theorem leftEnd_live : leftEnd.heap.live 0 = true := by decide +kernel
theorem leftEnd_log : leftEnd.heap.log = [1] := by decide +kernel
theorem leftEnd_reachable : CReachable leftEnd := execC_reachable leftOps
theorem leftEnd_store : leftEnd.store = (execC specCrash Store.empty leftOps).1 := (c45_programs leftOps).2

attribute [irreducible] leftEnd

theorem leftEnd_empty (x : Var) : leftEnd.view x = none := by
  have e : leftEnd.view = leftEnd.store.vars := rfl
  rw [e, leftEnd_store]
  simp [leftOps, execC, specCrash, specStep, Store.empty, Store.bind, Store.set, Store.takeTree, Store.onKids, Store.setKids, Val.isIter,
    Val.kids, Val.setKids, kidsAt, modKids, Val.post, Store.drop]
  intro h
  simp [h]

/-- A panicking destructor does not destroy the rest of its tree: the claim that a dropped tree is always destroyed completely
and its memory released (C14) is false of programs whose destructors panic. -/
theorem c51_complete_refuted : ∃ m : Machine Nat, CReachable m ∧ (∀ x, m.view x = none) ∧ m.store.dropped = [1] ∧ ∃ a, m.heap.live a = true :=
  ⟨leftEnd, leftEnd_reachable, leftEnd_empty, leftEnd_log, 0, leftEnd_live⟩

end Trees
