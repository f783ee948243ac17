import Verif.Props.Refinement
/-
C01–C05, C11, C12, C40: editing calls.  All statements are about reachable states and about the
contents of variables as the public read API shows them (`Machine.view`).
-/
namespace Trees
set_option linter.unusedSimpArgs false
variable {α : Type}

/-! ### How to read `kidsAt` and `modKids` -/

/-- After `modKids ts p f` the child list at `p` is `f` of the old one. -/
theorem kidsAt_modKids {ts us : List (RTree α)} {p : Path} {f : List (RTree α) → List (RTree α)}
    (h : kidsAt ts p = some us) : kidsAt (modKids ts p f) p = some (f us) := by
  induction p generalizing ts with
  | nil => simp [kidsAt] at h; simp [kidsAt, modKids, h]
  | cons i p ih =>
    simp only [kidsAt] at h
    cases ht : ts[i]? with
    | none => rw [ht] at h; simp at h
    | some t =>
      rw [ht] at h
      have hi := (List.getElem?_eq_some_iff.mp ht).1
      simp only [modKids, ht, kidsAt]
      simp [hi, ih h]

/-- `modKids` keeps the data and the child list of every node that is not an ancestor-or-self of the
changed one: at any path `q` such that neither `p` is a prefix of `q` nor `q` of `p`. -/
theorem kidsAt_modKids_ne {ts : List (RTree α)} {p q : Path} {f : List (RTree α) → List (RTree α)}
    (h1 : ¬ p <+: q) (h2 : ¬ q <+: p) : kidsAt (modKids ts p f) q = kidsAt ts q := by
  induction p generalizing ts q with
  | nil => simp at h1
  | cons i p ih =>
    cases q with
    | nil => simp at h2
    | cons j q =>
      simp only [modKids]
      cases ht : ts[i]? with
      | none => rfl
      | some t =>
        simp only [kidsAt]
        by_cases hij : i = j
        · subst hij
          have hi := (List.getElem?_eq_some_iff.mp ht).1
          simp only [List.getElem?_set, ht, hi, if_true]
          simp
          apply ih
          · intro h; exact h1 (List.prefix_cons_inj i |>.mpr h)
          · intro h; exact h2 (List.prefix_cons_inj i |>.mpr h)
        · rw [List.getElem?_set_ne hij]

/-- `modKids` keeps the number of nodes in every child list that is a proper ancestor of the changed
node, and the data of the children in it. -/
theorem modKids_data {ts us : List (RTree α)} {p r : Path} {i : Nat} {f : List (RTree α) → List (RTree α)}
    (h : kidsAt ts p = some us) :
    (kidsAt (modKids ts (p ++ i :: r) f) p).map (List.map RTree.data) = some (us.map RTree.data) := by
  induction p generalizing ts with
  | nil =>
    simp only [kidsAt, Option.some.injEq] at h; subst h
    simp only [List.nil_append, modKids, kidsAt]
    cases ht : ts[i]? with
    | none => rfl
    | some t =>
      obtain ⟨hi, rfl⟩ := List.getElem?_eq_some_iff.mp ht
      simp only [Option.map_some, List.map_set, RTree.data_node, Option.some.injEq]
      apply List.ext_getElem?
      intro j
      by_cases hj : i = j
      · subst hj; simp [hi]
      · simp [List.getElem?_set_ne hj]
  | cons j p ih =>
    simp only [kidsAt] at h
    cases ht : ts[j]? with
    | none => rw [ht] at h; simp at h
    | some t =>
      rw [ht] at h
      have hi := (List.getElem?_eq_some_iff.mp ht).1
      simp only [List.cons_append, modKids, ht, kidsAt]
      simp [hi, ih h]

section
variable {m : Machine α} (hr : Reachable m)
include hr

/-- **C01** `push_back`: in any reachable state, called on the node at path `p` of variable `x` (a tree or forest) with
the tree of another variable `y`. -/
theorem c01_pushBack {x y : Var} {p : Path} {v : Val α} {t : RTree α} {us : List (RTree α)} (hxy : x ≠ y)
    (hx : m.view x = some v) (hy : m.view y = some (.tree t)) (hv : v.isIter = false) (hp : kidsAt v.kids p = some us) :
    ∃ m', step m (.pushBack x p y) = .ok m' .unit ∧ Reachable m' ∧
      m'.view x = some (v.setKids (modKids v.kids p (fun us => us ++ [t]))) ∧ m'.view y = none ∧
      (∀ z, z ≠ x → z ≠ y → m'.view z = m.view z) ∧ m'.store.dropped = m.store.dropped := by
  have hx' : m.store.vars x = some v := hx
  have hy' : m.store.vars y = some (.tree t) := hy
  obtain ⟨m', h1, h2, h3⟩ := step_ok hr (op := .pushBack x p y) (by
    simp only [specStep, Store.takeTree, hxy, if_false, hy', Store.onKids, hx', hv, hp]; rfl)
  have hvw : m'.view = m'.store.vars := rfl
  refine ⟨m', h1, h3, ?_, ?_, ?_, ?_⟩
  · rw [hvw, h2]; simp [Store.setKids, Store.set]
  · rw [hvw, h2]; simp [Store.setKids, Store.set, Ne.symm hxy]
  · intro z hz1 hz2; rw [hvw, h2]; simp [Store.setKids, Store.set, hz1, hz2]; rfl
  · rw [h2]; rfl

/-- **C01** `push_front`. -/
theorem c01_pushFront {x y : Var} {p : Path} {v : Val α} {t : RTree α} {us : List (RTree α)} (hxy : x ≠ y)
    (hx : m.view x = some v) (hy : m.view y = some (.tree t)) (hv : v.isIter = false) (hp : kidsAt v.kids p = some us) :
    ∃ m', step m (.pushFront x p y) = .ok m' .unit ∧ Reachable m' ∧
      m'.view x = some (v.setKids (modKids v.kids p (fun us => t :: us))) ∧ m'.view y = none ∧
      (∀ z, z ≠ x → z ≠ y → m'.view z = m.view z) ∧ m'.store.dropped = m.store.dropped := by
  have hx' : m.store.vars x = some v := hx
  have hy' : m.store.vars y = some (.tree t) := hy
  obtain ⟨m', h1, h2, h3⟩ := step_ok hr (op := .pushFront x p y) (by
    simp only [specStep, Store.takeTree, hxy, if_false, hy', Store.onKids, hx', hv, hp]; rfl)
  have hvw : m'.view = m'.store.vars := rfl
  refine ⟨m', h1, h3, ?_, ?_, ?_, ?_⟩
  · rw [hvw, h2]; simp [Store.setKids, Store.set]
  · rw [hvw, h2]; simp [Store.setKids, Store.set, Ne.symm hxy]
  · intro z hz1 hz2; rw [hvw, h2]; simp [Store.setKids, Store.set, hz1, hz2]; rfl
  · rw [h2]; rfl

/-- **C02** `pop_front` / `pop_back` on a node without children: `None`, nothing changes. -/
theorem c02_pop_empty {x : Var} {p : Path} {v : Val α} (hx : m.view x = some v) (hv : v.isIter = false)
    (hp : kidsAt v.kids p = some []) :
    (∃ m', step m (.popFront x p) = .ok m' .none ∧ m'.store = m.store) ∧
    (∃ m', step m (.popBack x p) = .ok m' .none ∧ m'.store = m.store) := by
  have hx' : m.store.vars x = some v := hx
  constructor
  · obtain ⟨m', h1, h2, _⟩ := step_ok hr (op := .popFront x p) (by
      simp only [specStep, Store.onKids, hx', hv, hp]; rfl)
    exact ⟨m', h1, h2⟩
  · obtain ⟨m', h1, h2, _⟩ := step_ok hr (op := .popBack x p) (by
      simp only [specStep, Store.onKids, hx', hv, hp]; rfl)
    exact ⟨m', h1, h2⟩

theorem fresh_ne_of_view {x : Var} {v : Val α} (hx : m.view x = some v) : x ≠ m.fresh := by
  obtain ⟨K, M⟩ := Proof.reachable_minv hr
  simp only [Machine.view] at hx
  cases h : m.env x with
  | none => rw [h] at hx; simp at hx
  | some hd => exact M.fresh_ne h

/-- **C02** `pop_front` on a node with children: the first child comes out as an independent tree in the
fresh variable, the others stay in order. -/
theorem c02_popFront {x : Var} {p : Path} {v : Val α} {t : RTree α} {ts : List (RTree α)}
    (hx : m.view x = some v) (hv : v.isIter = false) (hp : kidsAt v.kids p = some (t :: ts)) :
    ∃ m', step m (.popFront x p) = .ok m' (.var m.fresh) ∧ Reachable m' ∧
      m'.view x = some (v.setKids (modKids v.kids p (fun _ => ts))) ∧ m'.view m.fresh = some (.tree t) ∧
      (∀ z, z ≠ x → z ≠ m.fresh → m'.view z = m.view z) ∧ m'.store.dropped = m.store.dropped := by
  have hx' : m.store.vars x = some v := hx
  have hxf := fresh_ne_of_view hr hx
  have hf : m.store.fresh = m.fresh := rfl
  obtain ⟨m', h1, h2, h3⟩ := step_ok hr (op := .popFront x p) (by
    simp only [specStep, Store.onKids, hx', hv, hp]; rfl)
  have hvw : m'.view = m'.store.vars := rfl
  refine ⟨m', h1, h3, ?_, ?_, ?_, ?_⟩
  · rw [hvw, h2]; simp [Store.setKids, Store.set, Store.bind, hxf, hf]
  · rw [hvw, h2]; simp [Store.setKids, Store.set, Store.bind, hf]
  · intro z hz1 hz2; rw [hvw, h2]; simp [Store.setKids, Store.set, Store.bind, hz1, hz2, hf]; rfl
  · rw [h2]; rfl

/-- **C02** `pop_back`. -/
theorem c02_popBack {x : Var} {p : Path} {v : Val α} {t : RTree α} {ts : List (RTree α)}
    (hx : m.view x = some v) (hv : v.isIter = false) (hp : kidsAt v.kids p = some (ts ++ [t])) :
    ∃ m', step m (.popBack x p) = .ok m' (.var m.fresh) ∧ Reachable m' ∧
      m'.view x = some (v.setKids (modKids v.kids p (fun _ => ts))) ∧ m'.view m.fresh = some (.tree t) ∧
      (∀ z, z ≠ x → z ≠ m.fresh → m'.view z = m.view z) ∧ m'.store.dropped = m.store.dropped := by
  have hx' : m.store.vars x = some v := hx
  have hxf := fresh_ne_of_view hr hx
  have hf : m.store.fresh = m.fresh := rfl
  obtain ⟨m', h1, h2, h3⟩ := step_ok hr (op := .popBack x p) (by
    simp only [specStep, Store.onKids, hx', hv, hp, List.getLast?_concat, List.dropLast_concat]; rfl)
  have hvw : m'.view = m'.store.vars := rfl
  refine ⟨m', h1, h3, ?_, ?_, ?_, ?_⟩
  · rw [hvw, h2]; simp [Store.setKids, Store.set, Store.bind, hxf, hf]
  · rw [hvw, h2]; simp [Store.setKids, Store.set, Store.bind, hf]
  · intro z hz1 hz2; rw [hvw, h2]; simp [Store.setKids, Store.set, Store.bind, hz1, hz2, hf]; rfl
  · rw [h2]; rfl

/-- **C03** `append`. -/
theorem c03_append {x y : Var} {p : Path} {v : Val α} {ts us : List (RTree α)} (hxy : x ≠ y)
    (hx : m.view x = some v) (hy : m.view y = some (.forest ts)) (hv : v.isIter = false) (hp : kidsAt v.kids p = some us) :
    ∃ m', step m (.append x p y) = .ok m' .unit ∧ Reachable m' ∧
      m'.view x = some (v.setKids (modKids v.kids p (fun us => us ++ ts))) ∧ m'.view y = none ∧
      (∀ z, z ≠ x → z ≠ y → m'.view z = m.view z) ∧ m'.store.dropped = m.store.dropped := by
  have hx' : m.store.vars x = some v := hx
  have hy' : m.store.vars y = some (.forest ts) := hy
  obtain ⟨m', h1, h2, h3⟩ := step_ok hr (op := .append x p y) (by
    simp only [specStep, Store.takeForest, hxy, if_false, hy', Store.onKids, hx', hv, hp]; rfl)
  have hvw : m'.view = m'.store.vars := rfl
  refine ⟨m', h1, h3, ?_, ?_, ?_, ?_⟩
  · rw [hvw, h2]; simp [Store.setKids, Store.set]
  · rw [hvw, h2]; simp [Store.setKids, Store.set, Ne.symm hxy]
  · intro z hz1 hz2; rw [hvw, h2]; simp [Store.setKids, Store.set, hz1, hz2]; rfl
  · rw [h2]; rfl

/-- **C03** `prepend`. -/
theorem c03_prepend {x y : Var} {p : Path} {v : Val α} {ts us : List (RTree α)} (hxy : x ≠ y)
    (hx : m.view x = some v) (hy : m.view y = some (.forest ts)) (hv : v.isIter = false) (hp : kidsAt v.kids p = some us) :
    ∃ m', step m (.prepend x p y) = .ok m' .unit ∧ Reachable m' ∧
      m'.view x = some (v.setKids (modKids v.kids p (fun us => ts ++ us))) ∧ m'.view y = none ∧
      (∀ z, z ≠ x → z ≠ y → m'.view z = m.view z) ∧ m'.store.dropped = m.store.dropped := by
  have hx' : m.store.vars x = some v := hx
  have hy' : m.store.vars y = some (.forest ts) := hy
  obtain ⟨m', h1, h2, h3⟩ := step_ok hr (op := .prepend x p y) (by
    simp only [specStep, Store.takeForest, hxy, if_false, hy', Store.onKids, hx', hv, hp]; rfl)
  have hvw : m'.view = m'.store.vars := rfl
  refine ⟨m', h1, h3, ?_, ?_, ?_, ?_⟩
  · rw [hvw, h2]; simp [Store.setKids, Store.set]
  · rw [hvw, h2]; simp [Store.setKids, Store.set, Ne.symm hxy]
  · intro z hz1 hz2; rw [hvw, h2]; simp [Store.setKids, Store.set, hz1, hz2]; rfl
  · rw [h2]; rfl

/-- **C04** `insert_prev_sib` on the child `s` that has the siblings `l` before and `r` after it. -/
theorem c04_insertPrevSib {x y : Var} {q : Path} {v : Val α} {t s : RTree α} {l r : List (RTree α)} (hxy : x ≠ y)
    (hx : m.view x = some v) (hy : m.view y = some (.tree t)) (hv : v.isIter = false)
    (hp : kidsAt v.kids q = some (l ++ s :: r)) :
    ∃ m', step m (.insertPrevSib x (.child q l.length) y) = .ok m' .unit ∧ Reachable m' ∧
      m'.view x = some (v.setKids (modKids v.kids q (fun _ => l ++ t :: s :: r))) ∧ m'.view y = none ∧
      (∀ z, z ≠ x → z ≠ y → m'.view z = m.view z) ∧ m'.store.dropped = m.store.dropped := by
  have hx' : m.store.vars x = some v := hx
  have hy' : m.store.vars y = some (.tree t) := hy
  have hg : (l ++ s :: r)[l.length]? = some s := by simp
  obtain ⟨m', h1, h2, h3⟩ := step_ok hr (op := .insertPrevSib x (.child q l.length) y) (by
    simp only [specStep, Store.takeTree, hxy, if_false, hy', Store.onNode, hx', hv, hp, hg]; rfl)
  have hm := modKids_congr (f := fun us => insertAt us l.length t) (g := fun _ => l ++ t :: s :: r) hp (by simp [insertAt])
  have hvw : m'.view = m'.store.vars := rfl
  refine ⟨m', h1, h3, ?_, ?_, ?_, ?_⟩
  · rw [hvw, h2]; simp [Store.setKids, Store.set, hm]
  · rw [hvw, h2]; simp [Store.setKids, Store.set, Ne.symm hxy]
  · intro z hz1 hz2; rw [hvw, h2]; simp [Store.setKids, Store.set, hz1, hz2]; rfl
  · rw [h2]; rfl

/-- **C04** `insert_next_sib`. -/
theorem c04_insertNextSib {x y : Var} {q : Path} {v : Val α} {t s : RTree α} {l r : List (RTree α)} (hxy : x ≠ y)
    (hx : m.view x = some v) (hy : m.view y = some (.tree t)) (hv : v.isIter = false)
    (hp : kidsAt v.kids q = some (l ++ s :: r)) :
    ∃ m', step m (.insertNextSib x (.child q l.length) y) = .ok m' .unit ∧ Reachable m' ∧
      m'.view x = some (v.setKids (modKids v.kids q (fun _ => l ++ s :: t :: r))) ∧ m'.view y = none ∧
      (∀ z, z ≠ x → z ≠ y → m'.view z = m.view z) ∧ m'.store.dropped = m.store.dropped := by
  have hx' : m.store.vars x = some v := hx
  have hy' : m.store.vars y = some (.tree t) := hy
  have hg : (l ++ s :: r)[l.length]? = some s := by simp
  obtain ⟨m', h1, h2, h3⟩ := step_ok hr (op := .insertNextSib x (.child q l.length) y) (by
    simp only [specStep, Store.takeTree, hxy, if_false, hy', Store.onNode, hx', hv, hp, hg]; rfl)
  have hm := modKids_congr (f := fun us => insertAt us (l.length + 1) t) (g := fun _ => l ++ s :: t :: r) hp (by
    simp [insertAt, List.take_append, List.drop_append, List.take_of_length_le, List.drop_eq_nil_of_le])
  have hvw : m'.view = m'.store.vars := rfl
  refine ⟨m', h1, h3, ?_, ?_, ?_, ?_⟩
  · rw [hvw, h2]; simp [Store.setKids, Store.set, hm]
  · rw [hvw, h2]; simp [Store.setKids, Store.set, Ne.symm hxy]
  · intro z hz1 hz2; rw [hvw, h2]; simp [Store.setKids, Store.set, hz1, hz2]; rfl
  · rw [h2]; rfl

/-- **C05** `detach` on the child `s` that has the siblings `l` before and `r` after it. -/
theorem c05_detach {x : Var} {q : Path} {v : Val α} {s : RTree α} {l r : List (RTree α)}
    (hx : m.view x = some v) (hv : v.isIter = false) (hp : kidsAt v.kids q = some (l ++ s :: r)) :
    ∃ m', step m (.detach x (.child q l.length)) = .ok m' (.var m.fresh) ∧ Reachable m' ∧
      m'.view x = some (v.setKids (modKids v.kids q (fun _ => l ++ r))) ∧ m'.view m.fresh = some (.tree s) ∧
      (∀ z, z ≠ x → z ≠ m.fresh → m'.view z = m.view z) ∧ m'.store.dropped = m.store.dropped := by
  have hx' : m.store.vars x = some v := hx
  have hxf := fresh_ne_of_view hr hx
  have hf : m.store.fresh = m.fresh := rfl
  have hg : (l ++ s :: r)[l.length]? = some s := by simp
  obtain ⟨m', h1, h2, h3⟩ := step_ok hr (op := .detach x (.child q l.length)) (by
    simp only [specStep, Store.onNode, hx', hv, hp, hg]; rfl)
  have hm := modKids_congr (f := fun us => us.eraseIdx l.length) (g := fun _ => l ++ r) hp (by
    simp [List.eraseIdx_append])
  have hvw : m'.view = m'.store.vars := rfl
  refine ⟨m', h1, h3, ?_, ?_, ?_, ?_⟩
  · rw [hvw, h2]; simp [Store.setKids, Store.set, Store.bind, hxf, hf, hm]
  · rw [hvw, h2]; simp [Store.setKids, Store.set, Store.bind, hf]
  · intro z hz1 hz2; rw [hvw, h2]; simp [Store.setKids, Store.set, Store.bind, hz1, hz2, hf]; rfl
  · rw [h2]; rfl

/-- **C11** sibling insertion and detaching at the root of a tree panic; the tree and all others are
unchanged, only the argument of the insertion (owned by the failed call) is dropped. -/
theorem c11_root_panics {x : Var} {t : RTree α} (hx : m.view x = some (.tree t)) :
    (∃ m', step m (.detach x .root) = .panic m' ∧ m'.store = m.store ∧ Reachable m') ∧
    (∀ y s, x ≠ y → m.view y = some (.tree s) →
      (∃ m', step m (.insertPrevSib x .root y) = .panic m' ∧ Reachable m' ∧ m'.view y = none ∧
        (∀ z, z ≠ y → m'.view z = m.view z) ∧ m'.store.dropped = m.store.dropped ++ s.post) ∧
      (∃ m', step m (.insertNextSib x .root y) = .panic m' ∧ Reachable m' ∧ m'.view y = none ∧
        (∀ z, z ≠ y → m'.view z = m.view z) ∧ m'.store.dropped = m.store.dropped ++ s.post)) := by
  have hx' : m.store.vars x = some (.tree t) := hx
  refine ⟨?_, ?_⟩
  · exact step_panic hr (op := .detach x .root) (by simp only [specStep, Store.onNode, hx', Val.isIter]; rfl)
  · intro y s hxy hy
    have hy' : m.store.vars y = some (.tree s) := hy
    constructor
    · obtain ⟨m', h1, h2, h3⟩ := step_panic hr (op := .insertPrevSib x .root y) (by
        simp only [specStep, Store.takeTree, hxy, if_false, hy', Store.onNode, hx', Val.isIter]; rfl)
      have hvw : m'.view = m'.store.vars := rfl
      refine ⟨m', h1, h3, ?_, ?_, ?_⟩
      · rw [hvw, h2]; simp [Store.set, Store.drop]
      · intro z hz; rw [hvw, h2]; simp [Store.set, Store.drop, hz]; rfl
      · rw [h2]; rfl
    · obtain ⟨m', h1, h2, h3⟩ := step_panic hr (op := .insertNextSib x .root y) (by
        simp only [specStep, Store.takeTree, hxy, if_false, hy', Store.onNode, hx', Val.isIter]; rfl)
      have hvw : m'.view = m'.store.vars := rfl
      refine ⟨m', h1, h3, ?_, ?_, ?_⟩
      · rw [hvw, h2]; simp [Store.set, Store.drop]
      · intro z hz; rw [hvw, h2]; simp [Store.set, Store.drop, hz]; rfl
      · rw [h2]; rfl

/-- **C11** (converse) nothing else ever panics: if a call panics in a reachable state, it is one of
these three, at the root of a tree. -/
theorem c11_only_root {op : Op α} {m' : Machine α} (h : step m op = .panic m') :
    ∃ x, (op = .detach x .root ∨ (∃ y, op = .insertPrevSib x .root y) ∨ ∃ y, op = .insertNextSib x .root y) ∧
      ∃ t, m.view x = some (.tree t) := by
  have h2 := c10_step hr op
  rw [h] at h2
  have key : ∀ S S' : Store α, specStep S op = .panic S' →
      ∃ x, (op = .detach x .root ∨ (∃ y, op = .insertPrevSib x .root y) ∨ ∃ y, op = .insertNextSib x .root y) ∧
      ∃ t, S.vars x = some (.tree t) := by
    intro S S' hs
    cases op <;> simp only [specStep, Store.takeTree, Store.takeForest, Store.onKids, Store.onNode] at hs <;>
      (repeat' split at hs) <;> simp at hs <;> simp_all
  obtain ⟨x, h3, t, h4⟩ := key _ _ h2.symm
  exact ⟨x, h3, t, h4⟩

/-- **C12** `abandon`. -/
theorem c12_abandon {x : Var} {d : α} {ts : List (RTree α)} (hx : m.view x = some (.tree (.node d ts))) :
    ∃ m', step m (.abandon x) = .ok m' (.var m.fresh) ∧ Reachable m' ∧
      m'.view x = some (.tree (.node d [])) ∧ m'.view m.fresh = some (.forest ts) ∧
      (∀ z, z ≠ x → z ≠ m.fresh → m'.view z = m.view z) ∧ m'.store.dropped = m.store.dropped := by
  have hx' : m.store.vars x = some (.tree (.node d ts)) := hx
  have hxf := fresh_ne_of_view hr hx
  have hf : m.store.fresh = m.fresh := rfl
  obtain ⟨m', h1, h2, h3⟩ := step_ok hr (op := .abandon x) (by
    simp only [specStep, hx']; rfl)
  have hvw : m'.view = m'.store.vars := rfl
  refine ⟨m', h1, h3, ?_, ?_, ?_, ?_⟩
  · rw [hvw, h2]; simp [Store.set, Store.bind, hxf, hf]
  · rw [hvw, h2]; simp [Store.set, Store.bind, hf]
  · intro z hz1 hz2; rw [hvw, h2]; simp [Store.set, Store.bind, hz1, hz2, hf]; rfl
  · rw [h2]; rfl

/-- **C40** writing through `data_mut` at the root of a tree. -/
theorem c40_setData_root {x : Var} {d d' : α} {ts : List (RTree α)} (hx : m.view x = some (.tree (.node d ts))) :
    ∃ m', step m (.setData x .root d') = .ok m' .unit ∧ Reachable m' ∧
      m'.view x = some (.tree (.node d' ts)) ∧ (∀ z, z ≠ x → m'.view z = m.view z) ∧
      m'.store.dropped = m.store.dropped ++ [d] ∧
      (∃ m'', step m' (.data x .root) = .ok m'' (.item (some d')) ∧ m''.store = m'.store) := by
  have hx' : m.store.vars x = some (.tree (.node d ts)) := hx
  obtain ⟨m', h1, h2, h3⟩ := step_ok hr (op := .setData x .root d') (by
    simp only [specStep, Store.onNode, hx', Val.isIter]; rfl)
  have hvw : m'.view = m'.store.vars := rfl
  have h4 : m'.view x = some (.tree (.node d' ts)) := by rw [hvw, h2]; simp [Store.set, Store.drop]
  refine ⟨m', h1, h3, h4, ?_, ?_, ?_⟩
  · intro z hz1; rw [hvw, h2]; simp [Store.set, Store.drop, hz1]; rfl
  · rw [h2]; rfl
  · have h4' : m'.store.vars x = some (.tree (.node d' ts)) := h4
    obtain ⟨m'', g1, g2, _⟩ := step_ok h3 (op := .data x .root) (by
      simp only [specStep, Store.onNode, h4', Val.isIter]; rfl)
    exact ⟨m'', g1, g2⟩

/-- **C40** writing through `data_mut` at any other node: only that data item changes. -/
theorem c40_setData_child {x : Var} {q : Path} {v : Val α} {d d' : α} {ks l r : List (RTree α)}
    (hx : m.view x = some v) (hv : v.isIter = false) (hp : kidsAt v.kids q = some (l ++ .node d ks :: r)) :
    ∃ m', step m (.setData x (.child q l.length) d') = .ok m' .unit ∧ Reachable m' ∧
      m'.view x = some (v.setKids (modKids v.kids q (fun _ => l ++ .node d' ks :: r))) ∧
      (∀ z, z ≠ x → m'.view z = m.view z) ∧ m'.store.dropped = m.store.dropped ++ [d] ∧
      (∃ m'', step m' (.data x (.child q l.length)) = .ok m'' (.item (some d')) ∧ m''.store = m'.store) := by
  have hx' : m.store.vars x = some v := hx
  have hg : (l ++ RTree.node d ks :: r)[l.length]? = some (.node d ks) := by simp
  obtain ⟨m', h1, h2, h3⟩ := step_ok hr (op := .setData x (.child q l.length) d') (by
    simp only [specStep, Store.onNode, hx', hv, hp, hg]; rfl)
  have hm := modKids_congr (f := fun us => us.set l.length (.node d' ks)) (g := fun _ => l ++ .node d' ks :: r) hp (by
    simp)
  have hvw : m'.view = m'.store.vars := rfl
  have h4 : m'.view x = some (v.setKids (modKids v.kids q (fun _ => l ++ .node d' ks :: r))) := by
    rw [hvw, h2]
    simp only [Store.setKids, Store.set, Store.drop, if_true, RTree.kids_node]
    rw [hm]
  refine ⟨m', h1, h3, h4, ?_, ?_, ?_⟩
  · intro z hz1; rw [hvw, h2]; simp [Store.setKids, Store.set, Store.drop, hz1]; rfl
  · rw [h2]; rfl
  · have h4' : m'.store.vars x = _ := h4
    have hk : kidsAt (v.setKids (modKids v.kids q (fun _ => l ++ .node d' ks :: r))).kids q = some (l ++ .node d' ks :: r) := by
      have := kidsAt_modKids (f := fun _ => l ++ .node d' ks :: r) hp
      cases v <;> simpa [Val.setKids, Val.kids] using this
    have hi : (v.setKids (modKids v.kids q (fun _ => l ++ .node d' ks :: r))).isIter = false := by
      cases v <;> simp_all [Val.setKids, Val.isIter]
    have hg2 : (l ++ RTree.node d' ks :: r)[l.length]? = some (.node d' ks) := by simp
    obtain ⟨m'', g1, g2, _⟩ := step_ok h3 (op := .data x (.child q l.length)) (by
      simp only [specStep, Store.onNode, h4', hi, hk, hg2]; rfl)
    exact ⟨m'', g1, g2⟩

end

/-- **C05** (round trip) detaching a child and inserting it again before its old next sibling
restores the value of the variable. -/
theorem c05_detach_reinsert {m : Machine α} (hr : Reachable m) {x : Var} {q : Path} {v : Val α} {s n : RTree α}
    {l r : List (RTree α)}
    (hx : m.view x = some v) (hv : v.isIter = false) (hp : kidsAt v.kids q = some (l ++ s :: n :: r)) :
    ∃ m1 m2, step m (.detach x (.child q l.length)) = .ok m1 (.var m.fresh) ∧
      step m1 (.insertPrevSib x (.child q l.length) m.fresh) = .ok m2 .unit ∧ m2.view x = m.view x := by
  have hxf := fresh_ne_of_view hr hx
  obtain ⟨m1, h1, h2, h3, h4, _⟩ := c05_detach hr hx hv hp
  have hk : kidsAt (v.setKids (modKids v.kids q (fun _ => l ++ n :: r))).kids q = some (l ++ n :: r) := by
    have := kidsAt_modKids (f := fun _ => l ++ n :: r) hp
    cases v <;> simpa [Val.setKids, Val.kids] using this
  have hi : (v.setKids (modKids v.kids q (fun _ => l ++ n :: r))).isIter = false := by
    cases v <;> simp_all [Val.setKids, Val.isIter]
  obtain ⟨m2, g1, _, g3, _⟩ := c04_insertPrevSib h2 hxf h3 h4 hi hk
  refine ⟨m1, m2, h1, g1, ?_⟩
  rw [g3, hx]
  congr 1
  have e1 : ∀ w : List (RTree α), (v.setKids w).kids = w := by intro w; cases v <;> rfl
  rw [e1]
  have e2 : ∀ (ts : List (RTree α)) (p : Path) (us : List (RTree α)) (f), kidsAt ts p = some us →
      modKids (modKids ts p f) p (fun _ => us) = ts := by
    intro ts p us f h
    induction p generalizing ts with
    | nil => simp [kidsAt] at h; simp [modKids, h]
    | cons i p ih =>
      simp only [kidsAt] at h
      cases ht : ts[i]? with
      | none => rw [ht] at h; simp at h
      | some t =>
        rw [ht] at h
        obtain ⟨hi, rfl⟩ := List.getElem?_eq_some_iff.mp ht
        simp only [modKids, ht]
        simp [hi, ih _ h, RTree.eta]
  rw [e2 _ _ _ _ hp]
  cases v with
  | tree t => cases t; rfl
  | forest ts => rfl
  | iter ts => rfl

/-! ### The hypotheses can be met -/

example : ∃ m', step demo (.pushBack 0 [0] 3) = .ok m' .unit ∧ Reachable m' ∧
    m'.view 0 = some (.tree (.node 0 [.node 1 [.node 3 []], .node 2 []])) := by
  obtain ⟨m', h1, h2, h3, _⟩ := c01_pushBack demo_reachable (x := 0) (y := 3) (p := [0]) (by decide) demo_view0 demo_view3 rfl rfl
  exact ⟨m', h1, h2, h3⟩

example : ∃ m', step demo (.pushFront 0 [] 3) = .ok m' .unit ∧
    m'.view 0 = some (.tree (.node 0 [.node 3 [], .node 1 [], .node 2 []])) := by
  obtain ⟨m', h1, h2, h3, _⟩ := c01_pushFront demo_reachable (x := 0) (y := 3) (p := []) (by decide) demo_view0 demo_view3 rfl rfl
  exact ⟨m', h1, h3⟩

example : ∃ m', step demo (.popFront 0 []) = .ok m' (.var 4) ∧
    m'.view 0 = some (.tree (.node 0 [.node 2 []])) ∧ m'.view 4 = some (.tree (.node 1 [])) := by
  obtain ⟨m', h1, h2, h3, h4, _⟩ := c02_popFront demo_reachable (x := 0) (p := []) demo_view0 rfl rfl
  exact ⟨m', h1, h3, h4⟩

example : ∃ m', step demo (.popBack 0 []) = .ok m' (.var 4) ∧
    m'.view 0 = some (.tree (.node 0 [.node 1 []])) ∧ m'.view 4 = some (.tree (.node 2 [])) := by
  obtain ⟨m', h1, h2, h3, h4, _⟩ := c02_popBack demo_reachable (x := 0) (p := []) (ts := [.node 1 []]) demo_view0 rfl rfl
  exact ⟨m', h1, h3, h4⟩

example : ∃ m', step demo (.popBack 0 [1]) = .ok m' .none := by
  obtain ⟨m', h1, _⟩ := (c02_pop_empty demo_reachable (x := 0) (p := [1]) demo_view0 rfl rfl).2
  exact ⟨m', h1⟩

/-- `demo` after `abandon`: variable 0 is `0`, variable 4 the forest `(1 2)`. -/
def demoF : Machine Nat := (exec step Machine.empty (demoOps ++ [.abandon 0])).1
theorem demoF_reachable : Reachable demoF := exec_reachable _
theorem demoF_view0 : demoF.view 0 = some (.tree (.node 0 [])) := by rfl
theorem demoF_view3 : demoF.view 3 = some (.tree (.node 3 [])) := by rfl
theorem demoF_view4 : demoF.view 4 = some (.forest [.node 1 [], .node 2 []]) := by rfl

example : ∃ m', step demo (.abandon 0) = .ok m' (.var 4) ∧ m'.view 4 = some (.forest [.node 1 [], .node 2 []]) := by
  obtain ⟨m', h1, h2, h3, h4, _⟩ := c12_abandon demo_reachable demo_view0
  exact ⟨m', h1, h4⟩

example : ∃ m', step demoF (.append 3 [] 4) = .ok m' .unit ∧
    m'.view 3 = some (.tree (.node 3 [.node 1 [], .node 2 []])) := by
  obtain ⟨m', h1, h2, h3, _⟩ := c03_append demoF_reachable (x := 3) (y := 4) (p := []) (by decide) demoF_view3 demoF_view4 rfl rfl
  exact ⟨m', h1, h3⟩

example : ∃ m', step demoF (.prepend 3 [] 4) = .ok m' .unit := by
  obtain ⟨m', h1, _⟩ := c03_prepend demoF_reachable (x := 3) (y := 4) (p := []) (by decide) demoF_view3 demoF_view4 rfl rfl
  exact ⟨m', h1⟩

example : ∃ m', step demo (.insertPrevSib 0 (.child [] 1) 3) = .ok m' .unit ∧
    m'.view 0 = some (.tree (.node 0 [.node 1 [], .node 3 [], .node 2 []])) := by
  obtain ⟨m', h1, h2, h3, _⟩ := c04_insertPrevSib demo_reachable (x := 0) (y := 3) (q := []) (l := [.node 1 []]) (r := [])
    (by decide) demo_view0 demo_view3 rfl rfl
  exact ⟨m', h1, h3⟩

example : ∃ m', step demo (.insertNextSib 0 (.child [] 1) 3) = .ok m' .unit ∧
    m'.view 0 = some (.tree (.node 0 [.node 1 [], .node 2 [], .node 3 []])) := by
  obtain ⟨m', h1, h2, h3, _⟩ := c04_insertNextSib demo_reachable (x := 0) (y := 3) (q := []) (l := [.node 1 []]) (r := [])
    (by decide) demo_view0 demo_view3 rfl rfl
  exact ⟨m', h1, h3⟩

example : ∃ m', step demo (.detach 0 (.child [] 0)) = .ok m' (.var 4) ∧
    m'.view 0 = some (.tree (.node 0 [.node 2 []])) := by
  obtain ⟨m', h1, h2, h3, _⟩ := c05_detach demo_reachable (x := 0) (q := []) (l := []) (r := [.node 2 []]) demo_view0 rfl rfl
  exact ⟨m', h1, h3⟩

example : ∃ m1 m2, step demo (.detach 0 (.child [] 0)) = .ok m1 (.var 4) ∧
    step m1 (.insertPrevSib 0 (.child [] 0) 4) = .ok m2 .unit ∧ m2.view 0 = demo.view 0 :=
  c05_detach_reinsert demo_reachable (x := 0) (q := []) (l := []) (r := []) demo_view0 rfl rfl

example : ∃ m', step demo (.insertPrevSib 0 .root 3) = .panic m' ∧ m'.view 0 = demo.view 0 := by
  obtain ⟨m', h1, _, _, h2, _⟩ := ((c11_root_panics demo_reachable demo_view0).2 3 _ (by decide) demo_view3).1
  exact ⟨m', h1, h2 0 (by decide)⟩

example : ∃ x, ∃ t, demo.view x = some (.tree t) := by
  obtain ⟨m', h1, _⟩ := (c11_root_panics demo_reachable demo_view0).1
  obtain ⟨x, _, t, h⟩ := c11_only_root demo_reachable h1
  exact ⟨x, t, h⟩

example : ∃ m', step demo (.setData 0 (.child [] 1) 9) = .ok m' .unit ∧
    m'.view 0 = some (.tree (.node 0 [.node 1 [], .node 9 []])) := by
  obtain ⟨m', h1, h2, h3, _⟩ := c40_setData_child demo_reachable (x := 0) (q := []) (l := [.node 1 []]) (r := []) (d' := 9)
    demo_view0 rfl rfl
  exact ⟨m', h1, h3⟩

example : ∃ m', step demo (.setData 0 .root 9) = .ok m' .unit := by
  obtain ⟨m', h1, _⟩ := c40_setData_root demo_reachable (d' := 9) demo_view0
  exact ⟨m', h1⟩

end Trees
