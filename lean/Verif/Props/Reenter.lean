import Verif.Proof.Reenter
import Verif.Props.Refinement
/-
C66: destructors of items may use the crate themselves.
-/
namespace Trees
set_option linter.unusedSimpArgs false
set_option linter.unusedVariables false
variable {α : Type}

theorem lift_nil (m : Machine α) : m.lift [] = m := by
  cases m with
  | mk h e f =>
  simp only [Machine.lift, List.length_nil, Nat.add_zero, Machine.mk.injEq, true_and, and_true]
  funext x; rfl

theorem reachable_pend {m : Machine α} (h : Reachable m) : Pend m [] [] :=
  ⟨by rw [lift_nil]; exact Proof.reachable_minv h, rfl⟩

/-- The crate, run with destructors that use it, does what the specification says: same outcomes, same values, same items destroyed
in the same order; and the destructors nest equally deep. -/
theorem c66_program {m : Machine α} (h : Reachable m) (dtor : α → List (Op α)) (n : Nat) (ops : List (Op α)) :
    (execR dtor n m ops).map (fun q => (q.1.store, q.2)) = specExecR dtor n m.store ops := by
  have := execR_ok dtor n ops (reachable_pend h)
  revert this
  generalize execR dtor n m ops = A
  generalize specExecR dtor n m.store ops = B
  intro h
  cases A <;> cases B <;> simp only [XSim] at h <;> simp only [Run.map, Run.done.injEq]
  rename_i a b
  cases a; cases b
  simp only [Prod.mk.injEq]
  exact ⟨h.2.1, h.1.1⟩

/-- Nothing goes wrong: no use of freed memory, no double drop, no failed internal check. -/
theorem c66_safe {m : Machine α} (h : Reachable m) (dtor : α → List (Op α)) (n : Nat) (ops : List (Op α)) :
    execR dtor n m ops ≠ .bad ∧ ∀ m' os, execR dtor n m ops = .done (m', os) → ∀ o ∈ os, o ≠ .bad := by
  have := execR_ok dtor n ops (reachable_pend h)
  constructor
  · intro e
    rw [e] at this
    cases hB : specExecR dtor n m.store ops <;> rw [hB] at this <;> exact this
  · intro m' os e
    rw [e] at this
    cases hB : specExecR dtor n m.store ops <;> rw [hB] at this <;> simp only [XSim] at this
    exact this.1.2

/-- No leak: when no variable holds a value, no memory of the crate is live. -/
theorem c66_released {m m' : Machine α} (h : Reachable m) {dtor : α → List (Op α)} {n : Nat} {ops : List (Op α)} {os : List (Outcome Unit α)}
    (e : execR dtor n m ops = .done (m', os)) (he : ∀ x, m'.view x = none) : (∀ a, m'.heap.live a = false) ∧ ∀ w, m'.heap.vec w = none := by
  have := execR_ok dtor n ops (reachable_pend h)
  rw [e] at this
  cases hB : specExecR dtor n m.store ops <;> rw [hB] at this <;> simp only [XSim] at this
  obtain ⟨-, -, p, -⟩ := this
  obtain ⟨K, M⟩ := p.inv
  rw [lift_nil] at M
  have hn : ∀ x, m'.env x = none := by
    intro x
    cases hx : m'.env x with
    | none => rfl
    | some hd =>
      obtain ⟨v, hv, -⟩ := p.take hx
      have : m'.view x = some v := hv
      rw [he x] at this; cases this
  have nu : ∀ a, ¬ m'.heap.Used a := by
    intro a ha
    obtain ⟨r, h1, h2, -⟩ := M.inv.exists_root ha
    obtain ⟨x, hd, e, -⟩ := M.all r h1 h2
    rw [hn x] at e; cases e
  have nv : ∀ w nw, m'.heap.vec w ≠ some nw := by
    intro w nw h
    have h3 := M.st.cnt w nw h
    have h4 := M.st.pos w nw h
    have h5 : 0 < usedCnt m'.heap nw := by omega
    obtain ⟨b, -, hb2⟩ := List.countP_pos_iff.mp h5
    exact nu b (Heap.usedB_iff.mp hb2)
  constructor
  · intro a
    cases h : m'.heap.live a with
    | false => rfl
    | true =>
      rcases M.st.tight a h with h1 | ⟨w, nw, h1, -⟩
      · exact absurd h1 (nu a)
      · exact absurd h1 (nv w nw)
  · intro w
    cases h : m'.heap.vec w with
    | none => rfl
    | some nw => exact absurd h (nv w nw)

/-! ### Destructors that do nothing -/

theorem destroyItems_inert (ds : List α) (S : Store α) : destroyItems (fun _ S => .done S) ds S = .done (S.drop ds) := by
  induction ds generalizing S with
  | nil => simp [destroyItems, Store.drop]
  | cons d ds ih =>
    simp only [destroyItems, Run.bind, ih]
    simp [Store.drop]

theorem set_back (S : Store α) (x : Var) : (S.set x none).set x (S.vars x) = S := by
  cases S
  simp only [Store.set, Store.mk.injEq, and_true]
  funext z
  split
  · rename_i h; rw [h]
  · rfl

theorem sib_panic_inert {S S' : Store α} {x y : Var} {l : Loc} {q : Bool} {v : Val α} (hv : S.vars y = some v)
    (h : specStep S (if q then .insertPrevSib x l y else .insertNextSib x l y) = .panic S') :
    ((S.set y none).borrowing x (destroyItems (fun _ S => .done S) v.post)).map Outcome.panic = .done (Outcome.panic S' : Outcome (Store α) α) := by
  obtain ⟨hne, -, t, ht⟩ := spec_sib_panic h
  have key : S' = (S.set y none).drop t.post := by
    cases q <;> simp only [specStep, Store.takeTree, hne, ht, if_true, if_false, Store.onNode, Bool.false_eq_true] at h
    all_goals
      split at h
      · cases h
      · split at h
        · cases h
        · split at h
          · split at h <;> cases h <;> rfl
          · split at h
            · cases h
            · split at h <;> cases h
  rw [hv] at ht; cases ht
  simp only [Store.borrowing, destroyItems_inert, Run.map]
  rw [key]
  have := set_back ((S.set y none).drop t.post) x
  simp only [Val.post]
  rw [← this]
  rfl

/-- With destructors that make no calls, this is the plain meaning of programs (C01). -/
theorem c66_inert (n : Nat) (S : Store α) (ops : List (Op α)) :
    specExecR (fun _ => []) (n + 1) S ops = .done (exec specStep S ops) := by
  have hD : (fun d S => (specExecR (fun _ : α => []) n S []).map Prod.fst : α → Store α → Run (Store α)) = fun _ S => .done S := by
    funext d S
    cases n <;> rfl
  have hst : ∀ S op, specStepR (fun _ S => .done S) S op = .done (specStep (α := α) S op) := by
    intro S op
    cases op with
    | drop x =>
      simp only [specStepR, specStep]
      cases S.vars x with
      | none => rfl
      | some v => simp only [destroyItems_inert]; rfl
    | setData x l d =>
      simp only [specStepR]
      rcases spec_setData S x l d with h | ⟨h1, h2⟩ | ⟨S', old, w, h1, h2, -, -⟩
      · rw [h]
        cases specStep S (.data x l) with
        | ok a b => cases b <;> (try rename_i o; cases o) <;> rfl
        | _ => rfl
      · rw [h1, h2]
      · rw [h1, h2]
        simp only [Store.borrowing, Run.map, set_back]
    | insertPrevSib x l y =>
      simp only [specStepR]
      cases hv : S.vars y with
      | none => rfl
      | some v =>
        cases hs : specStep S (.insertPrevSib x l y) with
        | panic S' => exact sib_panic_inert (q := true) hv hs
        | _ => rfl
    | insertNextSib x l y =>
      simp only [specStepR]
      cases hv : S.vars y with
      | none => rfl
      | some v =>
        cases hs : specStep S (.insertNextSib x l y) with
        | panic S' => exact sib_panic_inert (q := false) hv hs
        | _ => rfl
    | _ => rfl
  simp only [specExecR, hD]
  induction ops generalizing S with
  | nil => rfl
  | cons op ops ih =>
    simp only [runOps, hst, Run.bind, exec]
    cases specStep S op <;> simp only [ih, Run.map] <;> rfl

/-! ### Destructors that make a tree, hang it into another one and drop a third -/

/-- Item 1 makes a tree `7` and appends it to the tree in variable 2; item 0 drops that tree; item 3 appends a new tree to the tree in
variable 0 if that is not borrowed, and otherwise to the tree in variable 1. -/
def c66_dtor : Nat → List (Op Nat)
  | 1 => [.treeNew 7, .pushBack 2 [] 3]
  | 0 => [.data 2 .root, .drop 2]
  | 3 => [.treeNew 8, .pushBack 0 [] 3, .pushBack 1 [] 3]
  | _ => []

def c66_ops : List (Op Nat) := [.treeNew 0, .treeNew 1, .treeNew 50, .pushBack 0 [] 1, .drop 0]

/-- The root of tree 0 is replaced, tree 2 (holding a 3) is passed to an `insert_next_sib` that panics. -/
def c66_ops2 : List (Op Nat) := [.treeNew 3, .treeNew 9, .treeNew 3, .setData 0 .root 5, .insertNextSib 0 .root 2, .childData 1 []]

def c66_view (p : Store Nat × List (Outcome Unit Nat)) : List Nat × List (Option (List Nat)) × List Nat :=
  (p.1.dropped, (List.range p.1.fresh).map fun x => (p.1.vars x).map Val.post, p.2.map fun o => match o with
    | .ok _ (.items ds) => ds.length
    | .ok _ _ => 0
    | .panic _ => 77
    | .rejected => 88
    | .bad => 99)

def Run.get {σ : Type} : Run σ → Option σ
  | .done s => some s
  | _ => none

/-- Dropping the tree `0 [1]`: the destructor of 1 grows tree 50, the destructor of 0 drops it; all of that happens inside one `drop`. -/
theorem c66_demo_spec : (specExecR c66_dtor 3 Store.empty c66_ops).get.map c66_view =
    some ([1, 0, 7, 50], [none, none, none, none], [0, 0, 0, 0, 0]) := by decide +kernel

theorem c66_demo2_spec : (specExecR c66_dtor 3 Store.empty c66_ops2).get.map c66_view =
    some ([3, 3], [some [5], some [8, 9], none, none, some [8]], [0, 0, 0, 0, 77, 1]) := by decide +kernel

theorem Run.get_map {σ τ : Type} (f : σ → τ) (r : Run σ) : (r.map f).get = r.get.map f := by cases r <;> rfl

/-- So the crate does it. -/
theorem c66_demo : ((execR c66_dtor 3 Machine.empty c66_ops).get.map fun q => c66_view (q.1.store, q.2)) =
    some ([1, 0, 7, 50], [none, none, none, none], [0, 0, 0, 0, 0]) := by
  have h := c66_program Reachable.init c66_dtor 3 c66_ops
  have e : (Machine.empty : Machine Nat).store = Store.empty := rfl
  rw [e] at h
  rw [← c66_demo_spec, ← h, Run.get_map, Option.map_map]
  rfl

theorem c66_demo2 : ((execR c66_dtor 3 Machine.empty c66_ops2).get.map fun q => c66_view (q.1.store, q.2)) =
    some ([3, 3], [some [5], some [8, 9], none, none, some [8]], [0, 0, 0, 0, 77, 1]) := by
  have h := c66_program Reachable.init c66_dtor 3 c66_ops2
  have e : (Machine.empty : Machine Nat).store = Store.empty := rfl
  rw [e] at h
  rw [← c66_demo2_spec, ← h, Run.get_map, Option.map_map]
  rfl

/-- Deeper nesting than the bound is reported. -/
theorem c66_demo_deep : (specExecR c66_dtor 1 Store.empty c66_ops).get.map c66_view = none := by decide +kernel

end Trees
