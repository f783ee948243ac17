import Verif.Proof.CrashOps
import Verif.Props.Bfs
/-
C45: panics of user code (closures, `T::clone`) while a tree or forest is being built.
-/
namespace Trees
set_option linter.unusedSimpArgs false
variable {α : Type}
open RTree

/-! ### How to read the specification -/

/-- `firstPanic` is the first call of the closure, in level order, that panics. -/
theorem firstPanic_spec (f : Nat → α → Option α) (ts : List (RTree α)) (n : Nat) :
    firstPanic f ts = some n ↔
      (∃ t, (levelOrder ts)[n]? = some t ∧ f n t.data = none) ∧ ∀ j t, j < n → (levelOrder ts)[j]? = some t → f j t.data ≠ none := by
  constructor
  · intro h; exact (firstPanic_some h).2
  · rintro ⟨⟨t, h1, h2⟩, h3⟩
    cases e : firstPanic f ts with
    | none => exact absurd h2 (firstPanic_none e n t h1)
    | some k =>
      obtain ⟨_, ⟨u, g1, g2⟩, g3⟩ := firstPanic_some e
      rcases Nat.lt_trichotomy k n with h | h | h
      · exact absurd g2 (h3 k u h g1)
      · rw [h]
      · exact absurd h2 (g3 n t h h1)

/-- The closure returns on every node. -/
theorem firstPanic_none_iff (f : Nat → α → Option α) (ts : List (RTree α)) :
    firstPanic f ts = none ↔ ∀ (j : Nat) (t : RTree α), (levelOrder ts)[j]? = some t → f j t.data ≠ none := by
  constructor
  · exact firstPanic_none
  · intro h
    cases e : firstPanic f ts with
    | none => rfl
    | some k =>
      obtain ⟨_, ⟨u, g1, g2⟩, _⟩ := firstPanic_some e
      exact absurd g2 (h k u g1)

/-- What unwinding destroys and the items of the visits before the panic are together all items, each once. -/
theorem unwound_conserve {f : Nat → α → Option α} {ts : List (RTree α)} {n : Nat} (h : firstPanic f ts = some n) :
    (((levelOrder ts).take n).map data ++ unwound n ts).Perm (preL ts) := by
  obtain ⟨_, ⟨t, ht, _⟩, _⟩ := firstPanic_some h
  have := bfs_conserve (n + 1) ts
  rw [List.take_add_one, ht] at this
  simpa [unwound, ht] using this

/-! ### The theorems -/

namespace Proof

theorem CInv.store_eq {m : Machine α} {S : Store α} (h : CInv m S) : m.store = S := by
  obtain ⟨X, l, K, M, A⟩ := h
  have e := A.store_eq M
  rw [← e]
  simp only [Machine.store, l.log, Store.mk.injEq, and_true]
  funext x
  cases hx : m.env x with
  | none => simp [Machine.view, hx]
  | some hd =>
    have := M.abs_store.vars x
    simp only [hx] at this
    obtain ⟨v, e, hv⟩ := this
    have hr := hv.read M.inv (M.hnd x hd hx)
    simp only [Machine.view, hx, hr, l.read hr]

theorem creachable_cinv {m : Machine α} (h : CReachable m) : CInv m m.store := by
  induction h with
  | init => exact ⟨_, .refl _, _, minv_empty, minv_empty.abs_store⟩
  | ok hr e ih =>
    rename_i m m' op o
    have := ih.step op
    rw [e] at this
    cases hs : specCrash m.store op <;> rw [hs] at this <;> simp only [CSim] at this
    obtain ⟨_, h⟩ := this
    rw [CInv.store_eq h]; exact h
  | panic hr e ih =>
    rename_i m m' op
    have := ih.step op
    rw [e] at this
    cases hs : specCrash m.store op <;> rw [hs] at this <;> simp only [CSim] at this
    rw [CInv.store_eq this]; exact this

end Proof

/-- **C45** (one call).  In every state that a program can reach that catches panics of its own closures and goes on,
every call has exactly the specified effect, whether or not its user code panics. -/
theorem c45_step {m : Machine α} (hr : CReachable m) (op : COp α) :
    (cstep m op).map Machine.store = specCrash m.store op := by
  have := (Proof.creachable_cinv hr).step op
  cases h1 : cstep m op <;> cases h2 : specCrash m.store op <;> rw [h1, h2] at this <;> simp only [CSim] at this
  · obtain ⟨e, h⟩ := this
    simp [Outcome.map, e, Proof.CInv.store_eq h]
  · simp [Outcome.map, Proof.CInv.store_eq this]
  · rfl

theorem specCrash_ne_bad (S : Store α) (op : COp α) : specCrash S op ≠ .bad := by
  cases op with
  | call op =>
    cases op <;> simp only [specCrash, specStep, Store.takeTree, Store.takeForest, Store.onKids, Store.onNode] <;>
      (repeat' split) <;> simp
  | setDataPanic x l d =>
    have : specStep S (.setData x l d) ≠ .bad := by
      simp only [specStep, Store.onNode]
      (repeat' split) <;> simp
    simp only [specCrash]
    split
    · simp
    · exact this
  | _ => simp only [specCrash, Store.onKids, Store.onNode] <;> (repeat' split) <;> simp

/-- **C45**: no call accesses dead memory or loops, even long after a panic. -/
theorem c45_never_bad {m : Machine α} (hr : CReachable m) (op : COp α) : cstep m op ≠ .bad := by
  intro h
  have := c45_step hr op
  rw [h] at this
  exact specCrash_ne_bad _ _ this.symm

/-- Run a program; calls rejected by the compiler are skipped, panics are caught and recorded. -/
def execC {σ : Type} (st : σ → COp α → Outcome σ α) : σ → List (COp α) → σ × List (Outcome Unit α)
  | s, [] => (s, [])
  | s, op :: ops =>
    let r := st s op
    let s' := match r with
      | .ok s' _ => s'
      | .panic s' => s'
      | _ => s
    let (s'', os) := execC st s' ops
    (s'', r.map (fun _ => ()) :: os)

/-- **C45** (whole programs). -/
theorem c45_programs (ops : List (COp α)) :
    (execC cstep (Machine.empty : Machine α) ops).2 = (execC specCrash Store.empty ops).2 ∧
    (execC cstep (Machine.empty : Machine α) ops).1.store = (execC specCrash Store.empty ops).1 := by
  have key : ∀ (ops : List (COp α)) (m : Machine α), CReachable m →
      (execC cstep m ops).2 = (execC specCrash m.store ops).2 ∧
      (execC cstep m ops).1.store = (execC specCrash m.store ops).1 := by
    intro ops
    induction ops with
    | nil => intro m _; exact ⟨rfl, rfl⟩
    | cons op ops ih =>
      intro m hr
      have h := c45_step hr op
      cases e : cstep m op with
      | ok m' o =>
        rw [e] at h
        have := ih m' (.ok hr e)
        simp only [execC, e, ← h, Outcome.map, this]
        simp
      | panic m' =>
        rw [e] at h
        have := ih m' (.panic hr e)
        simp only [execC, e, ← h, Outcome.map, this]
        simp
      | rejected =>
        rw [e] at h
        have := ih m hr
        simp only [execC, e, ← h, Outcome.map, this]
        simp
      | bad =>
        rw [e] at h
        have := ih m hr
        simp only [execC, e, ← h, Outcome.map, this]
        simp
  have h0 : (Machine.empty : Machine α).store = Store.empty := by
    simp only [Machine.store, Store.empty, Machine.empty, Heap.empty]
    congr
  have := key ops Machine.empty .init
  rwa [h0] at this

theorem execC_reachable (ops : List (COp α)) : CReachable (execC cstep (Machine.empty : Machine α) ops).1 := by
  have key : ∀ (ops : List (COp α)) (m : Machine α), CReachable m → CReachable (execC cstep m ops).1 := by
    intro ops
    induction ops with
    | nil => intro m hr; exact hr
    | cons op ops ih =>
      intro m hr
      simp only [execC]
      cases e : cstep m op with
      | ok m' o => exact ih m' (.ok hr e)
      | panic m' => exact ih m' (.panic hr e)
      | rejected => exact ih m hr
      | bad => exact ih m hr
  exact key ops _ .init

section
variable {m : Machine α} (hr : CReachable m)
include hr

theorem cstep_panic {op : COp α} {S : Store α} (h : specCrash m.store op = .panic S) :
    ∃ m', cstep m op = .panic m' ∧ m'.store = S ∧ CReachable m' := by
  have := c45_step hr op
  rw [h] at this
  cases e : cstep m op <;> rw [e] at this <;> simp [Outcome.map] at this
  rename_i m'
  exact ⟨m', rfl, this, .panic hr e⟩

theorem cstep_ok {op : COp α} {S : Store α} {o : Out α} (h : specCrash m.store op = .ok S o) :
    ∃ m', cstep m op = .ok m' o ∧ m'.store = S ∧ CReachable m' := by
  have := c45_step hr op
  rw [h] at this
  cases e : cstep m op <;> rw [e] at this <;> simp [Outcome.map] at this
  rename_i m' o'
  obtain ⟨rfl, rfl⟩ := this
  exact ⟨m', rfl, rfl, .ok hr e⟩

/-- **C45** A closure that panics while `Tree::from(node.bfs().map(f))` (or `deep_clone`, `clone`) copies a node: the call
panics and every variable, the source included, is as before; nothing was destroyed. -/
theorem c45_copy_panics {x : Var} {l : Loc} {v : Val α} {t : RTree α} (hx : m.view x = some v) (hv : v.isIter = false)
    (hl : v.at? l = some t) (f : Nat → α → Option α) (hp : ∃ j u, (levelOrder [t])[j]? = some u ∧ f j u.data = none) :
    ∃ m', cstep m (.mapBfs x l f) = .panic m' ∧ m'.store = m.store ∧ CReachable m' := by
  refine cstep_panic hr ?_
  have hx' : m.store.vars x = some v := hx
  simp only [specCrash]
  refine (Store.onNode_same hx' hv hl _).trans ?_
  obtain ⟨j, u, h1, h2⟩ := hp
  cases e : firstPanic f [t] with
  | none => exact absurd h2 (firstPanic_none e j u h1)
  | some n => rfl

/-- The same for `Forest::from(node.bfs_children().map(f))`, `deep_clone_forest`, `Forest::clone`. -/
theorem c45_copy_forest_panics {x : Var} {p : Path} {v : Val α} {us : List (RTree α)} (hx : m.view x = some v)
    (hv : v.isIter = false) (hl : kidsAt v.kids p = some us) (f : Nat → α → Option α)
    (hp : ∃ j u, (levelOrder us)[j]? = some u ∧ f j u.data = none) :
    ∃ m', cstep m (.mapBfsForest x p f) = .panic m' ∧ m'.store = m.store ∧ CReachable m' := by
  refine cstep_panic hr ?_
  have hx' : m.store.vars x = some v := hx
  obtain ⟨j, u, h1, h2⟩ := hp
  cases e : firstPanic f us with
  | none => exact absurd h2 (firstPanic_none e j u h1)
  | some n => simp [specCrash, Store.onKids, hx', hv, hl, e]

/-- **C45** A closure that panics in call `n` of `Tree::from(tree.into_bfs().map(f))` or `Forest::from(forest.into_bfs().map(f))`:
the consumed variable is gone, the other variables are as before; exactly the items of the visits from number `n` on are
destroyed, each once, and the items of the earlier visits never are. -/
theorem c45_rebuild_panics {x : Var} {v : Val α} (hx : m.view x = some v) (hv : v.isIter = false) (f : Nat → α → Option α) {n : Nat}
    {u : RTree α} (hu : (levelOrder v.trees)[n]? = some u) (hn : f n u.data = none)
    (hb : ∀ j u, j < n → (levelOrder v.trees)[j]? = some u → f j u.data ≠ none) :
    ∃ m' ds, cstep m (.rebuild x f) = .panic m' ∧ CReachable m' ∧ m'.view x = none ∧ (∀ z, z ≠ x → m'.view z = m.view z) ∧
      m'.store.dropped = m.store.dropped ++ ds ∧ (((levelOrder v.trees).take n).map data ++ ds).Perm (preL v.trees) := by
  have hx' : m.store.vars x = some v := hx
  have hfp : firstPanic f v.trees = some n := (firstPanic_spec f v.trees n).mpr ⟨⟨u, hu, hn⟩, hb⟩
  have hs : specCrash m.store (.rebuild x f) = .panic ((m.store.set x none).drop (unwound n v.trees)) := by
    cases v with
    | tree t => simp only [Val.trees] at hfp; simp [specCrash, hx', hfp, Val.trees]
    | forest ts => simp only [Val.trees] at hfp; simp [specCrash, hx', hfp, Val.trees]
    | iter ts => simp [Val.isIter] at hv
  obtain ⟨m', h1, h2, h3⟩ := cstep_panic hr hs
  have hvw : m'.view = m'.store.vars := rfl
  refine ⟨m', unwound n v.trees, h1, h3, ?_, ?_, by rw [h2]; rfl, unwound_conserve hfp⟩
  · rw [hvw, h2]; simp [Store.drop, Store.set]
  · intro z hz; rw [hvw, h2]; simp [Store.drop, Store.set, hz]; rfl

end

/-- Programs whose closures never panic are the programs of C10. -/
theorem reachable_creachable {m : Machine α} (h : Reachable m) : CReachable m := by
  induction h with
  | init => exact .init
  | ok _ e ih => exact .ok (op := .call _) ih e
  | panic _ e ih => exact .panic (op := .call _) ih e

/-! ### Concrete cases -/

/-- The closure panics in its second call. -/
def boom : Nat → Nat → Option Nat := fun i d => if i = 1 then none else some (d + 10)

example : firstPanic boom [.node 0 [.node 1 [], .node 2 []]] = some 1 := by decide +kernel

example : ∃ m', cstep demo (.mapBfs 0 .root boom) = .panic m' ∧ m'.store = demo.store ∧ CReachable m' :=
  c45_copy_panics (reachable_creachable demo_reachable) demo_view0 rfl rfl boom ⟨1, .node 1 [], by rfl, rfl⟩

deriving instance DecidableEq for Out, Outcome

/-- `0(1 2)` consumed, panic on `1`: `1` and then `2` are destroyed, `0` never; tree 3 is still there and can be destroyed. -/
example : ((execC cstep demo [.rebuild 0 boom, .call (.drop 3), .call (.drop 0)]).2,
    (execC cstep demo [.rebuild 0 boom, .call (.drop 3), .call (.drop 0)]).1.heap.log) =
    ([.panic (), .ok () .unit, .rejected], [1, 2, 3]) := by decide +kernel

example : ∃ m' ds, cstep demo (.rebuild 0 boom) = .panic m' ∧ CReachable m' ∧ m'.view 0 = none ∧
    (∀ z, z ≠ 0 → m'.view z = demo.view z) ∧ m'.store.dropped = demo.store.dropped ++ ds ∧ ([0] ++ ds).Perm [0, 1, 2] :=
  c45_rebuild_panics (reachable_creachable demo_reachable) demo_view0 rfl boom (n := 1) (u := .node 1 []) (by rfl) rfl
    (by intro j u hj _; have : j = 0 := by omega
        subst this; simp [boom])

/-- A program after which a block with two live nodes is left that no variable leads to. -/
def leakOps : List (COp Nat) := [.call (.treeNew 0), .call (.treeNew 1), .call (.pushBack 0 [] 1), .rebuild 0 boom]

/-- The state after it. -/
def leakEnd : Machine Nat := (execC cstep Machine.empty leakOps).1

theorem leakEnd_live : leakEnd.heap.live 4 = true := by decide +kernel
theorem leakEnd_reachable : CReachable leakEnd := execC_reachable leakOps
theorem leakEnd_store : leakEnd.store = (execC specCrash Store.empty leakOps).1 := (c45_programs leakOps).2

attribute [irreducible] leakEnd

theorem leakEnd_empty (x : Var) : leakEnd.view x = none := by
  have e : leakEnd.view = leakEnd.store.vars := rfl
  have hp : firstPanic boom [.node 0 [.node 1 []]] = some 1 := by decide +kernel
  rw [e, leakEnd_store]
  simp [leakOps, execC, specCrash, specStep, Store.empty, Store.bind, Store.set, Store.takeTree, Store.onKids, Store.setKids, Val.isIter,
    Val.kids, Val.setKids, kidsAt, modKids, hp, Store.drop]
  intro h
  simp [h]

/-- Without panics of user code a program that has dropped all its variables has released all memory (C14); with them this
is false: the half-built structure is never released. -/
theorem c45_no_leak_refuted : ¬ ∀ m : Machine Nat, CReachable m → (∀ x, m.view x = none) → ∀ a, m.heap.live a = false := by
  intro h
  have := h leakEnd leakEnd_reachable leakEnd_empty 4
  rw [leakEnd_live] at this
  simp at this

end Trees
