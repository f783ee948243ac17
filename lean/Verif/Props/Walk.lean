import Verif.Proof.Tour
import Verif.Proof.Walk
import Verif.Props.Memory
/-
C24, C25, C26, C27, C41: the depth-first cursor.

A session with a walk is described by the list of calls made since it was created from the tree or forest in
variable `x`; positions are child indices, innermost first (`Spec/Walk.lean`).
-/
namespace Trees
set_option linter.unusedSimpArgs false
variable {α : Type}

/-- The trees that a walk over a value traverses; `none` for an iterator, which cannot be walked. -/
def Val.walkTrees : Val α → Option (List (RTree α))
  | .tree t => some [t]
  | .forest ts => some ts
  | .iter _ => none

/-- The node (address) at a position, reached from `x` with child iteration: the root of the only tree of a `TreeWalk`
is at `[0]`; in a forest, tree `i` is at `[i]`. -/
def Machine.walkNode (m : Machine α) (x : Var) (p : Pos) : Option Addr :=
  match m.view x, p.reverse with
  | some (.tree _), 0 :: r => m.nodeAt x r
  | some (.forest _), i :: r => m.nodeAt x (i :: r)
  | _, _ => none

/-- Turn `x` into a walk, make the calls `pre`, then call `op`: this last call returns what `o` says, the whole session
has no undefined behaviour and terminates, and converting back gives exactly the old state. -/
def Machine.WalkSays (m : Machine α) (x : Var) (pre : List WalkOp) (op : WalkOp) (o : WalkOut Pos) : Prop :=
  ∃ os o', m.walkRun x (pre ++ [op]) = some (os ++ [o'], m) ∧ os.length = pre.length ∧ OutRel (m.walkNode x) o o'

namespace Proof
open Walk

theorem look_resolve {K : Addr → List Addr} {f : Addr} : ∀ (q : Pos),
    look K (K f) q = (resolve K f q.reverse).map K := by
  intro q
  induction q with
  | nil => rfl
  | cons i q ih =>
    simp only [look, ih, List.reverse_cons, resolve_append]
    cases resolve K f q.reverse with
    | none => rfl
    | some a => simp only [Option.map_some, Option.bind_some, resolve]; cases (K a)[i]? <;> rfl

theorem nodeOf_resolve {K : Addr → List Addr} {f : Addr} {p : Pos} (hp : p ≠ []) :
    nodeOf K (K f) p = resolve K f p.reverse := by
  cases p with
  | nil => exact absurd rfl hp
  | cons i q =>
    simp only [nodeOf, look_resolve, List.reverse_cons, resolve_append]
    cases resolve K f q.reverse with
    | none => rfl
    | some a => simp only [Option.map_some, Option.bind_some, resolve]; cases (K a)[i]? <;> rfl

/-- Positions below a single root. -/
def treeNode (K : Addr → List Addr) (r : Addr) : List Nat → Option Addr
  | 0 :: s => resolve K r s
  | _ => none

theorem treeNode_snoc {K : Addr → List Addr} {r : Addr} {s : List Nat} (hs : s ≠ []) (i : Nat) :
    treeNode K r (s ++ [i]) = (treeNode K r s).bind (fun a => (K a)[i]?) := by
  cases s with
  | nil => exact absurd rfl hs
  | cons j s =>
    cases j with
    | succ j => rfl
    | zero =>
      simp only [List.cons_append, treeNode, resolve_append]
      cases resolve K r s with
      | none => rfl
      | some a => simp only [Option.bind_some, resolve]; cases (K a)[i]? <;> rfl

theorem nodeOf_tree {K : Addr → List Addr} {r : Addr} : ∀ (p : Pos),
    nodeOf K [r] p = treeNode K r p.reverse ∧ (p ≠ [] → look K [r] p = (treeNode K r p.reverse).map K) := by
  intro p
  induction p with
  | nil => exact ⟨rfl, fun h => absurd rfl h⟩
  | cons i q ih =>
    have h1 : nodeOf K [r] (i :: q) = treeNode K r (i :: q).reverse := by
      cases q with
      | nil => cases i <;> simp [nodeOf, look, treeNode, resolve]
      | cons j q =>
        simp only [nodeOf, ih.2 (by simp)]
        rw [List.reverse_cons (a := i), treeNode_snoc (by simp)]
        cases treeNode K r (j :: q).reverse <;> rfl
    refine ⟨h1, fun _ => ?_⟩
    rw [← h1]
    simp only [look, nodeOf]
    cases look K [r] q with
    | none => rfl
    | some l => dsimp only; cases l[i]? <;> rfl

/-- What the property file needs to know about a walk over `x`. -/
structure Walkable (m : Machine α) (x : Var) (ts : List (RTree α)) : Prop where
  run : ∀ ops, ∃ os, m.walkRun x ops = some (os, m) ∧
    List.Forall₂ (OutRel (m.walkNode x)) ((Cur.start ts).calls ts ops).1 os
  inj : ∀ p q a, m.walkNode x p = some a → m.walkNode x q = some a → p = q
  node : ∀ p, nodeExists ts p → ∃ a, m.walkNode x p = some a

theorem look_exists {h : Heap α} {K : Addr → List Addr} {R : List Addr} {ts : List (RTree α)} (D : DenL h.val K R ts)
    {p : Pos} (hp : nodeExists ts p) : ∃ a, nodeOf K R p = some a := by
  cases p with
  | nil => exact absurd hp (by simp [nodeExists])
  | cons i q =>
    obtain ⟨us, h1, h2⟩ := hp
    have := look_den D q
    cases hl : look K R q with
    | none => rw [hl] at this; simp [h1] at this
    | some l =>
      have h3 := degAt_look D hl
      simp only [degAt, h1] at h3
      exact ⟨l[i], by simp [nodeOf, hl]⟩

theorem walkable {m : Machine α} (hr : Reachable m) {x : Var} {v : Val α} {ts : List (RTree α)}
    (hx : m.view x = some v) (hv : v.walkTrees = some ts) : Walkable m x ts := by
  obtain ⟨K, M⟩ := reachable_minv hr
  have hA := M.abs_store.vars x
  cases he : m.env x with
  | none => simp [Machine.view, he] at hx
  | some hd =>
    rw [he] at hA
    obtain ⟨v', e, hw⟩ := hA
    have hvv : v' = v := by
      have : m.store.vars x = some v := hx
      rw [e] at this; exact Option.some.inj this
    subst hvv
    have ho := M.hnd x hd he
    have hna : ∀ p, m.nodeAt x p = resolve K hd.addr p := by
      intro p; simp [Machine.nodeAt, he, locate_ok M.inv ho.used]
    have main : ∀ (R : List Addr) (c : Trees.M α Walk) (w : Walk), DenL m.heap.val K R ts → c m.heap = .ok w m.heap → Top m.heap R → Rel K R w (Cur.start ts) →
        (∀ p, m.walkNode x p = nodeOf K R p) →
        (∀ ops os w', Walk.calls ops (m.heap, w) = .ok os (m.heap, w') → m.walkRun x ops = some (os, m)) →
        (∀ p q a, nodeOf K R p = some a → nodeOf K R q = some a → p = q) →  Walkable m x ts := by
      intro R c w D hc T hR hn hrun hinj
      have hfun : m.walkNode x = nodeOf K R := funext hn
      refine ⟨fun ops => ?_, ?_, ?_⟩
      · obtain ⟨os', w', e1, e2, _⟩ := calls_ok M.inv T D ops hR
        refine ⟨os', ?_, ?_⟩
        · exact hrun ops os' w' e1
        · rw [hfun]; exact e2
      · rw [hfun]; exact hinj
      · rw [hfun]; exact fun p hp => look_exists D hp
    cases hd with
    | tree r =>
      cases v' with
      | tree t =>
        simp only [Val.walkTrees, Option.some.injEq] at hv
        subst hv
        have D : DenL m.heap.val K [r] [t] := by simpa [HDen] using hw
        obtain ⟨w, e1, T, hR⟩ := fromTree_ok M.inv ho.used ho.root D
        have hn : ∀ p, m.walkNode x p = nodeOf K [r] p := by
          intro p
          rw [(nodeOf_tree p).1]
          simp only [Machine.walkNode, hx]
          rcases p.reverse with _ | ⟨_ | i, s⟩
          · rfl
          · exact hna s
          · rfl
        refine main [r] (fromTree r) w D e1 T hR hn (fun ops os w' e2 => ?_) ?_
        · simp only [Handle.addr] at e1; simp only [Machine.walkRun, he, e1, e2]
        · intro p q a h1 h2
          rw [(nodeOf_tree p).1] at h1
          rw [(nodeOf_tree q).1] at h2
          apply List.reverse_injective
          revert h1 h2
          generalize p.reverse = p', q.reverse = q'
          intro h1 h2
          rcases p' with _ | ⟨_ | i, s⟩
          · simp [treeNode] at h1
          · rcases q' with _ | ⟨_ | j, s'⟩
            · simp [treeNode] at h2
            · simp only [treeNode] at h1 h2; rw [resolve_inj M.inv h1 h2]
            · simp [treeNode] at h2
          · simp [treeNode] at h1
      | forest _ => exact absurd hw (by simp [HDen])
      | iter _ => exact absurd hw (by simp [HDen])
    | forest f =>
      cases v' with
      | forest us =>
        simp only [Val.walkTrees, Option.some.injEq] at hv
        subst hv
        have D : DenL m.heap.val K (K f) us := hw
        obtain ⟨w, e1, T, hR⟩ := fromForest_ok M.inv ho.used D
        have hn : ∀ p, m.walkNode x p = nodeOf K (K f) p := by
          intro p
          by_cases hp : p = []
          · subst hp; simp [Machine.walkNode, hx, nodeOf]
          · rw [nodeOf_resolve hp]
            simp only [Machine.walkNode, hx]
            cases hpr : p.reverse with
            | nil => simp at hpr; exact absurd hpr hp
            | cons i s => exact hna (i :: s)
        refine main (K f) (fromForest f) w D e1 T hR hn (fun ops os w' e2 => ?_) ?_
        · simp only [Handle.addr] at e1; simp only [Machine.walkRun, he, e1, e2]
        · intro p q a h1 h2
          have hp : p ≠ [] := by rintro rfl; simp [nodeOf] at h1
          have hq : q ≠ [] := by rintro rfl; simp [nodeOf] at h2
          rw [nodeOf_resolve hp] at h1
          rw [nodeOf_resolve hq] at h2
          exact List.reverse_injective (resolve_inj M.inv h1 h2)
      | tree _ => exact absurd hw (by simp [HDen])
      | iter _ => exact absurd hw (by simp [HDen])
    | iter f =>
      cases v' with
      | iter us => simp [Val.walkTrees] at hv
      | tree _ => exact absurd hw (by simp [HDen])
      | forest _ => exact absurd hw (by simp [HDen])


theorem calls_length (ts : List (RTree α)) : ∀ (ops : List WalkOp) (c : Cur), (c.calls ts ops).1.length = ops.length := by
  intro ops
  induction ops with
  | nil => intro c; rfl
  | cons op ops ih => intro c; simp only [Cur.calls, List.length_cons, ih]

/-- The cursor after a session. -/
def cur (ts : List (RTree α)) (pre : List WalkOp) : Cur := ((Cur.start ts).calls ts pre).2

theorem cur_append (ts : List (RTree α)) (pre ops : List WalkOp) : cur ts (pre ++ ops) = ((cur ts pre).calls ts ops).2 := by
  simp only [cur, Cur.calls_append]

theorem outRel_left {A : Pos → Option Addr} (hA : ∀ p q a, A p = some a → A q = some a → p = q) {o1 o2 : WalkOut Pos} {o : WalkOut Addr}
    (h1 : OutRel A o1 o) (h2 : OutRel A o2 o) : o1 = o2 := by
  rcases o1 with _ | _ | _ | _ <;> rcases o2 with _ | _ | _ | _ <;> rcases o with _ | _ | _ | _ <;>
    simp only [OutRel] at h1 h2 ⊢
  · rename_i v1 v2 v
    rcases v1 with _ | ⟨k1, p1⟩ <;> rcases v2 with _ | ⟨k2, p2⟩ <;> rcases v with _ | ⟨k, a⟩ <;> simp only [OutRel] at h1 h2 ⊢
    obtain ⟨rfl, h1⟩ := h1
    obtain ⟨rfl, h2⟩ := h2
    rw [hA _ _ _ h1 h2]
  · rename_i v1 v2 v
    rcases v1 with _ | p1 <;> rcases v2 with _ | p2 <;> rcases v with _ | a <;> simp only [OutRel] at h1 h2 ⊢
    rw [hA _ _ _ h1 h2]

/-- A session shows exactly what the specified cursor shows. -/
theorem says_iff {m : Machine α} {x : Var} {ts : List (RTree α)} (W : Walkable m x ts) (pre : List WalkOp) (op : WalkOp) (o : WalkOut Pos) :
    m.WalkSays x pre op o ↔ o = ((cur ts pre).call ts op).1 := by
  obtain ⟨os, h1, h2⟩ := W.run (pre ++ [op])
  have e : ((Cur.start ts).calls ts (pre ++ [op])).1 = ((Cur.start ts).calls ts pre).1 ++ [((cur ts pre).call ts op).1] := by
    simp only [Cur.calls_append, Cur.calls, cur]
  rw [e] at h2
  have hlen := h2.length_eq
  simp only [List.length_append, calls_length, List.length_singleton] at hlen
  obtain ⟨os1, o1, rfl⟩ : ∃ os1 o1, os = os1 ++ [o1] := by
    refine ⟨os.dropLast, os.getLast (by rintro rfl; simp at hlen), (List.dropLast_append_getLast _).symm⟩
  simp at hlen
  have h3 : OutRel (m.walkNode x) ((cur ts pre).call ts op).1 o1 := by
    have h4 := List.forall₂_drop_append _ _ _ h2
    rw [show os1.length = ((Cur.start ts).calls ts pre).1.length by rw [calls_length]; omega, List.drop_left] at h4
    cases h4; assumption
  constructor
  · rintro ⟨os', o', g1, g2, g3⟩
    rw [h1] at g1
    simp only [Option.some.injEq, Prod.mk.injEq, and_true] at g1
    have hh := List.append_inj' g1 rfl
    simp at hh
    rw [← hh.2] at g3
    exact outRel_left W.inj g3 h3
  · rintro rfl
    exact ⟨os1, o1, h1, by omega, h3⟩

end Proof

section
variable {m : Machine α} (hr : Reachable m) {x : Var} {v : Val α} {ts : List (RTree α)} (hx : m.view x = some v)
  (hv : v.walkTrees = some ts)
include hr hx hv
open Proof

/-! ### C24 -/

/-- **C24** After `k` calls of `forward`, `get` shows the `k`-th visit of the Euler tour, and `None` when the tour is over. -/
theorem c24_tour (k : Nat) : m.WalkSays x (List.replicate k .forward) .get (.visit ((eulerTour ts)[k]?)) := by
  rw [says_iff (walkable hr hx hv)]
  have h1 := Cur.forwards_tour ts k 0
  rw [← Cur.start_tour, Nat.zero_add] at h1
  simp only [cur, Cur.calls_forwards ts k _ _ h1, Cur.call]
  cases (eulerTour ts)[k]? <;> rfl

/-- **C24** The same with `next`, which steps and then shows. -/
theorem c24_next (k : Nat) : m.WalkSays x (List.replicate k .next) .next (.visit ((eulerTour ts)[k+1]?)) := by
  rw [says_iff (walkable hr hx hv)]
  have key : ∀ (n : Nat) (c c' : Cur), Cur.forwards ts n c = some c' → (c.calls ts (List.replicate n .next)).2 = c' := by
    intro n
    induction n with
    | zero => intro c c' e; simpa [Cur.forwards, Cur.calls] using e
    | succ n ih =>
      intro c c' e
      simp only [Cur.forwards] at e
      cases e1 : Cur.forward ts c with
      | none => rw [e1] at e; simp at e
      | some c1 =>
        rw [e1] at e
        simp only [List.replicate_succ, Cur.calls, Cur.call, e1, ih c1 c' e]
  have h1 := Cur.forwards_tour ts k 0
  rw [← Cur.start_tour, Nat.zero_add] at h1
  rw [cur, key k _ _ h1]
  cases e : (eulerTour ts)[k]? with
  | none =>
    have : (eulerTour ts)[k+1]? = none := by simp at e ⊢; omega
    rw [this]; rfl
  | some y =>
    simp only [Cur.call, Cur.forward_tour ts k y.1 y.2 e]
    cases (eulerTour ts)[k+1]? <;> rfl

/-- **C24, C41** Every session, whatever calls are made, terminates without undefined behaviour (panics are results),
and converting the walk back gives exactly the old state. -/
theorem c41_session (ops : List WalkOp) : ∃ os, m.walkRun x ops = some (os, m) ∧ os.length = ops.length := by
  obtain ⟨os, h1, h2⟩ := (walkable hr hx hv).run ops
  exact ⟨os, h1, by rw [← h2.length_eq, calls_length]⟩

/-- **C41** In particular the tree or forest in `x`, and every other variable, is unchanged. -/
theorem c41_same (ops : List WalkOp) {os : List (WalkOut Addr)} {m' : Machine α} (e : m.walkRun x ops = some (os, m')) :
    m'.view x = some v ∧ m'.store = m.store ∧ ∀ y p, m'.nodeAt y p = m.nodeAt y p := by
  obtain ⟨os', h1, _⟩ := c41_session hr hx hv ops
  rw [h1] at e
  simp only [Option.some.injEq, Prod.mk.injEq] at e
  obtain ⟨_, rfl⟩ := e
  exact ⟨hx, rfl, fun _ _ => rfl⟩

/-! ### C25 -/

/-- **C25** Every call of every session returns what the cursor of `Spec/Walk.lean` returns. -/
theorem c25_session (ops : List WalkOp) : ∃ os, m.walkRun x ops = some (os, m) ∧
    List.Forall₂ (OutRel (m.walkNode x)) ((Cur.start ts).calls ts ops).1 os := (walkable hr hx hv).run ops

/-- A call returns only one thing. -/
theorem c25_functional {pre : List WalkOp} {op : WalkOp} {o o' : WalkOut Pos} (h1 : m.WalkSays x pre op o)
    (h2 : m.WalkSays x pre op o') : o = o' := by
  rw [says_iff (walkable hr hx hv)] at h1 h2
  rw [h1, h2]

/-- The cursor that shows a visit. -/
def Proof.curOf : Option (Kind × Pos) → Cur
  | none => .done
  | some (k, p) => .at k p

omit hr hx hv in
theorem Proof.shown_visit {c : Cur} {o : Option (Kind × Pos)} (h : WalkOut.visit o = c.shown) :
    c = Proof.curOf o := by
  cases c with
  | done => simp only [Cur.shown, WalkOut.visit.injEq] at h; subst h; rfl
  | «at» k p => simp only [Cur.shown, WalkOut.visit.injEq] at h; subst h; rfl
  | off q d => simp [Cur.shown] at h

theorem Proof.cur_of_get {pre : List WalkOp} {k : Kind} {p : Pos} (h : m.WalkSays x pre .get (.visit (some (k, p)))) :
    cur ts pre = .at k p := by
  rw [says_iff (walkable hr hx hv)] at h
  exact Proof.shown_visit h

theorem Proof.cur_of_none {pre : List WalkOp} (h : m.WalkSays x pre .get (.visit none)) : cur ts pre = .done := by
  rw [says_iff (walkable hr hx hv)] at h
  exact Proof.shown_visit h

/-- **C25** What `get` shows determines everything that follows: two sessions in which `get` shows the same visit (or `None`)
give the same results for all further calls. -/
theorem c25_future {pre pre' : List WalkOp} {o : Option (Kind × Pos)} (h : m.WalkSays x pre .get (.visit o))
    (h' : m.WalkSays x pre' .get (.visit o)) (ops : List WalkOp) (op : WalkOp) (r : WalkOut Pos) :
    m.WalkSays x (pre ++ ops) op r ↔ m.WalkSays x (pre' ++ ops) op r := by
  have W := walkable hr hx hv
  rw [says_iff W] at h h'
  rw [says_iff W, says_iff W, cur_append, cur_append, Proof.shown_visit h, Proof.shown_visit h']

/-- Cursors stand on an existing node and report it correctly. -/
def Proof.CurOK (ts : List (RTree α)) : Cur → Prop
  | .done => True
  | .at k p => Cur.ValidAt ts k p
  | .off q _ => degAt ts q ≠ 0

omit hr hx hv in
theorem Proof.exists_of_lt {i : Nat} {q : Pos} (h : i < degAt ts q) : nodeExists ts (i :: q) := by
  unfold degAt at h
  cases e : kidsAt ts q.reverse with
  | none => simp [e] at h
  | some us => simp only [e] at h; exact ⟨us, e, h⟩

omit hr hx hv in
theorem Proof.lt_of_exists {i : Nat} {q : Pos} (h : nodeExists ts (i :: q)) : i < degAt ts q := by
  obtain ⟨us, e, h⟩ := h
  simpa [degAt, e] using h

omit hr hx hv in
theorem Proof.exists_of_deg {i : Nat} {q : Pos} (h : degAt ts (i :: q) ≠ 0) : nodeExists ts (i :: q) := by
  unfold degAt at h
  rw [List.reverse_cons, kidsAt_append] at h
  cases e : kidsAt ts q.reverse with
  | none => simp [e] at h
  | some us =>
    refine ⟨us, e, ?_⟩
    by_contra hn
    simp only [e, Option.bind_some, kidsAt] at h
    rw [List.getElem?_eq_none (by omega)] at h
    simp at h

omit hr hx hv in
theorem Proof.ok_first {i : Nat} {q : Pos} (h : i < degAt ts q) : CurOK ts (Cur.first ts (i :: q)) := by
  refine ⟨exists_of_lt h, ?_⟩
  split <;> simp_all

omit hr hx hv in
theorem Proof.ok_leave {q : Pos} (h : degAt ts q ≠ 0) : CurOK ts (Cur.leave q) := by
  cases q with
  | nil => trivial
  | cons i q => exact ⟨exists_of_deg h, by simp [h]⟩

omit hr hx hv in
theorem Proof.ok_call {c : Cur} (hc : CurOK ts c) (op : WalkOp) : CurOK ts (c.call ts op).2 := by
  have hst : CurOK ts (Cur.start ts) := by
    unfold Cur.start
    split
    · trivial
    · exact ok_first (by simp only [degAt, List.reverse_nil, kidsAt]; omega)
  have hf : ∀ c', c.forward ts = some c' → CurOK ts c' := by
    intro c' e
    cases c with
    | done => simp only [Cur.forward, Option.some.injEq] at e; subst e; trivial
    | off q d =>
      cases d
      · simp only [Cur.forward, Option.some.injEq] at e; subst e; exact ok_leave hc
      · simp [Cur.forward] at e
    | «at» k p =>
      obtain ⟨h1, h2⟩ := hc
      cases p with
      | nil => exact absurd h1 (by simp [nodeExists])
      | cons i q =>
        have hi := lt_of_exists h1
        cases k with
        | begin =>
          simp only [Cur.forward, Option.some.injEq] at e; subst e
          exact ok_first (by simp at h2; omega)
        | stop =>
          simp only [Cur.forward, Option.some.injEq] at e; subst e
          split
          · rename_i h; exact ok_first h
          · exact ok_leave (by omega)
        | leaf =>
          simp only [Cur.forward, Option.some.injEq] at e; subst e
          split
          · rename_i h; exact ok_first h
          · exact ok_leave (by omega)
  cases op with
  | get => exact hc
  | forward =>
    simp only [Cur.call]
    cases e : c.forward ts with
    | none => exact hc
    | some c' => exact hf c' e
  | next =>
    simp only [Cur.call]
    cases e : c.forward ts with
    | none => exact hc
    | some c' => exact hf c' e
  | toParent =>
    cases c with
    | done => trivial
    | off q d => exact ok_leave hc
    | «at» k p =>
      cases p with
      | nil => trivial
      | cons i q => exact ok_leave (by have := lt_of_exists hc.1; omega)
  | getParent =>
    have : (c.call ts .getParent).2 = c := by
      simp only [Cur.call]
      split <;> rfl
    rw [this]; exact hc
  | toChild n =>
    cases c with
    | done => trivial
    | off q d => exact hc
    | «at» k p =>
      simp only [Cur.call]
      split
      · exact hc
      · split
        · exact ok_first (by assumption)
        · assumption
  | toSib n =>
    cases c with
    | done => trivial
    | off q d => exact hc
    | «at» k p =>
      cases p with
      | nil => exact hc
      | cons i q =>
        simp only [Cur.call]
        split
        · exact ok_first (by assumption)
        · have := lt_of_exists hc.1
          simp only [CurOK]; omega
  | revisit =>
    cases c with
    | done => exact hst
    | off q d => exact hc
    | «at» k p =>
      cases k with
      | begin => exact hc
      | leaf => exact hc
      | stop => exact ⟨hc.1, by have := hc.2; simp at this; simp [this]⟩

omit hr hx hv in
theorem Proof.cur_valid (pre : List WalkOp) : CurOK ts (cur ts pre) := by
  have key : ∀ (ops : List WalkOp) (c : Cur), CurOK ts c → CurOK ts (c.calls ts ops).2 := by
    intro ops
    induction ops with
    | nil => intro c hc; exact hc
    | cons op ops ih => intro c hc; simp only [Cur.calls]; exact ih _ (ok_call hc op)
  refine key pre _ ?_
  unfold Cur.start
  split
  · trivial
  · exact ok_first (by simp only [degAt, List.reverse_nil, kidsAt]; omega)

/-- **C25** Whatever calls were made, a visit that `get` shows is one of the Euler tour. -/
theorem c25_on_tour {pre : List WalkOp} {k : Kind} {p : Pos} (h : m.WalkSays x pre .get (.visit (some (k, p)))) :
    (k, p) ∈ eulerTour ts := by
  have h1 := cur_of_get hr hx hv h
  have h2 := cur_valid (ts := ts) pre
  rw [h1] at h2
  exact Cur.tour_complete h2

/-- **C25** ... and from there `forward` continues along the Euler tour. -/
theorem c25_continues {pre : List WalkOp} {k : Kind} {p : Pos} (h : m.WalkSays x pre .get (.visit (some (k, p)))) {j : Nat}
    (hj : (eulerTour ts)[j]? = some (k, p)) (n : Nat) :
    m.WalkSays x (pre ++ List.replicate n .forward) .get (.visit ((eulerTour ts)[j+n]?)) := by
  rw [says_iff (walkable hr hx hv), cur_append, cur_of_get hr hx hv h]
  have h1 := Cur.forwards_tour ts n j
  rw [hj] at h1
  rw [Cur.calls_forwards ts n _ _ h1]
  cases (eulerTour ts)[j+n]? <;> rfl

/-- **C25** `to_child(n)` moves to child `n`, shown as a first visit. -/
theorem c25_toChild {pre : List WalkOp} {k : Kind} {p : Pos} (h : m.WalkSays x pre .get (.visit (some (k, p)))) {n : Nat}
    (hn : nodeExists ts (n :: p)) :
    let o := WalkOut.visit (some (if degAt ts (n :: p) = 0 then Kind.leaf else .begin, n :: p))
    m.WalkSays x pre (.toChild n) o ∧ m.WalkSays x (pre ++ [.toChild n]) .get o := by
  have W := walkable hr hx hv
  have hc := cur_of_get hr hx hv h
  have hlt := lt_of_exists hn
  have h0 : degAt ts p ≠ 0 := by omega
  dsimp only
  rw [says_iff W, says_iff W, cur_append, hc]
  simp only [Cur.calls, Cur.call, if_neg h0, if_pos hlt, Cur.first, Cur.shown, and_self]

/-- **C25** `to_sib(n)` moves `n` siblings to the right, shown as a first visit. -/
theorem c25_toSib {pre : List WalkOp} {k : Kind} {i : Nat} {q : Pos} (h : m.WalkSays x pre .get (.visit (some (k, i :: q)))) {n : Nat}
    (hn : nodeExists ts ((i + n) :: q)) :
    let o := WalkOut.visit (some (if degAt ts ((i + n) :: q) = 0 then Kind.leaf else .begin, (i + n) :: q))
    m.WalkSays x pre (.toSib n) o ∧ m.WalkSays x (pre ++ [.toSib n]) .get o := by
  have W := walkable hr hx hv
  have hc := cur_of_get hr hx hv h
  have hlt := lt_of_exists hn
  dsimp only
  rw [says_iff W, says_iff W, cur_append, hc]
  simp only [Cur.calls, Cur.call, if_pos hlt, Cur.first, Cur.shown, and_self]

/-- **C25** `to_parent()` moves to the end of the visit of the parent; `get_parent()` is the parent. -/
theorem c25_toParent {pre : List WalkOp} {k : Kind} {i j : Nat} {q : Pos} (h : m.WalkSays x pre .get (.visit (some (k, i :: j :: q)))) :
    m.WalkSays x pre .toParent (.visit (some (.stop, j :: q))) ∧
    m.WalkSays x (pre ++ [.toParent]) .get (.visit (some (.stop, j :: q))) ∧
    m.WalkSays x pre .getParent (.node (some (j :: q))) := by
  have W := walkable hr hx hv
  have hc := cur_of_get hr hx hv h
  rw [says_iff W, says_iff W, says_iff W, cur_append, hc]
  exact ⟨rfl, rfl, rfl⟩

/-- **C25** ... at a root the walk is finished; a root has no parent. -/
theorem c25_toParent_root {pre : List WalkOp} {k : Kind} {i : Nat} (h : m.WalkSays x pre .get (.visit (some (k, [i])))) :
    m.WalkSays x pre .toParent (.visit none) ∧
    m.WalkSays x (pre ++ [.toParent]) .get (.visit none) ∧
    m.WalkSays x pre .getParent (.node none) := by
  have W := walkable hr hx hv
  have hc := cur_of_get hr hx hv h
  rw [says_iff W, says_iff W, says_iff W, cur_append, hc]
  exact ⟨rfl, rfl, rfl⟩

/-- **C25** `get` and `get_parent` do not move the cursor. -/
theorem c25_getters (pre ops : List WalkOp) (op : WalkOp) (r : WalkOut Pos) :
    (m.WalkSays x (pre ++ .get :: ops) op r ↔ m.WalkSays x (pre ++ ops) op r) ∧
    (m.WalkSays x (pre ++ .getParent :: ops) op r ↔ m.WalkSays x (pre ++ ops) op r) := by
  have W := walkable hr hx hv
  have : ((cur ts pre).call ts .getParent).2 = cur ts pre := by
    simp only [Cur.call]
    split <;> rfl
  rw [says_iff W, says_iff W, says_iff W, cur_append, cur_append, cur_append]
  refine ⟨Iff.rfl, ?_⟩
  simp only [Cur.calls, this]

/-- **C25** When the walk is finished, every call but `revisit` leaves it finished. -/
theorem c25_finished {pre : List WalkOp} (h : m.WalkSays x pre .get (.visit none)) (op : WalkOp) (hop : op ≠ .revisit) :
    m.WalkSays x (pre ++ [op]) .get (.visit none) := by
  have W := walkable hr hx hv
  have hc := cur_of_none hr hx hv h
  rw [says_iff W, cur_append, hc]
  cases op <;> first | rfl | exact absurd rfl hop

/-! ### C26 -/

/-- **C26** `revisit()` at the end of the visit of a node goes back to the beginning of that visit. -/
theorem c26_stop {pre : List WalkOp} {p : Pos} (h : m.WalkSays x pre .get (.visit (some (.stop, p)))) :
    m.WalkSays x (pre ++ [.revisit]) .get (.visit (some (.begin, p))) := by
  have W := walkable hr hx hv
  rw [says_iff W, cur_append, cur_of_get hr hx hv h]
  rfl

/-- **C26** `revisit()` has no effect at the beginning of a visit or at a leaf, on no later call. -/
theorem c26_no_effect {pre : List WalkOp} {k : Kind} {p : Pos} (h : m.WalkSays x pre .get (.visit (some (k, p)))) (hk : k ≠ .stop)
    (ops : List WalkOp) (op : WalkOp) (r : WalkOut Pos) :
    m.WalkSays x (pre ++ .revisit :: ops) op r ↔ m.WalkSays x (pre ++ ops) op r := by
  have W := walkable hr hx hv
  rw [says_iff W, says_iff W, cur_append, cur_append, cur_of_get hr hx hv h]
  cases k <;> first | exact Iff.rfl | exact absurd rfl hk

/-- **C26** `revisit()` after the walk is finished restarts it: all later calls are as in a fresh walk. -/
theorem c26_restart {pre : List WalkOp} (h : m.WalkSays x pre .get (.visit none))
    (ops : List WalkOp) (op : WalkOp) (r : WalkOut Pos) :
    m.WalkSays x (pre ++ .revisit :: ops) op r ↔ m.WalkSays x ops op r := by
  have W := walkable hr hx hv
  rw [says_iff W, says_iff W, cur_append, cur_of_none hr hx hv h]
  exact Iff.rfl

/-! ### C27 -/

/-- **C27 (what holds)** `to_child(n)` at a leaf returns `None` and leaves the cursor as it is, for all later calls. -/
theorem c27_leaf_partial {pre : List WalkOp} {p : Pos} (h : m.WalkSays x pre .get (.visit (some (.leaf, p)))) (n : Nat) :
    m.WalkSays x pre (.toChild n) (.visit none) ∧
    ∀ ops op r, m.WalkSays x (pre ++ .toChild n :: ops) op r ↔ m.WalkSays x (pre ++ ops) op r := by
  have W := walkable hr hx hv
  have hc := cur_of_get hr hx hv h
  have hd : degAt ts p = 0 := by
    have := cur_valid (ts := ts) pre
    rw [hc] at this
    exact this.2.mp rfl
  refine ⟨?_, fun ops op r => ?_⟩
  · rw [says_iff W, hc]; simp only [Cur.call, if_pos hd]
  · rw [says_iff W, says_iff W, cur_append, cur_append, hc]
    simp only [Cur.calls, Cur.call, if_pos hd]

/-- **C27 is false**: whenever `to_sib(n)` fails, it returns `None` and the next `get` panics. -/
theorem c27_toSib_get_panics {pre : List WalkOp} {k : Kind} {i : Nat} {q : Pos}
    (h : m.WalkSays x pre .get (.visit (some (k, i :: q)))) {n : Nat} (hn : ¬ nodeExists ts ((i + n) :: q)) :
    m.WalkSays x pre (.toSib n) (.visit none) ∧ m.WalkSays x (pre ++ [.toSib n]) .get .panic := by
  have W := walkable hr hx hv
  have hc := cur_of_get hr hx hv h
  have hlt : ¬ i + n < degAt ts q := fun h => hn (exists_of_lt h)
  rw [says_iff W, says_iff W, cur_append, hc]
  simp only [Cur.calls, Cur.call, if_neg hlt, Cur.shown, and_self]

/-- **C27 is false**: whenever `to_child(n)` fails at a node with children, it returns `None` and the next `get` panics. -/
theorem c27_toChild_get_panics {pre : List WalkOp} {k : Kind} {p : Pos}
    (h : m.WalkSays x pre .get (.visit (some (k, p)))) {n : Nat} (hk : k ≠ .leaf) (hn : ¬ nodeExists ts (n :: p)) :
    m.WalkSays x pre (.toChild n) (.visit none) ∧ m.WalkSays x (pre ++ [.toChild n]) .get .panic := by
  have W := walkable hr hx hv
  have hc := cur_of_get hr hx hv h
  have hlt : ¬ n < degAt ts p := fun h => hn (exists_of_lt h)
  have hd : degAt ts p ≠ 0 := by
    have := cur_valid (ts := ts) pre
    rw [hc] at this
    exact fun e => hk (this.2.mpr e)
  rw [says_iff W, says_iff W, cur_append, hc]
  simp only [Cur.calls, Cur.call, if_neg hlt, if_neg hd, Cur.shown, and_self]

/-- **C27 (what holds)** After a failed `to_sib(n)` the walk can be resumed: `forward` and `to_parent` continue behind the last
sibling, `get_parent` still gives the parent. -/
theorem c27_toSib_resume_partial {pre : List WalkOp} {k : Kind} {i j : Nat} {q : Pos}
    (h : m.WalkSays x pre .get (.visit (some (k, i :: j :: q)))) {n : Nat} (hn : ¬ nodeExists ts ((i + n) :: j :: q)) :
    m.WalkSays x (pre ++ [.toSib n, .forward]) .get (.visit (some (.stop, j :: q))) ∧
    m.WalkSays x (pre ++ [.toSib n]) .toParent (.visit (some (.stop, j :: q))) ∧
    m.WalkSays x (pre ++ [.toSib n]) .getParent (.node (some (j :: q))) := by
  have W := walkable hr hx hv
  have hc := cur_of_get hr hx hv h
  have hlt : ¬ i + n < degAt ts (j :: q) := fun h => hn (exists_of_lt h)
  rw [says_iff W, says_iff W, says_iff W, cur_append, cur_append, hc]
  simp only [Cur.calls, Cur.call, if_neg hlt, Cur.shown, Cur.forward, Cur.leave, and_self]

/-- **C27 (what holds)** After a failed `to_child(n)` the walk can be resumed at the end of the visit of the node. -/
theorem c27_toChild_resume_partial {pre : List WalkOp} {k : Kind} {j : Nat} {q : Pos}
    (h : m.WalkSays x pre .get (.visit (some (k, j :: q)))) {n : Nat} (hk : k ≠ .leaf) (hn : ¬ nodeExists ts (n :: j :: q)) :
    m.WalkSays x (pre ++ [.toChild n, .forward]) .get (.visit (some (.stop, j :: q))) ∧
    m.WalkSays x (pre ++ [.toChild n]) .toParent (.visit (some (.stop, j :: q))) ∧
    m.WalkSays x (pre ++ [.toChild n]) .getParent (.node (some (j :: q))) := by
  have W := walkable hr hx hv
  have hc := cur_of_get hr hx hv h
  have hlt : ¬ n < degAt ts (j :: q) := fun h => hn (exists_of_lt h)
  have hd : degAt ts (j :: q) ≠ 0 := by
    have := cur_valid (ts := ts) pre
    rw [hc] at this
    exact fun e => hk (this.2.mpr e)
  rw [says_iff W, says_iff W, says_iff W, cur_append, cur_append, hc]
  simp only [Cur.calls, Cur.call, if_neg hlt, if_neg hd, Cur.shown, Cur.forward, Cur.leave, and_self]

end

/-! ### The tour itself -/

/-- The data item at a position. -/
def dataAt (ts : List (RTree α)) : Pos → Option α
  | [] => none
  | i :: q => match kidsAt ts q.reverse with
    | none => none
    | some us => us[i]?.map RTree.data

mutual
theorem Proof.tour_pre (ts : List (RTree α)) : ∀ (t : RTree α) (i : Nat) (q : Pos) (us : List (RTree α)), kidsAt ts q.reverse = some us →
    us[i]? = some t →
    (tour (i :: q) t).filterMap (fun x => if x.1 = .stop then none else dataAt ts x.2) = t.pre ∧
    (tour (i :: q) t).filterMap (fun x => if x.1 = .begin then none else dataAt ts x.2) = t.post
  | .node d [], i, q, us, e, hu => by simp [tour, dataAt, e, hu]
  | .node d (k :: ks), i, q, us, e, hu => by
    obtain ⟨h1, h2⟩ := tour_preL ts (k :: ks) 0 (i :: q) (k :: ks) (Cur.kidsAt_cons e hu) rfl
    have hd : dataAt ts (i :: q) = some d := by simp [dataAt, e, hu]
    simp only [tour, List.filterMap_append, List.filterMap_cons, List.cons_append, h1, h2, hd]
    simp
theorem Proof.tour_preL (ts : List (RTree α)) : ∀ (us : List (RTree α)) (i : Nat) (q : Pos) (vs : List (RTree α)), kidsAt ts q.reverse = some vs →
    vs.drop i = us →
    (tourL q i us).filterMap (fun x => if x.1 = .stop then none else dataAt ts x.2) = RTree.preL us ∧
    (tourL q i us).filterMap (fun x => if x.1 = .begin then none else dataAt ts x.2) = RTree.postL us
  | [], i, q, vs, e, hd => by simp [tourL]
  | u :: us, i, q, vs, e, hd => by
    have hu : vs[i]? = some u := by rw [← List.head?_drop, hd]; rfl
    have hd' : vs.drop (i + 1) = us := by rw [← List.drop_drop, hd]; rfl
    obtain ⟨h1, h2⟩ := tour_pre ts u i q vs e hu
    obtain ⟨h3, h4⟩ := tour_preL ts us (i + 1) q vs e hd'
    simp only [tourL, List.filterMap_append, h1, h2, h3, h4]
    simp
end

/-- **C24** The Begin and Leaf visits of the tour are the nodes in pre-order, the Leaf and End visits are the nodes in post-order. -/
theorem c24_preorder (ts : List (RTree α)) :
    (eulerTour ts).filterMap (fun x => if x.1 = .stop then none else dataAt ts x.2) = RTree.preL ts ∧
    (eulerTour ts).filterMap (fun x => if x.1 = .begin then none else dataAt ts x.2) = RTree.postL ts :=
  Proof.tour_preL ts ts 0 [] ts rfl rfl

mutual
theorem Proof.tour_suffix : ∀ (t : RTree α) (p : Pos), ∀ x ∈ tour p t, ∃ s, x.2 = s ++ p
  | .node d [], p, x, hx => by simp [tour] at hx; subst hx; exact ⟨[], rfl⟩
  | .node d (k :: ks), p, x, hx => by
    simp only [tour, List.cons_append, List.mem_cons, List.mem_append, List.not_mem_nil, or_false] at hx
    rcases hx with rfl | hx | rfl
    · exact ⟨[], rfl⟩
    · obtain ⟨s, j, _, h⟩ := tour_suffixL (k :: ks) 0 p x hx
      exact ⟨s ++ [j], by simp [h]⟩
    · exact ⟨[], rfl⟩
theorem Proof.tour_suffixL : ∀ (ts : List (RTree α)) (i : Nat) (p : Pos), ∀ x ∈ tourL p i ts, ∃ s j, i ≤ j ∧ x.2 = s ++ (j :: p)
  | [], i, p, x, hx => by simp [tourL] at hx
  | t :: ts, i, p, x, hx => by
    simp only [tourL, List.mem_append] at hx
    rcases hx with hx | hx
    · obtain ⟨s, h⟩ := tour_suffix t (i :: p) x hx
      exact ⟨s, i, Nat.le_refl _, h⟩
    · obtain ⟨s, j, h1, h2⟩ := tour_suffixL ts (i + 1) p x hx
      exact ⟨s, j, by omega, h2⟩
end

theorem Proof.snoc_ne {s s' : Pos} {i j : Nat} {q : Pos} (hij : i ≠ j) : s ++ (i :: q) ≠ s' ++ (j :: q) := by
  intro h
  rw [show s ++ i :: q = (s ++ [i]) ++ q by simp, show s' ++ j :: q = (s' ++ [j]) ++ q by simp] at h
  have := List.append_cancel_right h
  have := (List.append_inj' this rfl).2
  simp at this
  exact hij this

mutual
theorem Proof.tour_nodup : ∀ (t : RTree α) (p : Pos), (tour p t).Nodup
  | .node d [], p => by simp [tour]
  | .node d (k :: ks), p => by
    have h1 := tour_nodupL (k :: ks) 0 p
    have h2 : ∀ c, (c, p) ∉ tourL p 0 (k :: ks) := by
      intro c hm
      obtain ⟨s, j, _, h⟩ := tour_suffixL _ _ _ _ hm
      have := congrArg List.length h
      simp at this
      omega
    simp only [tour, List.cons_append, List.nodup_cons, List.mem_append, List.mem_singleton, Prod.mk.injEq, List.nodup_append]
    refine ⟨?_, h1, by simp, ?_⟩
    · simp [h2]
    · rintro a ha b rfl rfl
      exact h2 _ ha
theorem Proof.tour_nodupL : ∀ (ts : List (RTree α)) (i : Nat) (p : Pos), (tourL p i ts).Nodup
  | [], i, p => by simp [tourL]
  | t :: ts, i, p => by
    simp only [tourL, List.nodup_append]
    refine ⟨tour_nodup t (i :: p), tour_nodupL ts (i + 1) p, ?_⟩
    rintro a ha b hb rfl
    obtain ⟨s, h1⟩ := tour_suffix _ _ _ ha
    obtain ⟨s', j, hj, h2⟩ := tour_suffixL _ _ _ _ hb
    rw [h1] at h2
    exact snoc_ne (by omega) h2
end

/-- **C24** No visit occurs twice in the tour. -/
theorem c24_nodup (ts : List (RTree α)) : (eulerTour ts).Nodup := Proof.tour_nodupL ts 0 []

/-- **C24** Every node has its visits in the tour: a leaf one, any other node two. -/
theorem c24_complete (ts : List (RTree α)) (p : Pos) (hp : nodeExists ts p) :
    (degAt ts p = 0 → (Kind.leaf, p) ∈ eulerTour ts) ∧ (degAt ts p ≠ 0 → (Kind.begin, p) ∈ eulerTour ts ∧ (Kind.stop, p) ∈ eulerTour ts) :=
  ⟨fun h => Cur.tour_complete ⟨hp, by simp [h]⟩,
   fun h => ⟨Cur.tour_complete ⟨hp, by simp [h]⟩, Cur.tour_complete ⟨hp, by simp [h]⟩⟩⟩

/-- **C24** `ForestWalk::default()` is the walk made from a new empty forest: it creates the forest that `Forest::new()` creates, and
its cursor is the one `ForestWalk::from` sets up on that forest. -/
theorem c24_default (h : Heap α) : ∃ f w h', forestNew h = .ok f h' ∧ Walk.forestWalkDefault h = .ok (f, w) h' ∧
    Walk.fromForest f h' = .ok w h' := by
  obtain ⟨f, h', e⟩ : ∃ f h', forestNew h = .ok f h' := ⟨_, _, rfl⟩
  refine ⟨f, Walk.default, h', e, by simp [Walk.forestWalkDefault, e], ?_⟩
  cases e
  simp [Walk.fromForest, WM.lift, hasNoChild, getHead, makeNode, rd]

/-! ### Examples -/

/-- The tour of `0(1(5) 2)`. -/
example : eulerTour [RTree.node 0 [.node 1 [.node 5 []], .node 2 []]] =
    [(.begin, [0]), (.begin, [0, 0]), (.leaf, [0, 0, 0]), (.stop, [0, 0]), (.leaf, [1, 0]), (.stop, [0])] := rfl

/-- After three steps the cursor is at the end of node `1`; this is a state where `c25_*` and `c26_stop` apply. -/
theorem demo2_walk : demo2.WalkSays 0 (List.replicate 3 .forward) .get (.visit (some (.stop, [0, 0]))) :=
  c24_tour demo2_reachable demo2_view0 rfl 3

/-- Revisiting node `1`, then stepping into its child again. -/
example : demo2.WalkSays 0 (List.replicate 3 .forward ++ [.revisit]) .get (.visit (some (.begin, [0, 0]))) :=
  c26_stop demo2_reachable demo2_view0 rfl demo2_walk

/-- **C27 is false** in a concrete reachable state: on `0(1(5) 2)`, at node `1`, `to_sib(2)` returns `None` and `get()` panics. -/
theorem c27_refuted : demo2.WalkSays 0 (List.replicate 3 .forward) (.toSib 2) (.visit none) ∧
    demo2.WalkSays 0 (List.replicate 3 .forward ++ [.toSib 2]) .get .panic :=
  c27_toSib_get_panics demo2_reachable demo2_view0 rfl demo2_walk (by
    rintro ⟨us, h1, h2⟩
    simp [kidsAt] at h1
    subst h1
    simp at h2)

end Trees
