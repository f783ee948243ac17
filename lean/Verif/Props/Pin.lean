import Verif.Proof.Pin
import Verif.Props.Live
/-
C72: mutable node references that are kept while the program goes on calling.
-/
namespace Trees
set_option linter.unusedSimpArgs false
set_option linter.unusedVariables false
variable {α : Type}
open RTree

namespace Proof

theorem pok_empty : POK (PMachine.empty : PMachine α) .empty := by
  exact ⟨.init, rfl, fun _ => none, fun _ => none, ⟨funext fun x => rfl, rfl, rfl, fun _ _ => rfl⟩, fun a k h => (by cases h), fun _ _ => rfl,
    fun i => ⟨rfl, fun k h => (by cases h)⟩⟩

theorem psim_run : ∀ (ops : List (POp α)) {P : PMachine α} {S : PStore α}, POK P S → POut.dangling ∉ (runCalls pspec S ops).2 →
    POK (runCalls pinStep P ops).1 (runCalls pspec S ops).1 ∧ (runCalls pinStep P ops).2 = (runCalls pspec S ops).2 ∧
      POut.bad ∉ (runCalls pinStep P ops).2
  | [], P, S, H, _ => ⟨H, rfl, by simp [runCalls]⟩
  | op :: ops, P, S, H, hd => by
    simp only [runCalls, List.mem_cons, not_or] at hd ⊢
    obtain ⟨h1, h2, h5⟩ := psim H op (Ne.symm hd.1)
    obtain ⟨h3, h4, h6⟩ := psim_run ops h1 hd.2
    exact ⟨h3, by rw [h2, h4], Ne.symm h5, h6⟩

mutual
theorem map_snd_tree (f : Addr → Option Nat) : ∀ t : RTree (Addr × α), (t.map fun q => (f q.1, q.2)).map Prod.snd = t.map Prod.snd
  | .node d ts => by simp only [RTree.map, map_snd_list f ts]
theorem map_snd_list (f : Addr → Option Nat) : ∀ ts : List (RTree (Addr × α)), mapL Prod.snd (mapL (fun q => (f q.1, q.2)) ts) = mapL Prod.snd ts
  | [] => rfl
  | t :: ts => by simp only [RTree.mapL, map_snd_tree f t, map_snd_list f ts]
end

/-- Without the marks. -/
theorem POK.plain {P : PMachine α} {S : PStore α} (H : POK P S) : P.m.view = (fun x => (S.store.vars x).map (Val.map Prod.snd)) ∧
    P.m.heap.log = S.store.dropped.map Prod.snd := by
  obtain ⟨mk, own, h1, -⟩ := H.marks
  refine ⟨?_, h1.log.symm⟩
  funext x
  have := c48_view H.reach x
  rw [← this, h1.vars]
  simp only
  cases P.m.lview x with
  | none => rfl
  | some v =>
    simp only [Option.map_some, Option.some.injEq]
    cases v <;> simp only [Val.map, map_snd_tree, map_snd_list]

end Proof

/-- **C72** (whole programs).  A program takes any number of mutable references to nodes and keeps them while it goes on calling: through the references and
otherwise, in any order.  As long as no reference is used whose node is not in a tree or forest of the program (and no tree is inserted into itself),
it sees what the specification says, in which a call through a reference is the ordinary call at the place where the node of
the reference is at that time. -/
theorem c72_program (ops : List (POp α)) (h : POut.dangling ∉ (runCalls pspec .empty ops).2) :
    (runCalls pinStep .empty ops).2 = (runCalls pspec .empty ops).2 ∧
    (runCalls pinStep .empty ops).1.m.view = (fun x => ((runCalls pspec .empty ops).1.store.vars x).map (Val.map Prod.snd)) ∧
    (runCalls pinStep .empty ops).1.m.heap.log = (runCalls pspec .empty ops).1.store.dropped.map Prod.snd := by
  obtain ⟨H, h1, -⟩ := Proof.psim_run ops Proof.pok_empty h
  exact ⟨h1, Proof.POK.plain H⟩

/-- **C72** (safety): such a program does not touch freed or foreign memory. -/
theorem c72_safe (ops : List (POp α)) (h : POut.dangling ∉ (runCalls pspec .empty ops).2) : POut.bad ∉ (runCalls pinStep (.empty : PMachine α) ops).2 :=
  (Proof.psim_run ops Proof.pok_empty h).2.2

/-- **C72** (the reference stays with its node): the place that the specification finds is that of the node at the address held. -/
theorem c72_place (ops : List (POp α)) (h : POut.dangling ∉ (runCalls pspec .empty ops).2) {i k : Nat} {x : Var} {l : Loc}
    (hm : (runCalls pspec .empty ops).1.marks i = some k) (hp : (runCalls pspec .empty ops).1.store.place k = some (x, l)) :
    ∃ v t, (runCalls pinStep .empty ops).1.m.lview x = some v ∧ v.at? l = some t ∧ (runCalls pinStep .empty ops).1.refs i = some t.data.1 := by
  obtain ⟨H, -⟩ := Proof.psim_run ops Proof.pok_empty h
  obtain ⟨K, M⟩ := Proof.reachable_minv H.reach
  obtain ⟨a, hd, v, g1, g2, g3, g4, g5, g6, -⟩ := H.at_place M hm hp
  rw [Option.map_eq_some_iff] at g6
  obtain ⟨u, g6, g7⟩ := g6
  exact ⟨v, u, g5, g6, by rw [g7]; exact g1⟩

/-- **C72** (the place is unambiguous): a mark is on one node only, and the place of the mark is where that node is. -/
theorem c72_unique (ops : List (POp α)) (h : POut.dangling ∉ (runCalls pspec .empty ops).2) {k : Nat} {x : Var} {v : Val (Tagged α)} {l : Loc}
    {t : RTree (Tagged α)} (hx : (runCalls pspec .empty ops).1.store.vars x = some v) (hv : v.isIter = false) (hl : v.at? l = some t) (hk : t.data.1 = some k) :
    (runCalls pspec .empty ops).1.store.place k = some (x, l) := by
  obtain ⟨H, -⟩ := Proof.psim_run ops Proof.pok_empty h
  revert hx
  generalize (runCalls pspec .empty ops).1 = S at H ⊢
  intro hx
  obtain ⟨K, M⟩ := Proof.reachable_minv H.reach
  obtain ⟨mk, own, h1, h2, h3, h4⟩ := H.marks
  have hat : ∀ {y : Var} {w : Val (Tagged α)} {l' : Loc} {t' : RTree (Tagged α)}, S.store.vars y = some w → w.at? l' = some t' → t'.data.1 = some k →
      ∃ w' u, (runCalls pinStep .empty ops).1.m.lview y = some w' ∧ w'.at? l' = some u ∧ own k = some u.data.1 := by
    intro y w l' t' e1 e2 e3
    rw [h1.vars] at e1
    simp only [Option.map_eq_some_iff] at e1
    obtain ⟨w', e4, rfl⟩ := e1
    rw [Val.at?_map, Option.map_eq_some_iff] at e2
    obtain ⟨u, e5, rfl⟩ := e2
    rw [data_map] at e3
    exact ⟨w', u, e4, e5, h2 _ _ e3⟩
  obtain ⟨v', u, g1, g2, g3⟩ := hat hx hl hk
  have hf : x < S.store.fresh := by
    rw [h1.fresh]
    refine Nat.lt_of_not_le fun hf => ?_
    rw [Machine.lview, M.fr x hf] at g1; cases g1
  obtain ⟨q, hq⟩ := place_found hf hx hv hl hk
  obtain ⟨y, l'⟩ := q
  obtain ⟨w, t', e1, -, e2, e3⟩ := place_some hq
  obtain ⟨w', u', g4, g5, g6⟩ := hat e1 e2 e3
  rw [g3] at g6
  have e : u.data.1 = u'.data.1 := Option.some.inj g6
  have hxy := at_var M g1 g4 g2 g5 e
  subst hxy
  rw [g1] at g4
  obtain rfl := Option.some.inj g4
  rw [hq, at_inj M g1 g2 g5 e]

/-- **C72** (one call): a method called on the node at an address does what the call on the place of that node does. -/
theorem c72_direct {m : Machine α} (hr : Reachable m) {x : Var} {v : Val (Addr × α)} {l : Loc} {t : RTree (Addr × α)} (hx : m.lview x = some v)
    (hv : v.isIter = false) (hl : v.at? l = some t) {c : NodeCall α} (hg : c.gives ≠ some x) : m.direct t.data.1 c = step m (c.at x l) := by
  obtain ⟨K, M⟩ := Proof.reachable_minv hr
  obtain ⟨hd, e, ho, hden⟩ := M.lview_some hx
  refine direct_step M e ?_ (at_lab M ho hden hl).2.2 ?_ hg
  · cases hd <;> cases v <;> simp only [HDenV] at hden <;> first | rfl | exact hv
  · rintro rfl
    cases v with
    | tree _ => cases hd <;> simp only [HDenV] at hden; exact ⟨_, rfl⟩
    | forest _ => cases hl
    | iter _ => cases hl

/-! ### Concrete cases -/

/-- A tree `10(11, 12)`; references to its nodes; node 11 is detached, put below node 12, and used again. -/
def pinOps : List (POp Nat) :=
  [.call (.treeNew 10), .call (.treeNew 11), .call (.treeNew 12), .call (.pushBack 0 [] 1), .call (.pushBack 0 [] 2),
   .take 0 .root, .kid 0 0, .kid 0 1, .use 1 .detach, .use 1 .data, .use 0 .degree, .use 2 (.pushBack 3), .use 1 (.setData 21),
   .call (.treeNew 13), .use 1 (.insertPrevSib 4), .call (.detach 0 (.child [] 0)), .use 1 .data, .use 2 .childData, .use 0 .nodeCount,
   .kid 1 0, .kid 2 0, .use 3 .data]

def pinOuts : List (POut Nat) :=
  [.ok (.var 0), .ok (.var 1), .ok (.var 2), .ok .unit, .ok .unit, .ref 0, .ref 1, .ref 2, .ok (.var 3), .ok (.item (some 11)), .ok (.nat 1), .ok .unit,
   .ok .unit, .ok (.var 4), .ok .unit, .ok (.var 5), .ok (.item (some 21)), .ok (.items [13, 21]), .ok (.nat 1), .nothing, .ref 3, .ok (.item (some 13))]

theorem pin_spec : (runCalls pspec .empty pinOps).2 = pinOuts := by rfl

theorem pin_outs : (runCalls pinStep .empty pinOps).2 = pinOuts := by
  rw [(c72_program pinOps (by rw [pin_spec]; simp [pinOuts])).1, pin_spec]

/-- Where the nodes of the references 1 and 2 are at the end: below, and at the root of, the tree that was detached last. -/
example : ((runCalls pspec .empty pinOps).1.store.place 1, (runCalls pspec .empty pinOps).1.store.place 2) =
    (some (5, .child [] 1), some (5, .root)) := by rfl

/-- What the specification excludes: the node is detached through the reference, the new tree is dropped, and the reference is used.  Rust accepts
the program; it reads freed memory (C43). -/
theorem c72_dangling :
    (runCalls pspec .empty [.call (.treeNew 10), .call (.treeNew 11), .call (.pushBack 0 [] 1), .take 0 (.child [] 0), .use 0 .detach,
      .call (.drop 2), .use 0 (.data : NodeCall Nat)]).2.getLast? = some .dangling ∧
    (runCalls pinStep .empty [.call (.treeNew 10), .call (.treeNew 11), .call (.pushBack 0 [] 1), .take 0 (.child [] 0), .use 0 .detach,
      .call (.drop 2), .use 0 (.data : NodeCall Nat)]).2.getLast? = some .bad := ⟨by rfl, by rfl⟩

end Trees
