import Verif.Model.Extend
import Verif.Props.SharedCases
/-
C57: `RcNode::extend`.
-/
namespace Trees
set_option linter.unusedSimpArgs false
set_option linter.unusedVariables false
variable {α : Type}
open RTree

namespace RTree
variable {ι : Type} [DecidableEq ι]
mutual
theorem modAt_modAt (a : ι) (f g : List (RTree (ι × α)) → List (RTree (ι × α))) : ∀ t, modAt a g (modAt a f t) = modAt a (fun ts => g (f ts)) t
  | node x ts => by
    simp only [modAt]
    split
    · rfl
    · rw [modAtL_modAtL a f g ts]
theorem modAtL_modAtL (a : ι) (f g : List (RTree (ι × α)) → List (RTree (ι × α))) : ∀ ts, modAtL a g (modAtL a f ts) = modAtL a (fun ts => g (f ts)) ts
  | [] => rfl
  | t :: ts => by simp only [modAtL]; rw [modAt_modAt a f g t, modAtL_modAtL a f g ts]
end
mutual
theorem modAt_nop (a : ι) : ∀ t : RTree (ι × α), modAt a (fun ts => ts) t = t
  | node x ts => by simp only [modAt]; rw [modAtL_nop a ts]; simp
theorem modAtL_nop (a : ι) : ∀ ts : List (RTree (ι × α)), modAtL a (fun ts => ts) ts = ts
  | [] => rfl
  | t :: ts => by simp only [modAtL]; rw [modAt_nop a t, modAtL_nop a ts]
end
end RTree

/-- The program's variables `ys` (pairwise different) hold the trees `ts`. -/
def RMachine.Holding (m : RMachine α) (ys : List Var) (ts : List (RTree α)) : Prop :=
  ys.Nodup ∧ ys.map m.excl.view = ts.map fun t => some (.tree t)

/-- The variables `ys` are moved out, `ds` are destroyed. -/
def Store.moved (s : Store α) (ys : List Var) (ds : List α) : Store α :=
  { s with vars := (fun z => if z ∈ ys then none else s.vars z), dropped := s.dropped ++ ds }

namespace Proof

theorem moved_nil (s : Store α) : s.moved [] [] = s := by simp [Store.moved]

theorem moved_moved (s : Store α) (ys zs : List Var) (ds es : List α) : (s.moved ys ds).moved zs es = s.moved (ys ++ zs) (ds ++ es) := by
  simp only [Store.moved, Store.mk.injEq, List.append_assoc, and_true, true_and]
  funext z
  by_cases h1 : z ∈ ys <;> by_cases h2 : z ∈ zs <;> simp [h1, h2]

theorem set_none_drop (s : Store α) (y : Var) (ds : List α) : (s.set y none).drop ds = s.moved [y] ds := by
  simp [Store.set, Store.drop, Store.moved]

theorem set_none (s : Store α) (y : Var) : s.set y none = s.moved [y] [] := by simp [Store.set, Store.moved]

theorem holding_tail {m m' : RMachine α} {y : Var} {ys : List Var} {t : RTree α} {ts : List (RTree α)} (h : m.Holding (y :: ys) (t :: ts)) {ds : List α}
    (he : m'.excl.store = m.excl.store.moved [y] ds) : m'.Holding ys ts := by
  obtain ⟨h1, h2⟩ := h
  refine ⟨(List.nodup_cons.mp h1).2, ?_⟩
  simp only [List.map_cons, List.cons.injEq] at h2
  rw [← h2.2]
  apply List.map_congr_left
  intro z hz
  have := congrArg (fun s => Store.vars s z) he
  simp only [Store.moved] at this
  rw [if_neg (by rintro e; rw [List.mem_singleton] at e; subst e; exact (List.nodup_cons.mp h1).1 hz)] at this
  exact this

theorem dropTrees_ok : ∀ (ys : List Var) {m : RMachine α} {ts : List (RTree α)}, SReachable m → m.Holding ys ts →
    ∃ m', dropTrees ys m = .ok m' .unit ∧ SReachable m' ∧ m'.refs = m.refs ∧ (∀ j, m'.look j = m.look j) ∧ m'.excl.store = m.excl.store.moved ys (postL ts)
  | [], m, ts, hr, hh => by
    have : ts = [] := by have := hh.2; cases ts <;> simp at this ⊢
    subst this
    exact ⟨m, rfl, hr, rfl, fun _ => rfl, by simp [postL, moved_nil]⟩
  | y :: ys, m, ts, hr, hh => by
    obtain ⟨t, ts, rfl⟩ : ∃ t ts', ts = t :: ts' := by have := hh.2; cases ts <;> simp at this ⊢
    have hy : m.excl.store.vars y = some (.tree t) := by have := hh.2; simp only [List.map_cons, List.cons.injEq] at this; exact this.1
    have hsp : specStep m.excl.store (.drop y) = .ok ((m.excl.store.set y none).drop t.post) .unit := by simp [specStep, hy, Val.post]
    rcases shared_exclusive hr (.drop y) with ⟨m', o, h, h1, h2, h3, h4⟩ | ⟨m', h, h1, -⟩ | ⟨-, h1⟩
    · rw [hsp] at h1
      simp only [Outcome.ok.injEq] at h1
      have he := h1.1.symm
      rw [set_none_drop] at he
      obtain ⟨m2, g, g1, g2, g3, g4⟩ := dropTrees_ok ys h2 (holding_tail hh he)
      refine ⟨m2, by simp [dropTrees, h, g], g1, g2.trans h3, fun j => (g3 j).trans (h4 j), ?_⟩
      rw [g4, he, moved_moved]; simp [postL]
    · rw [hsp] at h1; simp at h1
    · rw [hsp] at h1; simp at h1

end Proof

section
variable {m : RMachine α} (hr : SReachable m)
include hr

omit hr in
theorem extend_all {k : Var} (broken : Bool) : ∀ (ys : List Var) {m : RMachine α} {s : RTree (Addr × α)} {ts : List (RTree α)} {zs : List Var} {rest : List (RTree α)},
    SReachable m → m.look k = some s → (ys ≠ [] → ∀ w, ¬ m.Guarded s.data.1 w) → m.Holding (ys ++ zs) (ts ++ rest) → ys.length = ts.length →
    ∃ m' us, extendRc k broken zs ys m = (if broken then .panic m' else .ok m' .unit) ∧ SReachable m' ∧ m'.refs = m.refs ∧ us.map RTree.plain = ts ∧
      (∀ j, m'.look j = (m.look j).map (modAt s.data.1 fun vs => vs ++ us)) ∧ m'.excl.store = m.excl.store.moved (ys ++ zs) (postL rest)
  | [], m, s, ts, zs, rest, hr, hk, hg, hh, hl => by
    have : ts = [] := by cases ts <;> simp at hl ⊢
    subst this
    obtain ⟨m', h, h1, h2, h3, h4⟩ := Proof.dropTrees_ok zs hr hh
    refine ⟨m', [], ?_, h1, h2, rfl, ?_, h4⟩
    · cases broken <;> simp [extendRc, unwindTrees, h]
    · intro j
      rw [h3 j]
      simp only [List.append_nil]
      cases m.look j <;> simp [modAt_nop]
  | y :: ys, m, s, ts, zs, rest, hr, hk, hg, hh, hl => by
    obtain ⟨t, ts, rfl⟩ : ∃ t ts', ts = t :: ts' := by cases ts <;> simp at hl ⊢
    have hy : m.excl.view y = some (.tree t) := by
      have := hh.2; simp only [List.cons_append, List.map_cons, List.cons.injEq] at this; exact this.1
    obtain ⟨u, hu, rfl⟩ := (c39_look_tree hr).mp hy
    obtain ⟨m1, h, h1, h2, h3, h4⟩ := c37_push_back hr hk hu (hg (by simp))
    rw [Proof.set_none] at h3
    have hk1 : m1.look k = some (modAt s.data.1 (fun ts => ts ++ [u]) s) := by rw [h4 k, hk]; rfl
    have hd : (modAt s.data.1 (fun ts => ts ++ [u]) s).data = s.data := by cases s; simp [modAt, RTree.data]
    obtain ⟨m2, us, g, g1, g2, g3, g4, g5⟩ := extend_all broken ys h1 hk1 (fun _ w => by
      rw [hd]
      rintro ⟨g, k', hgu⟩
      exact hg (by simp) w ⟨g, k', by rw [← h2]; exact hgu⟩) (Proof.holding_tail hh h3) (by simpa using hl)
    refine ⟨m2, u :: us, by simp [extendRc, h, g], g1, g2.trans h2, by simp [g3], ?_, ?_⟩
    · intro j
      rw [g4 j, h4 j, hd]
      cases m.look j with
      | none => rfl
      | some v => simp [modAt_modAt]
    · rw [g5, h3, Proof.moved_moved]; rfl

/-- **C57** `k.extend( iter )`: the trees of the iterator become the last children of the node, in the order of the iterator, as seen by every
handle; nothing else changes. (`zs`: trees the iterator still owns when it says that it is finished; they are destroyed.) -/
theorem c57_extend {k : Var} {s : RTree (Addr × α)} (hk : m.look k = some s) {ys zs : List Var} {ts rest : List (RTree α)} (hh : m.Holding (ys ++ zs) (ts ++ rest))
    (hl : ys.length = ts.length) (hg : ∀ w, ¬ m.Guarded s.data.1 w) :
    ∃ m' us, extendRc k false zs ys m = .ok m' .unit ∧ SReachable m' ∧ m'.refs = m.refs ∧ us.map RTree.plain = ts ∧
      (∀ j, m'.look j = (m.look j).map (modAt s.data.1 fun vs => vs ++ us)) ∧ m'.excl.store = m.excl.store.moved (ys ++ zs) (postL rest) :=
  extend_all false ys hr hk (fun _ => hg) hh hl

/-- **C57** An iterator that panics after some trees: those have been added, for good; the others are destroyed, in order. -/
theorem c57_extend_broken {k : Var} {s : RTree (Addr × α)} (hk : m.look k = some s) {ys zs : List Var} {ts rest : List (RTree α)} (hh : m.Holding (ys ++ zs) (ts ++ rest))
    (hl : ys.length = ts.length) (hg : ∀ w, ¬ m.Guarded s.data.1 w) :
    ∃ m' us, extendRc k true zs ys m = .panic m' ∧ SReachable m' ∧ m'.refs = m.refs ∧ us.map RTree.plain = ts ∧
      (∀ j, m'.look j = (m.look j).map (modAt s.data.1 fun vs => vs ++ us)) ∧ m'.excl.store = m.excl.store.moved (ys ++ zs) (postL rest) :=
  extend_all true ys hr hk (fun _ => hg) hh hl

/-- **C57** With a guard on the node's data the first tree makes the call panic: no node is added or changed, all trees are destroyed. -/
theorem c57_extend_conflict {k : Var} {s : RTree (Addr × α)} {w : Bool} (hk : m.look k = some s) (hg : m.Guarded s.data.1 w) {y : Var} {ys zs : List Var}
    {ts : List (RTree α)} (hh : m.Holding (y :: ys ++ zs) ts) (broken : Bool) :
    ∃ m', extendRc k broken zs (y :: ys) m = .panic m' ∧ SReachable m' ∧ m'.refs = m.refs ∧ (∀ j, m'.look j = m.look j) ∧
      m'.excl.store = m.excl.store.moved (y :: ys ++ zs) (postL ts) := by
  obtain ⟨t, ts, rfl⟩ : ∃ t ts', ts = t :: ts' := by have := hh.2; cases ts <;> simp at this ⊢
  have hy : m.excl.view y = some (.tree t) := by
    have := hh.2; simp only [List.cons_append, List.map_cons, List.cons.injEq] at this; exact this.1
  obtain ⟨m1, h, h1, h2, h3, h4⟩ := c38_conflict_arg hr hk hg hy (.pushBack k y) (.inl ⟨by simp, _, rfl⟩)
  rw [Proof.set_none_drop] at h4
  obtain ⟨m2, g, g1, g2, g3, g4⟩ := Proof.dropTrees_ok (ys ++ zs) h1 (Proof.holding_tail hh h4)
  refine ⟨m2, by simp [extendRc, h, unwindTrees, g], g1, g2.trans h2, fun j => (g3 j).trans (h3 j), ?_⟩
  rw [g4, h4, Proof.moved_moved]; simp [postL, Val.post]

/-- **C57** ... and an iterator without trees does not even look at the node. -/
theorem c57_extend_nothing (k : Var) : extendRc k false [] [] m = .ok m .unit := rfl

end

/-! ### Non-vacuity -/

/-- Node `2` of `1(2(3) 4)` extended by one tree: also the handle to the root shows it. -/
example : ∃ m' u, extendRc 6 false [] [7] sdemo = .ok m' .unit ∧ RTree.plain u = .node 9 [] ∧
    m'.look 4 = some (.node (0,1) [.node (1,2) [.node (2,3) [], u], .node (3,4) []]) := by
  have hv : sdemo.excl.view 7 = some (.tree (.node 9 [])) :=
    (c39_look_tree sdemo_reach).mpr ⟨.node (4,9) [], RMachine.lookTree_of_shows (by decide +kernel), rfl⟩
  obtain ⟨m', us, h, -, -, h1, h2, -⟩ := c57_extend sdemo_reach sdemo_look6 (ys := [7]) (zs := []) (ts := [.node 9 []]) (rest := [])
    ⟨by simp, by simp [hv]⟩ rfl (fun w => sdemo_free _ w)
  obtain ⟨u, rfl⟩ : ∃ u, us = [u] := by
    have := congrArg List.length h1
    simp at this
    exact List.length_eq_one_iff.mp this
  refine ⟨m', u, h, by simpa using h1, ?_⟩
  rw [h2 4, sdemo_look4]; rfl

/-- With a guard: the tree is destroyed. -/
example : ∃ m', extendRc 6 false [] [7] sguard = .panic m' ∧ m'.look 4 = sguard.look 4 ∧ m'.heap.log = sguard.heap.log ++ [9] := by
  obtain ⟨m', h, -, -, h1, h2⟩ := c57_extend_conflict sguard_reach sguard_look6 ⟨10, 5, sguard_guard⟩ (y := 7) (ys := []) (zs := []) (ts := [.node 9 []])
    ⟨by simp, by simp [sguard_view7]⟩ false
  refine ⟨m', h, h1 4, ?_⟩
  have := congrArg Store.dropped h2
  have h3 : m'.heap.log = sguard.heap.log ++ _ := this
  rw [h3]; rfl

end Trees
