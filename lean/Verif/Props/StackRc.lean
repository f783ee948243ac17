import Verif.Proof.StackRc
import Verif.Props.Stack
import Verif.Props.Shared
import Verif.Spec.SharedStore
/-
C64 for shared nodes: the stack that `Drop for RcNode` needs.
-/
namespace Trees
set_option linter.unusedSimpArgs false
open RTree Classical
variable {α : Type}

/-- **C64** in every state of a program with shared nodes (outside of the known defects), the drop of a handle with room for `L`
nested calls of destructors is the drop if `L` is at least 1 for a node with a parent, else the number of levels of its tree down to the
nodes with other handles (those included); with less room it overflows the stack. -/
theorem c64_rc_drop {m : RMachine α} (hr : SReachable m) {k : Var} {t : RTree (Addr × α)} (hk : m.look k = some t) (hg : m.guarded k = false) (L : Nat) :
    ((if m.HasParent t.data.1 then 1 else t.framesRc (m.heldElse k)) ≤ L → m.dropWithin L k = some (rstep m (.drop k))) ∧
    (L < (if m.HasParent t.data.1 then 1 else t.framesRc (m.heldElse k)) → m.dropWithin L k = none) :=
  si_dropWithin hr.si hk hg L

namespace Proof

mutual
theorem frames_le {ι : Type} (held : ι → Bool) : ∀ t : RTree (ι × α), t.framesRc held ≤ t.height
  | .node x ts => by
    have := framesL_le held ts
    simp only [framesRc, height]
    split <;> omega
theorem framesL_le {ι : Type} (held : ι → Bool) : ∀ ts : List (RTree (ι × α)), framesRcL held ts ≤ heightL ts
  | [] => Nat.le_refl _
  | t :: ts => by
    have h1 := frames_le held t
    have h2 := framesL_le held ts
    simp only [framesRcL, heightL]
    omega
end

mutual
theorem frames_eq {ι : Type} (held : ι → Bool) : ∀ t : RTree (ι × α), (∀ x ∈ t.ids, held x = false) → t.framesRc held = t.height
  | .node x ts, h => by
    simp only [framesRc, height, h x.1 (by simp [ids]), Bool.false_eq_true, if_false]
    rw [framesL_eq held ts fun y hy => h y (by
      simp only [List.mem_map] at hy
      obtain ⟨z, hz, rfl⟩ := hy
      simp only [ids, RTree.pre, List.map_cons, List.mem_cons, List.mem_map]
      exact .inr ⟨z, hz, rfl⟩)]
theorem framesL_eq {ι : Type} (held : ι → Bool) : ∀ ts : List (RTree (ι × α)), (∀ x ∈ (preL ts).map Prod.fst, held x = false) →
    framesRcL held ts = heightL ts
  | [], _ => rfl
  | t :: ts, h => by
    simp only [framesRcL, heightL]
    rw [frames_eq held t fun y hy => h y (by simp only [ids] at hy; simp only [preL, List.map_append, List.mem_append]; exact .inl hy),
      framesL_eq held ts fun y hy => h y (by simp only [preL, List.map_append, List.mem_append]; exact .inr hy)]
end

mutual
theorem height_map {β : Type} (f : α → β) : ∀ t : RTree α, (t.map f).height = t.height
  | .node x ts => by simp only [RTree.map, height, heightL_map f ts]
theorem heightL_map {β : Type} (f : α → β) : ∀ ts : List (RTree α), heightL (RTree.mapL f ts) = heightL ts
  | [] => rfl
  | t :: ts => by simp only [RTree.mapL, heightL, height_map f t, heightL_map f ts]
end

end Proof

/-- **C64** never more room than for the levels of its tree … -/
theorem c64_rc_enough {m : RMachine α} (hr : SReachable m) {k : Var} {t : RTree (Addr × α)} (hk : m.look k = some t) (hg : m.guarded k = false) {L : Nat}
    (hL : t.plain.height ≤ L) : m.dropWithin L k = some (rstep m (.drop k)) := by
  refine (c64_rc_drop hr hk hg L).1 ?_
  have h1 : t.framesRc (m.heldElse k) ≤ L := Nat.le_trans (Proof.frames_le _ t) (by rw [← Proof.height_map Prod.snd t]; exact hL)
  have h2 : 1 ≤ L := by
    refine Nat.le_trans ?_ hL
    cases t.plain with
    | node x ts => simp only [height]; omega
  split
  · exact h2
  · exact h1

/-- **C64** … and exactly that much for the only handle to any node of a tree. -/
theorem c64_rc_only {m : RMachine α} (hr : SReachable m) {k : Var} {t : RTree (Addr × α)} (hk : m.look k = some t) (hg : m.guarded k = false)
    (ho : ∀ j, j ≠ k → m.look j = none) {L : Nat} (hL : L < t.plain.height) : m.dropWithin L k = none := by
  have hp : ¬ m.HasParent t.data.1 := by
    rintro ⟨j, u, hj, hm⟩
    have : j = k := by by_contra h; rw [ho j h] at hj; cases hj
    subst this
    rw [hk] at hj; cases hj
    have := si_nodup hr.si hk
    cases t with
    | node x ts =>
      simp only [ids, RTree.pre, List.map_cons, List.nodup_cons] at this
      exact this.1 hm
  refine (c64_rc_drop hr hk hg L).2 ?_
  rw [if_neg hp, Proof.frames_eq, ← Proof.height_map Prod.snd t]
  · exact hL
  · intro x _
    simp only [RMachine.heldElse, decide_eq_false_iff_not]
    rintro ⟨j, hj, hx⟩
    rw [RMachine.nodeOf, ho j hj] at hx
    cases hx

namespace Proof

/-- Programs on exclusive values only. -/
theorem excl_program : ∀ (ops : List (Op α)) {m : RMachine α}, SReachable m → ∃ m', SReachable m' ∧ (runProg rstep m (ops.map .excl)).1 = m' ∧
    m'.excl.store = (exec specStep m.excl.store ops).1 ∧ m'.refs = m.refs
  | [], m, h => ⟨m, h, rfl, rfl, rfl⟩
  | op :: ops, m, h => by
    rcases shared_exclusive h op with ⟨m1, o, h1, h2, h3, h4, -⟩ | ⟨m1, h1, h2, h3, h4, -⟩ | ⟨h1, h2⟩
    · obtain ⟨m', g1, g2, g3, g4⟩ := excl_program ops h3
      exact ⟨m', g1, by simp only [List.map_cons, runProg, h1]; exact g2, by rw [g3]; simp only [exec, h2], g4.trans h4⟩
    · obtain ⟨m', g1, g2, g3, g4⟩ := excl_program ops h3
      exact ⟨m', g1, by simp only [List.map_cons, runProg, h1]; exact g2, by rw [g3]; simp only [exec, h2], g4.trans h4⟩
    · obtain ⟨m', g1, g2, g3, g4⟩ := excl_program ops h
      exact ⟨m', g1, by simp only [List.map_cons, runProg, h1]; exact g2, by rw [g3]; simp only [exec, h2], g4⟩

theorem runProg_append {σ : Type} (st : σ → ROp α → Outcome σ α) : ∀ (as bs : List (ROp α)) (s : σ),
    (runProg st s (as ++ bs)).1 = (runProg st (runProg st s as).1 bs).1
  | [], bs, s => rfl
  | a :: as, bs, s => by simp only [List.cons_append, runProg, runProg_append st as bs]

end Proof

/-- **C64** no stack is large enough for shared nodes either: for every `L` a program of `2 L + 2` calls ends with a single handle
whose drop overflows a stack with room for `L` nested calls. -/
theorem c64_rc_deep (d : α) (L : Nat) : ∃ ops : List (ROp α), ops.length = 2 * L + 2 ∧
    ∃ m, (runProg rstep RMachine.empty ops).1 = m ∧ SReachable m ∧ ∃ k t, m.look k = some t ∧ t.plain = chain d L ∧ m.guarded k = false ∧
      m.dropWithin L k = none := by
  refine ⟨(deepProg d L).map .excl ++ [.fromTree L], by simp [Proof.deep_length], ?_⟩
  obtain ⟨m, h1, h2, h3, h4⟩ := Proof.excl_program (deepProg d L) (SReachable.init (α := α))
  have hs : m.excl.store = (exec specStep Store.empty (deepProg d L)).1 := by
    rw [h3]; congr 1
  rw [Proof.deep_store] at hs
  have hv : m.excl.view L = some (.tree (chain d L)) := by
    have : m.excl.store.vars L = some (.tree (chain d L)) := by rw [hs]; simp
    exact this
  obtain ⟨u, hu, hp⟩ := (c39_look_tree h1).mp hv
  obtain ⟨m', g1, g2, g3, g4, -⟩ := c39_from_tree h1 hu
  have hg : m'.guarded m.fresh = false := by
    simp only [RMachine.guarded, List.any_eq_false]
    intro g _
    by_cases hgk : g = m.fresh
    · subst hgk
      obtain ⟨r, hr⟩ := look_ref g3
      rw [hr]; simp
    · rw [(g4 g hgk).1, h4]; simp [RMachine.empty]
  refine ⟨m', ?_, g2, m.fresh, u, g3, hp, hg, c64_rc_only g2 g3 hg (fun j hj => ?_) ?_⟩
  · rw [Proof.runProg_append, h2]
    simp only [runProg, g1]
  · rw [(g4 j hj).2]
    simp [RMachine.look, h4, RMachine.empty]
  · rw [hp, Proof.chain_height]; exact Nat.lt_succ_self _

/-! Concrete cases. -/

/-- The tree `1(2(3(4)) 5)`, shared; variable 5 holds the root. -/
def stackRcProg : List (ROp Nat) :=
  [.excl (.treeNew 1), .excl (.treeNew 2), .excl (.treeNew 3), .excl (.treeNew 4), .excl (.treeNew 5),
   .excl (.pushBack 2 [] 3), .excl (.pushBack 1 [] 2), .excl (.pushBack 0 [] 1), .excl (.pushBack 0 [] 4), .fromTree 0]

/-- Four levels. -/
example : ((List.range 6).map fun L => ((runProg rstep RMachine.empty stackRcProg).1.dropWithin L 5).isNone) =
    [true, true, true, true, false, false] := by decide +kernel

/-- With a handle to node `2` two calls are enough: its children stay. -/
example : ((List.range 6).map fun L => ((runProg rstep RMachine.empty (stackRcProg ++ [.front 5])).1.dropWithin L 5).isNone) =
    [true, true, false, false, false, false] := by decide +kernel

/-- That handle itself is dropped by one call, as the node has a parent … -/
example : ((List.range 6).map fun L => ((runProg rstep RMachine.empty (stackRcProg ++ [.front 5])).1.dropWithin L 6).isNone) =
    [true, false, false, false, false, false] := by decide +kernel

/-- … and by three calls after the root is gone. -/
example : ((List.range 6).map fun L => ((runProg rstep RMachine.empty (stackRcProg ++ [.front 5, .drop 5])).1.dropWithin L 6).isNone) =
    [true, true, true, false, false, false] := by decide +kernel

/-- The hypotheses of `c64_rc_only` are met (`c64_rc_deep` with two levels). -/
example : ∃ m : RMachine Nat, SReachable m ∧ ∃ k t, m.look k = some t ∧ t.plain = chain 7 1 ∧ m.dropWithin 1 k = none := by
  obtain ⟨-, -, m, -, h, k, t, h1, h2, -, h3⟩ := c64_rc_deep (α := Nat) 7 1
  exact ⟨m, h, k, t, h1, h2, h3⟩

end Trees
