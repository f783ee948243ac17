import Verif.Props.ConcMix
import Verif.Props.ConcWitness
/-
C61: the hypotheses of the theorems of Props/ConcMix are met by a concrete case.
-/
namespace Trees
set_option linter.unusedSimpArgs false
set_option linter.unusedVariables false

/-- Both threads have a shared reference to the first copy; the second copy belongs to thread 0, the rest to thread 1. -/
def mixOwn (x : Var) : Fin 3 := if x = 2 then 0 else if x = 3 then 1 else 2

/-- Both threads copy the common tree at the same time (into blocks of their own), and change and destroy what they own. -/
def mixProg (i : Fin 2) : List (Op Nat) :=
  if i = 0 then [.mapBfs 2 .root (fun _ d => d + 5), .childData 2 [], .pushBack 3 [] 4, .bfs 3 .root 9, .drop 3]
  else [.bfs 2 .root 4, .mapBfs 2 .root (fun _ d => d * 2), .pushFront 0 [] 4, .drop 0]

theorem mix_polite (i : Fin 2) : Fine.Polite concM mixOwn (mixProg i) := by
  have key : ∀ l : List (Op Nat), (l.all fun op => op.byRef || op.vars.all fun x => decide (x ≠ 2)) = true → Fine.Polite concM mixOwn l := by
    intro l hl op ho
    have := List.all_eq_true.mp hl op ho
    simp only [Bool.or_eq_true, List.all_eq_true, decide_eq_true_eq] at this
    refine this.imp id fun h x hx h2 => h x hx ?_
    have h3 := h2.1
    simp only [mixOwn] at h3
    by_contra hne
    rw [if_neg hne] at h3
    split at h3 <;> cases h3
  have : i = 0 ∨ i = 1 := by omega
  rcases this with rfl | rfl <;> exact key _ (by decide +kernel)

theorem mix_block2 {y : Var} (h2 : y ≠ 2) (h3 : y ≠ 3) (p : Path) : concM.blockAt y p = none := by
  simp only [Machine.blockAt]
  cases hn : concM.nodeAt y p with
  | none => rfl
  | some a =>
    have hy : (concM.env y).all (fun hd => [0, 1].contains hd.addr) = true := by
      have h : concM.fresh = 4 := by decide +kernel
      rcases Nat.lt_or_ge y 4 with h1 | h1
      · have : y = 0 ∨ y = 1 := by simp only [Var] at *; omega
        rcases this with rfl | rfl <;> decide +kernel
      · rw [Proof.spawned_none conc_spawned (h ▸ h1)]; rfl
    have ha := Proof.closed_nodeAt (S := [0, 1]) (by decide +kernel) hy hn
    have h2 : ∀ a ∈ [0, 1], blockOf (concM.heap.data a) = none := by decide +kernel
    rw [Option.bind_some]; exact h2 a ha

theorem mix_separate : concM.Separate mixOwn := by
  intro x y p q v hne h1 h2
  by_cases hx : x = 2
  · subst hx
    have hy : y ≠ 2 := by rintro rfl; exact hne rfl
    exact conc_block hy h2 (conc_block2 h1)
  · by_cases hy : y = 2
    · subst hy
      exact conc_block hx h1 (conc_block2 h2)
    · by_cases hx3 : x = 3
      · have hy3 : y ≠ 3 := by rintro rfl; exact hne (by rw [hx3])
        rw [mix_block2 hy hy3 q] at h2; cases h2
      · rw [mix_block2 hx hx3 p] at h1; cases h1

/-- No data race in any schedule of these two. -/
example {sched : List (Fin 2)} {s} (e : (Fine.mixed concM mixOwn mixProg).run concA sched = some s) : ¬ s.Race :=
  c61_mixed_no_race_partial conc_spawned mix_separate mix_polite e

/-- The threads, in turns, run to their ends. -/
example : ((Fine.mixed concM mixOwn mixProg).run concA (concSched 250)).map (fun s => ((s.th 0).prog.ended, (s.th 0).log, (s.th 1).prog.ended, (s.th 1).log)) =
    some (true, [22, 17, 16, 21], true, [24, 22, 2, 1]) := by decide +kernel

end Trees
