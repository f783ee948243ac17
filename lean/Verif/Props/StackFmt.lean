import Verif.Proof.StackFmt
import Verif.Props.Format
import Verif.Props.StackRc
/-
C64: the stack that printing with any writer, and printing and hashing forests, need.
-/
namespace Trees
set_option linter.unusedSimpArgs false
set_option linter.unusedVariables false
variable {α σ : Type}
open RTree

namespace Proof

theorem FmtWithin.props {P : Writer α σ} {h : Heap α} {L n : Nat} {f : σ → M α (σ × Bool)} {ps : List (Piece α)} (H : FmtWithin P h L f ps n)
    {s : σ} {c : Res (Heap α) (σ × Bool)} (hc : c = ofOpt (emit P ps s) h) :
    (n ≤ L → f s h = c) ∧ (L < n → (∃ s', c = .ok (s', true) h) → f s h = .err .fuel h) := by
  refine ⟨fun hl => by rw [hc, H.1 hl], fun hl ⟨s', e⟩ => H.2 hl s s' ?_⟩
  rw [hc] at e
  cases ho : emit P ps s with
  | none => rw [ho] at e; cases e
  | some r => rw [ho] at e; simp only [ofOpt, Res.ok.injEq, and_true] at e; rw [e]

end Proof

section
variable {m : Machine α} (hr : Reachable m) (P : Writer α σ) (s : σ) (L : Nat)
include hr

section
variable {x : Var} {l : Loc} {v : Val (Addr × α)} {T : RTree (Addr × α)} (hx : m.lview x = some v) (ht : v.at? l = some T)
include hx ht

/-- **C64** `Debug` of a node or tree needs room for as many calls as the tree has levels: with that room it is the unlimited call (whatever the writer does),
with less the stack overflows unless an error or a panic of the writer stops the output. -/
theorem c64_debug :
    (T.height ≤ L → nodeDebugW P L T.data.1 s m.heap = debugNodeW P T.data.1 s m.heap) ∧
    (L < T.height → (∃ s', debugNodeW P T.data.1 s m.heap = .ok (s', true) m.heap) → nodeDebugW P L T.data.1 s m.heap = .err .fuel m.heap) := by
  obtain ⟨K, M⟩ := Proof.reachable_minv hr
  obtain ⟨h1, h2⟩ := Proof.lview_node M hx ht
  exact Proof.FmtWithin.props (nodeDebugW_within M.inv P L h1 h2) (c56_debug hr P s hx ht)

/-- **C64** so does `Display`, with any writer. -/
theorem c64_display_writer :
    (T.height ≤ L → nodeFmtW P L T.data.1 s m.heap = displayNodeW P T.data.1 s m.heap) ∧
    (L < T.height → (∃ s', displayNodeW P T.data.1 s m.heap = .ok (s', true) m.heap) → nodeFmtW P L T.data.1 s m.heap = .err .fuel m.heap) := by
  obtain ⟨K, M⟩ := Proof.reachable_minv hr
  obtain ⟨h1, h2⟩ := Proof.lview_node M hx ht
  exact Proof.FmtWithin.props (nodeFmtW_within M.inv P L h1 h2) (c56_display hr P s hx ht)

end

section
variable {x : Var} {f : Addr} {ts : List (RTree (Addr × α))} (he : m.env x = some (.forest f)) (hx : m.lview x = some (.forest ts))
include he hx

/-- **C64** `Display` of a forest needs room for as many nested calls of the nodes' function as the highest tree has levels. -/
theorem c64_display_forest :
    (heightL ts ≤ L → displayForestWithin P L f s m.heap = displayForestW P f s m.heap) ∧
    (L < heightL ts → (∃ s', displayForestW P f s m.heap = .ok (s', true) m.heap) → displayForestWithin P L f s m.heap = .err .fuel m.heap) := by
  obtain ⟨K, M⟩ := Proof.reachable_minv hr
  obtain ⟨h1, h2⟩ := Proof.lview_forest M he hx
  exact Proof.FmtWithin.props (displayForestWithin_iff M.inv P L h1 h2) (c56_display_forest hr P s he hx)

/-- **C64** so does `Debug` of a forest. -/
theorem c64_debug_forest :
    (heightL ts ≤ L → debugForestWithin P L f s m.heap = debugForestW P f s m.heap) ∧
    (L < heightL ts → (∃ s', debugForestW P f s m.heap = .ok (s', true) m.heap) → debugForestWithin P L f s m.heap = .err .fuel m.heap) := by
  obtain ⟨K, M⟩ := Proof.reachable_minv hr
  obtain ⟨h1, h2⟩ := Proof.lview_forest M he hx
  exact Proof.FmtWithin.props (debugForestWithin_iff M.inv P L h1 h2) (c56_debug_forest hr P s he hx)

omit P in
/-- **C64** and hashing a forest. -/
theorem c64_hash_forest (hs : α → σ → σ) :
    (heightL ts ≤ L → hashForestWithin hs L f s m.heap = hashForest hs f s m.heap) ∧
    (L < heightL ts → hashForestWithin hs L f s m.heap = .err .fuel m.heap) := by
  obtain ⟨K, M⟩ := Proof.reachable_minv hr
  obtain ⟨h1, h2⟩ := Proof.lview_forest M he hx
  have h3 := DenL.plain h2
  obtain ⟨⟨i, a2, a3⟩, a6⟩ := Den.fparts M.inv h1 h3
  obtain ⟨g1, g2⟩ := forIter_iff (f := nodeHash hs L) (F := fun t s => t.pre.foldl (fun s d => hs d s) s) (k := i.len + 1) (s := s)
      a3 h3 (fun c t s hc h1 => nodeHash_iff M.inv hs L (a6 c hc).1 h1) (by rw [a3.1]; omega)
  rw [Proof.heightL_map] at g1 g2
  refine ⟨fun hl => ?_, fun hl => ?_⟩
  · rw [hashForest_ok M.inv hs h1 h3]
    simp only [hashForestWithin, Trees.M.bind_apply, a2, Res.bind_ok, g1 hl, foldl_hash]
  · simp only [hashForestWithin, Trees.M.bind_apply, a2, Res.bind_ok, g2 hl]

end
end

/-! ### Concrete cases -/

/-- A writer that counts pieces and fails after `n`. -/
def countWriter (n : Nat) : Writer Nat Nat := fun _ s => some (s + 1, s + 1 < n)

/-- Printing a tree of three levels (24 pieces): with room for 2 calls the stack overflows; with room for 3 it is printed; a writer that fails early saves
the stack. -/
example : (List.range 5).map (fun L => match nodeDebugW (countWriter 100) L ((exec step Machine.empty stackProg).1.nodeAt 0 [] |>.getD 99) 0
        (exec step Machine.empty stackProg).1.heap with | .ok r _ => some r | .err .. => none) = [none, none, none, some (24, true), some (24, true)] ∧
    (List.range 5).map (fun L => match nodeDebugW (countWriter 3) L ((exec step Machine.empty stackProg).1.nodeAt 0 [] |>.getD 99) 0
        (exec step Machine.empty stackProg).1.heap with | .ok r _ => some r | .err .. => none) =
      [none, some (3, false), some (3, false), some (3, false), some (3, false)] := by decide +kernel

/-- A forest of two trees. -/
example : (List.range 4).map (fun L => match debugForestWithin (countWriter 100) L 0 0
        (exec step Machine.empty (stackProg ++ [.abandon 0])).1.heap with | .ok r _ => some r.2 | .err .. => none) = [none, none, some true, some true] := by decide +kernel

end Trees
