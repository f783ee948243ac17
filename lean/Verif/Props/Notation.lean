import Verif.Model.Notation
import Verif.Props.Bfs
/-
C32: the operator notation.
-/
namespace Trees
set_option linter.unusedSimpArgs false
variable {α : Type}
open RTree

/-! ### Specification -/

/-- The tree in a variable. -/
def treeIn (V : Var → Option (Val α)) (x : Var) : Option (RTree α) :=
  match V x with | some (.tree t) => some t | _ => none
/-- The forest in a variable. -/
def forestIn (V : Var → Option (Val α)) (x : Var) : Option (List (RTree α)) :=
  match V x with | some (.forest ts) => some ts | _ => none

/-- What an operator denotes: `-` lists the operands from left to right, `/` appends the right operand to the
children of the left one. Undefined when the operands have other types. -/
def Expr.denote (V : Var → Option (Val α)) : Expr → Option (Val α)
  | .negT x => do return .forest [← treeIn V x.var]
  | .subTT x y => do return .forest [← treeIn V x.var, ← treeIn V y.var]
  | .subFT x y => do return .forest ((← forestIn V x.var) ++ [← treeIn V y.var])
  | .subFF x y => do return .forest ((← forestIn V x.var) ++ (← forestIn V y.var))
  | .divTF x y => do let t ← treeIn V x.var; return .tree (.node t.data (t.kids ++ (← forestIn V y.var)))
  | .divTT x y => do let t ← treeIn V x.var; return .tree (.node t.data (t.kids ++ [← treeIn V y.var]))
  | .divUnit x => do return .tree (← treeIn V x.var)

/-- The operands. -/
def Expr.operands : Expr → List Operand
  | .negT x | .divUnit x => [x]
  | .subTT x y | .divTF x y | .divTT x y | .subFT x y | .subFF x y => [x, y]

/-- The variables moved into the operator. -/
def Expr.moved (e : Expr) : List Var := e.operands.flatMap Operand.moved

/-- No operand uses a variable that another operand moves (the compiler rejects that). -/
def Expr.legal (e : Expr) : Prop := e.operands.Pairwise (fun a b => a.var = b.var → a.moved = [] ∧ b.moved = [])

namespace Proof

/-- `runAll` on the specification. -/
def specAll (S : Store α) : List (Op α) → Option (Store α)
  | [] => some S
  | op :: ops => match specStep S op with
    | .ok S' _ => specAll S' ops
    | _ => none

theorem runAll_ok : ∀ (ops : List (Op α)) {m : Machine α} {S : Store α}, Reachable m → specAll m.store ops = some S →
    ∃ m', runAll m ops = some m' ∧ m'.store = S ∧ Reachable m' := by
  intro ops
  induction ops with
  | nil => intro m S hr h; exact ⟨m, rfl, by simpa [specAll] using h, hr⟩
  | cons op ops ih =>
    intro m S hr h
    simp only [specAll] at h
    cases e : specStep m.store op with
    | ok S' o =>
      rw [e] at h
      obtain ⟨m1, h1, h2, h3⟩ := step_ok hr e
      subst h2
      obtain ⟨m2, g1, g2, g3⟩ := ih h3 h
      exact ⟨m2, by simp [runAll, h1, g1], g2, g3⟩
    | panic _ => rw [e] at h; simp at h
    | rejected => rw [e] at h; simp at h
    | bad => rw [e] at h; simp at h

theorem view_none_of_fresh {m : Machine α} (hr : Reachable m) {x : Var} (h : m.fresh ≤ x) : m.view x = none := by
  obtain ⟨K, M⟩ := Proof.reachable_minv hr
  simp [Machine.view, M.fr x h]

theorem treeIn_some {V : Var → Option (Val α)} {x : Var} {t : RTree α} : treeIn V x = some t ↔ V x = some (.tree t) := by
  simp only [treeIn]; split <;> simp_all
theorem forestIn_some {V : Var → Option (Val α)} {x : Var} {ts : List (RTree α)} :
    forestIn V x = some ts ↔ V x = some (.forest ts) := by
  simp only [forestIn]; split <;> simp_all


theorem spec_ok (S : Store α) (hfr : ∀ x, S.fresh ≤ x → S.vars x = none) {e : Expr} {w : Val α} (hl : e.legal)
    (hw : e.denote S.vars = some w) :
    ∃ S', specAll S (e.body S.fresh).1 = some S' ∧ S'.vars (e.body (α := α) S.fresh).2 = some w ∧
      ((e.body (α := α) S.fresh).2 ∈ e.moved ∨ S.vars (e.body (α := α) S.fresh).2 = none) ∧
      (∀ z, z ≠ (e.body (α := α) S.fresh).2 → S'.vars z = if z ∈ e.moved then none else S.vars z) ∧
      S'.dropped = S.dropped := by
  obtain ⟨V, k, D⟩ := S
  simp only at *
  have fr : ∀ x v, V x = some v → x ≠ k ∧ x ≠ k + 1 ∧ x ≠ k + 2 := by
    intro x v hx
    have : ¬ k ≤ x := fun h => by rw [hfr x h] at hx; cases hx
    refine ⟨?_, ?_, ?_⟩ <;> rintro rfl <;> apply this <;> first | exact Nat.le_refl _ | exact Nat.le_add_right _ _
  have f0 := hfr k (Nat.le_refl _)
  have f1 := hfr (k + 1) (Nat.le_add_right _ _)
  have f2 := hfr (k + 2) (Nat.le_add_right _ _)
  have cl : ∀ t : RTree α, t.updLevel (fun _ d => d) = t := fun t => by rw [updLevel_const (fun d => d), map_id_eq]
  have clL : ∀ t : List (RTree α), updLevelL (fun _ d => d) t = t := fun t => by rw [updLevelL_const (fun d => d), mapL_id_eq]
  cases e with
  | negT x =>
    simp only [Expr.denote, Option.bind_eq_bind, Option.bind_eq_some_iff, treeIn_some, forestIn_some, Option.pure_def, Option.some.injEq] at hw
    obtain ⟨t, h1, rfl⟩ := hw
    obtain ⟨n1, n2, n3⟩ := fr _ _ h1
    cases x <;> (
      simp only [Operand.var] at *
      simp [Expr.body, specAll, specStep, Store.takeTree, Store.takeForest, Store.onKids, Store.onNode, Store.setKids, Store.bind,
        Store.set, Val.isIter, kidsAt, modKids, Val.kids, Val.setKids, f0, f1, f2, Expr.moved, Expr.operands, Operand.moved, cloneTree,
        cloneForest, cl, clL, Nat.add_assoc, h1, n1, n2, n3, Ne.symm n1, Ne.symm n2, Ne.symm n3]) <;> grind
  | divUnit x =>
    simp only [Expr.denote, Option.bind_eq_bind, Option.bind_eq_some_iff, treeIn_some, forestIn_some, Option.pure_def, Option.some.injEq] at hw
    obtain ⟨t, h1, rfl⟩ := hw
    obtain ⟨n1, n2, n3⟩ := fr _ _ h1
    cases x <;> (
      simp only [Operand.var] at *
      simp [Expr.body, specAll, specStep, Store.takeTree, Store.takeForest, Store.onKids, Store.onNode, Store.setKids, Store.bind,
        Store.set, Val.isIter, kidsAt, modKids, Val.kids, Val.setKids, f0, f1, f2, Expr.moved, Expr.operands, Operand.moved, cloneTree,
        cloneForest, cl, clL, Nat.add_assoc, h1, n1, n2, n3, Ne.symm n1, Ne.symm n2, Ne.symm n3]) <;> grind
  | subTT x y =>
    simp only [Expr.denote, Option.bind_eq_bind, Option.bind_eq_some_iff, treeIn_some, forestIn_some, Option.pure_def, Option.some.injEq] at hw
    obtain ⟨t, h1, u, h2, rfl⟩ := hw
    obtain ⟨n1, n2, n3⟩ := fr _ _ h1
    obtain ⟨p1, p2, p3⟩ := fr _ _ h2
    have hl' : x.var = y.var → x.moved = [] ∧ y.moved = [] := by simpa [Expr.legal, Expr.operands] using hl
    cases x with
    | val x =>
      cases y with
      | val y =>
        simp only [Operand.var] at *
        have hxy : x ≠ y := fun h => by simpa [Operand.moved] using hl' h
        simp [Expr.body, specAll, specStep, Store.takeTree, Store.takeForest, Store.onKids, Store.onNode, Store.setKids, Store.bind,
          Store.set, Val.isIter, kidsAt, modKids, Val.kids, Val.setKids, f0, f1, f2, Expr.moved, Expr.operands, Operand.moved, cloneTree,
          cloneForest, cl, clL, Nat.add_assoc, h1, n1, n2, n3, Ne.symm n1, Ne.symm n2, Ne.symm n3, h2, p1, p2, p3, Ne.symm p1, Ne.symm p2, Ne.symm p3, hxy, Ne.symm hxy]
        try grind
      | ref y =>
        simp only [Operand.var] at *
        have hxy : x ≠ y := fun h => by simpa [Operand.moved] using hl' h
        simp [Expr.body, specAll, specStep, Store.takeTree, Store.takeForest, Store.onKids, Store.onNode, Store.setKids, Store.bind,
          Store.set, Val.isIter, kidsAt, modKids, Val.kids, Val.setKids, f0, f1, f2, Expr.moved, Expr.operands, Operand.moved, cloneTree,
          cloneForest, cl, clL, Nat.add_assoc, h1, n1, n2, n3, Ne.symm n1, Ne.symm n2, Ne.symm n3, h2, p1, p2, p3, Ne.symm p1, Ne.symm p2, Ne.symm p3, hxy, Ne.symm hxy]
        try grind
    | ref x =>
      cases y with
      | val y =>
        simp only [Operand.var] at *
        have hxy : x ≠ y := fun h => by simpa [Operand.moved] using hl' h
        simp [Expr.body, specAll, specStep, Store.takeTree, Store.takeForest, Store.onKids, Store.onNode, Store.setKids, Store.bind,
          Store.set, Val.isIter, kidsAt, modKids, Val.kids, Val.setKids, f0, f1, f2, Expr.moved, Expr.operands, Operand.moved, cloneTree,
          cloneForest, cl, clL, Nat.add_assoc, h1, n1, n2, n3, Ne.symm n1, Ne.symm n2, Ne.symm n3, h2, p1, p2, p3, Ne.symm p1, Ne.symm p2, Ne.symm p3, hxy, Ne.symm hxy]
        try grind
      | ref y =>
        simp only [Operand.var] at *
        simp [Expr.body, specAll, specStep, Store.takeTree, Store.takeForest, Store.onKids, Store.onNode, Store.setKids, Store.bind,
          Store.set, Val.isIter, kidsAt, modKids, Val.kids, Val.setKids, f0, f1, f2, Expr.moved, Expr.operands, Operand.moved, cloneTree,
          cloneForest, cl, clL, Nat.add_assoc, h1, n1, n2, n3, Ne.symm n1, Ne.symm n2, Ne.symm n3, h2, p1, p2, p3, Ne.symm p1, Ne.symm p2, Ne.symm p3]
        try grind
  | divTF x y =>
    simp only [Expr.denote, Option.bind_eq_bind, Option.bind_eq_some_iff, treeIn_some, forestIn_some, Option.pure_def, Option.some.injEq] at hw
    obtain ⟨t, h1, u, h2, rfl⟩ := hw
    obtain ⟨n1, n2, n3⟩ := fr _ _ h1
    obtain ⟨p1, p2, p3⟩ := fr _ _ h2
    have hl' : x.var = y.var → x.moved = [] ∧ y.moved = [] := by simpa [Expr.legal, Expr.operands] using hl
    cases x with
    | val x =>
      cases y with
      | val y =>
        simp only [Operand.var] at *
        have hxy : x ≠ y := fun h => by simpa [Operand.moved] using hl' h
        simp [Expr.body, specAll, specStep, Store.takeTree, Store.takeForest, Store.onKids, Store.onNode, Store.setKids, Store.bind,
          Store.set, Val.isIter, kidsAt, modKids, Val.kids, Val.setKids, f0, f1, f2, Expr.moved, Expr.operands, Operand.moved, cloneTree,
          cloneForest, cl, clL, Nat.add_assoc, h1, n1, n2, n3, Ne.symm n1, Ne.symm n2, Ne.symm n3, h2, p1, p2, p3, Ne.symm p1, Ne.symm p2, Ne.symm p3, hxy, Ne.symm hxy]
        try grind
      | ref y =>
        simp only [Operand.var] at *
        have hxy : x ≠ y := fun h => by simpa [Operand.moved] using hl' h
        simp [Expr.body, specAll, specStep, Store.takeTree, Store.takeForest, Store.onKids, Store.onNode, Store.setKids, Store.bind,
          Store.set, Val.isIter, kidsAt, modKids, Val.kids, Val.setKids, f0, f1, f2, Expr.moved, Expr.operands, Operand.moved, cloneTree,
          cloneForest, cl, clL, Nat.add_assoc, h1, n1, n2, n3, Ne.symm n1, Ne.symm n2, Ne.symm n3, h2, p1, p2, p3, Ne.symm p1, Ne.symm p2, Ne.symm p3, hxy, Ne.symm hxy]
        try grind
    | ref x =>
      cases y with
      | val y =>
        simp only [Operand.var] at *
        have hxy : x ≠ y := fun h => by simpa [Operand.moved] using hl' h
        simp [Expr.body, specAll, specStep, Store.takeTree, Store.takeForest, Store.onKids, Store.onNode, Store.setKids, Store.bind,
          Store.set, Val.isIter, kidsAt, modKids, Val.kids, Val.setKids, f0, f1, f2, Expr.moved, Expr.operands, Operand.moved, cloneTree,
          cloneForest, cl, clL, Nat.add_assoc, h1, n1, n2, n3, Ne.symm n1, Ne.symm n2, Ne.symm n3, h2, p1, p2, p3, Ne.symm p1, Ne.symm p2, Ne.symm p3, hxy, Ne.symm hxy]
        try grind
      | ref y =>
        simp only [Operand.var] at *
        simp [Expr.body, specAll, specStep, Store.takeTree, Store.takeForest, Store.onKids, Store.onNode, Store.setKids, Store.bind,
          Store.set, Val.isIter, kidsAt, modKids, Val.kids, Val.setKids, f0, f1, f2, Expr.moved, Expr.operands, Operand.moved, cloneTree,
          cloneForest, cl, clL, Nat.add_assoc, h1, n1, n2, n3, Ne.symm n1, Ne.symm n2, Ne.symm n3, h2, p1, p2, p3, Ne.symm p1, Ne.symm p2, Ne.symm p3]
        try grind
  | divTT x y =>
    simp only [Expr.denote, Option.bind_eq_bind, Option.bind_eq_some_iff, treeIn_some, forestIn_some, Option.pure_def, Option.some.injEq] at hw
    obtain ⟨t, h1, u, h2, rfl⟩ := hw
    obtain ⟨n1, n2, n3⟩ := fr _ _ h1
    obtain ⟨p1, p2, p3⟩ := fr _ _ h2
    have hl' : x.var = y.var → x.moved = [] ∧ y.moved = [] := by simpa [Expr.legal, Expr.operands] using hl
    cases x with
    | val x =>
      cases y with
      | val y =>
        simp only [Operand.var] at *
        have hxy : x ≠ y := fun h => by simpa [Operand.moved] using hl' h
        simp [Expr.body, specAll, specStep, Store.takeTree, Store.takeForest, Store.onKids, Store.onNode, Store.setKids, Store.bind,
          Store.set, Val.isIter, kidsAt, modKids, Val.kids, Val.setKids, f0, f1, f2, Expr.moved, Expr.operands, Operand.moved, cloneTree,
          cloneForest, cl, clL, Nat.add_assoc, h1, n1, n2, n3, Ne.symm n1, Ne.symm n2, Ne.symm n3, h2, p1, p2, p3, Ne.symm p1, Ne.symm p2, Ne.symm p3, hxy, Ne.symm hxy]
        try grind
      | ref y =>
        simp only [Operand.var] at *
        have hxy : x ≠ y := fun h => by simpa [Operand.moved] using hl' h
        simp [Expr.body, specAll, specStep, Store.takeTree, Store.takeForest, Store.onKids, Store.onNode, Store.setKids, Store.bind,
          Store.set, Val.isIter, kidsAt, modKids, Val.kids, Val.setKids, f0, f1, f2, Expr.moved, Expr.operands, Operand.moved, cloneTree,
          cloneForest, cl, clL, Nat.add_assoc, h1, n1, n2, n3, Ne.symm n1, Ne.symm n2, Ne.symm n3, h2, p1, p2, p3, Ne.symm p1, Ne.symm p2, Ne.symm p3, hxy, Ne.symm hxy]
        try grind
    | ref x =>
      cases y with
      | val y =>
        simp only [Operand.var] at *
        have hxy : x ≠ y := fun h => by simpa [Operand.moved] using hl' h
        simp [Expr.body, specAll, specStep, Store.takeTree, Store.takeForest, Store.onKids, Store.onNode, Store.setKids, Store.bind,
          Store.set, Val.isIter, kidsAt, modKids, Val.kids, Val.setKids, f0, f1, f2, Expr.moved, Expr.operands, Operand.moved, cloneTree,
          cloneForest, cl, clL, Nat.add_assoc, h1, n1, n2, n3, Ne.symm n1, Ne.symm n2, Ne.symm n3, h2, p1, p2, p3, Ne.symm p1, Ne.symm p2, Ne.symm p3, hxy, Ne.symm hxy]
        try grind
      | ref y =>
        simp only [Operand.var] at *
        simp [Expr.body, specAll, specStep, Store.takeTree, Store.takeForest, Store.onKids, Store.onNode, Store.setKids, Store.bind,
          Store.set, Val.isIter, kidsAt, modKids, Val.kids, Val.setKids, f0, f1, f2, Expr.moved, Expr.operands, Operand.moved, cloneTree,
          cloneForest, cl, clL, Nat.add_assoc, h1, n1, n2, n3, Ne.symm n1, Ne.symm n2, Ne.symm n3, h2, p1, p2, p3, Ne.symm p1, Ne.symm p2, Ne.symm p3]
        try grind
  | subFT x y =>
    simp only [Expr.denote, Option.bind_eq_bind, Option.bind_eq_some_iff, treeIn_some, forestIn_some, Option.pure_def, Option.some.injEq] at hw
    obtain ⟨t, h1, u, h2, rfl⟩ := hw
    obtain ⟨n1, n2, n3⟩ := fr _ _ h1
    obtain ⟨p1, p2, p3⟩ := fr _ _ h2
    have hl' : x.var = y.var → x.moved = [] ∧ y.moved = [] := by simpa [Expr.legal, Expr.operands] using hl
    cases x with
    | val x =>
      cases y with
      | val y =>
        simp only [Operand.var] at *
        have hxy : x ≠ y := fun h => by simpa [Operand.moved] using hl' h
        simp [Expr.body, specAll, specStep, Store.takeTree, Store.takeForest, Store.onKids, Store.onNode, Store.setKids, Store.bind,
          Store.set, Val.isIter, kidsAt, modKids, Val.kids, Val.setKids, f0, f1, f2, Expr.moved, Expr.operands, Operand.moved, cloneTree,
          cloneForest, cl, clL, Nat.add_assoc, h1, n1, n2, n3, Ne.symm n1, Ne.symm n2, Ne.symm n3, h2, p1, p2, p3, Ne.symm p1, Ne.symm p2, Ne.symm p3, hxy, Ne.symm hxy]
        try grind
      | ref y =>
        simp only [Operand.var] at *
        have hxy : x ≠ y := fun h => by simpa [Operand.moved] using hl' h
        simp [Expr.body, specAll, specStep, Store.takeTree, Store.takeForest, Store.onKids, Store.onNode, Store.setKids, Store.bind,
          Store.set, Val.isIter, kidsAt, modKids, Val.kids, Val.setKids, f0, f1, f2, Expr.moved, Expr.operands, Operand.moved, cloneTree,
          cloneForest, cl, clL, Nat.add_assoc, h1, n1, n2, n3, Ne.symm n1, Ne.symm n2, Ne.symm n3, h2, p1, p2, p3, Ne.symm p1, Ne.symm p2, Ne.symm p3, hxy, Ne.symm hxy]
        try grind
    | ref x =>
      cases y with
      | val y =>
        simp only [Operand.var] at *
        have hxy : x ≠ y := fun h => by simpa [Operand.moved] using hl' h
        simp [Expr.body, specAll, specStep, Store.takeTree, Store.takeForest, Store.onKids, Store.onNode, Store.setKids, Store.bind,
          Store.set, Val.isIter, kidsAt, modKids, Val.kids, Val.setKids, f0, f1, f2, Expr.moved, Expr.operands, Operand.moved, cloneTree,
          cloneForest, cl, clL, Nat.add_assoc, h1, n1, n2, n3, Ne.symm n1, Ne.symm n2, Ne.symm n3, h2, p1, p2, p3, Ne.symm p1, Ne.symm p2, Ne.symm p3, hxy, Ne.symm hxy]
        try grind
      | ref y =>
        simp only [Operand.var] at *
        simp [Expr.body, specAll, specStep, Store.takeTree, Store.takeForest, Store.onKids, Store.onNode, Store.setKids, Store.bind,
          Store.set, Val.isIter, kidsAt, modKids, Val.kids, Val.setKids, f0, f1, f2, Expr.moved, Expr.operands, Operand.moved, cloneTree,
          cloneForest, cl, clL, Nat.add_assoc, h1, n1, n2, n3, Ne.symm n1, Ne.symm n2, Ne.symm n3, h2, p1, p2, p3, Ne.symm p1, Ne.symm p2, Ne.symm p3]
        try grind
  | subFF x y =>
    simp only [Expr.denote, Option.bind_eq_bind, Option.bind_eq_some_iff, treeIn_some, forestIn_some, Option.pure_def, Option.some.injEq] at hw
    obtain ⟨t, h1, u, h2, rfl⟩ := hw
    obtain ⟨n1, n2, n3⟩ := fr _ _ h1
    obtain ⟨p1, p2, p3⟩ := fr _ _ h2
    have hl' : x.var = y.var → x.moved = [] ∧ y.moved = [] := by simpa [Expr.legal, Expr.operands] using hl
    cases x with
    | val x =>
      cases y with
      | val y =>
        simp only [Operand.var] at *
        have hxy : x ≠ y := fun h => by simpa [Operand.moved] using hl' h
        simp [Expr.body, specAll, specStep, Store.takeTree, Store.takeForest, Store.onKids, Store.onNode, Store.setKids, Store.bind,
          Store.set, Val.isIter, kidsAt, modKids, Val.kids, Val.setKids, f0, f1, f2, Expr.moved, Expr.operands, Operand.moved, cloneTree,
          cloneForest, cl, clL, Nat.add_assoc, h1, n1, n2, n3, Ne.symm n1, Ne.symm n2, Ne.symm n3, h2, p1, p2, p3, Ne.symm p1, Ne.symm p2, Ne.symm p3, hxy, Ne.symm hxy]
        try grind
      | ref y =>
        simp only [Operand.var] at *
        have hxy : x ≠ y := fun h => by simpa [Operand.moved] using hl' h
        simp [Expr.body, specAll, specStep, Store.takeTree, Store.takeForest, Store.onKids, Store.onNode, Store.setKids, Store.bind,
          Store.set, Val.isIter, kidsAt, modKids, Val.kids, Val.setKids, f0, f1, f2, Expr.moved, Expr.operands, Operand.moved, cloneTree,
          cloneForest, cl, clL, Nat.add_assoc, h1, n1, n2, n3, Ne.symm n1, Ne.symm n2, Ne.symm n3, h2, p1, p2, p3, Ne.symm p1, Ne.symm p2, Ne.symm p3, hxy, Ne.symm hxy]
        try grind
    | ref x =>
      cases y with
      | val y =>
        simp only [Operand.var] at *
        have hxy : x ≠ y := fun h => by simpa [Operand.moved] using hl' h
        simp [Expr.body, specAll, specStep, Store.takeTree, Store.takeForest, Store.onKids, Store.onNode, Store.setKids, Store.bind,
          Store.set, Val.isIter, kidsAt, modKids, Val.kids, Val.setKids, f0, f1, f2, Expr.moved, Expr.operands, Operand.moved, cloneTree,
          cloneForest, cl, clL, Nat.add_assoc, h1, n1, n2, n3, Ne.symm n1, Ne.symm n2, Ne.symm n3, h2, p1, p2, p3, Ne.symm p1, Ne.symm p2, Ne.symm p3, hxy, Ne.symm hxy]
        try grind
      | ref y =>
        simp only [Operand.var] at *
        simp [Expr.body, specAll, specStep, Store.takeTree, Store.takeForest, Store.onKids, Store.onNode, Store.setKids, Store.bind,
          Store.set, Val.isIter, kidsAt, modKids, Val.kids, Val.setKids, f0, f1, f2, Expr.moved, Expr.operands, Operand.moved, cloneTree,
          cloneForest, cl, clL, Nat.add_assoc, h1, n1, n2, n3, Ne.symm n1, Ne.symm n2, Ne.symm n3, h2, p1, p2, p3, Ne.symm p1, Ne.symm p2, Ne.symm p3]
        try grind

end Proof

/-- **C32** Every operator of the notation, in every combination of by-value and by-reference operands (24 `impl`s),
returns the value it denotes; by-reference operands and all other variables keep their values, by-value operands are
consumed, no data is dropped. -/
theorem c32_operator {m : Machine α} (hr : Reachable m) {e : Expr} {w : Val α} (hl : e.legal)
    (hw : e.denote m.view = some w) :
    ∃ m' r, e.eval m = some (m', r) ∧ Reachable m' ∧ m'.view r = some w ∧ (r ∈ e.moved ∨ m.view r = none) ∧
      (∀ z, z ≠ r → m'.view z = if z ∈ e.moved then none else m.view z) ∧ m'.store.dropped = m.store.dropped := by
  obtain ⟨S, h1, h2, h3, h4, h5⟩ := Proof.spec_ok m.store (fun x hx => Proof.view_none_of_fresh hr hx) hl hw
  obtain ⟨m', g1, g2, g3⟩ := Proof.runAll_ok _ hr h1
  subst g2
  have g1' : runAll m (e.body m.fresh).1 = some m' := g1
  exact ⟨m', _, by simp only [Expr.eval, g1']; rfl, g3, h2, h3, h4, h5⟩

/-! ### Whole expressions -/

/-- What a closed expression denotes. -/
def Note.denote : Note α → Option (Val α)
  | .tr d => some (.tree (.node d []))
  | .fr => some (.forest [])
  | .neg a => match a.denote with
    | some (.tree t) => some (.forest [t])
    | _ => none
  | .sub a b => match a.denote, b.denote with
    | some (.tree t), some (.tree u) => some (.forest [t, u])
    | some (.forest ts), some (.tree u) => some (.forest (ts ++ [u]))
    | some (.forest ts), some (.forest us) => some (.forest (ts ++ us))
    | _, _ => none
  | .div a b => match a.denote, b.denote with
    | some (.tree t), some (.tree u) => some (.tree (.node t.data (t.kids ++ [u])))
    | some (.tree t), some (.forest us) => some (.tree (.node t.data (t.kids ++ us)))
    | _, _ => none
  | .divUnit a => match a.denote with
    | some (.tree t) => some (.tree t)
    | _ => none

namespace Proof

def tyOf : Val α → Option Ty
  | .tree _ => some .tree
  | .forest _ => some .forest
  | .iter _ => none

theorem ty_of_denote : ∀ (e : Note α) {w : Val α}, e.denote = some w → e.ty = tyOf w := by
  intro e
  induction e with
  | tr d => intro w h; cases h; rfl
  | fr => intro w h; cases h; rfl
  | neg a ih =>
    intro w h
    simp only [Note.denote] at h
    split at h <;> simp at h
    subst h
    rename_i h
    simp [Note.ty, ih h, tyOf]
  | divUnit a ih =>
    intro w h
    simp only [Note.denote] at h
    split at h <;> simp at h
    subst h
    rename_i h
    simp [Note.ty, ih h, tyOf]
  | sub a b iha ihb =>
    intro w h
    simp only [Note.denote] at h
    split at h <;> simp at h <;> subst h <;> rename_i h1 h2 <;> simp [Note.ty, iha h1, ihb h2, tyOf]
  | div a b iha ihb =>
    intro w h
    simp only [Note.denote] at h
    split at h <;> simp at h <;> subst h <;> rename_i h1 h2 <;> simp [Note.ty, iha h1, ihb h2, tyOf]

/-- What evaluating an expression with value `w` does. -/
def Evals (m : Machine α) (r : Option (Machine α × Var)) (w : Val α) : Prop :=
  ∃ m' x, r = some (m', x) ∧ Reachable m' ∧ m'.view x = some w ∧ m.view x = none ∧ (∀ z, z ≠ x → m'.view z = m.view z) ∧
    m'.store.dropped = m.store.dropped

theorem evals1 {m m1 : Machine α} {x : Var} {wa w : Val α} (h2 : Reachable m1) (h3 : m1.view x = some wa)
    (h4 : m.view x = none) (h5 : ∀ z, z ≠ x → m1.view z = m.view z) (h6 : m1.store.dropped = m.store.dropped)
    {e : Expr} (he : e.operands = [.val x]) (hw : e.denote m1.view = some w) : Evals m (e.eval m1) w := by
  have hmv : e.moved = [x] := by simp [Expr.moved, he, Operand.moved]
  obtain ⟨m', r, g1, g2, g3, g4, g5, g6⟩ := c32_operator h2 (e := e) (by simp [Expr.legal, he]) hw
  rw [hmv] at g4 g5
  refine ⟨m', r, g1, g2, g3, ?_, ?_, g6.trans h6⟩
  · grind
  · grind

theorem evals2 {m m1 m2 : Machine α} {x y : Var} {wa wb w : Val α} (h3 : m1.view x = some wa)
    (h4 : m.view x = none) (h5 : ∀ z, z ≠ x → m1.view z = m.view z) (h6 : m1.store.dropped = m.store.dropped)
    (k2 : Reachable m2) (k3 : m2.view y = some wb) (k4 : m1.view y = none) (k5 : ∀ z, z ≠ y → m2.view z = m1.view z)
    (k6 : m2.store.dropped = m1.store.dropped)
    {e : Expr} (he : e.operands = [.val x, .val y]) (hw : e.denote m2.view = some w) : Evals m (e.eval m2) w := by
  have hxy : x ≠ y := by rintro rfl; rw [h3] at k4; cases k4
  have hmv : e.moved = [x, y] := by simp [Expr.moved, he, Operand.moved]
  obtain ⟨m', r, g1, g2, g3, g4, g5, g6⟩ := c32_operator k2 (e := e) (by simp [Expr.legal, he, Operand.var, hxy]) hw
  rw [hmv] at g4 g5
  refine ⟨m', r, g1, g2, g3, ?_, ?_, (g6.trans k6).trans h6⟩
  · grind
  · grind

end Proof

/-- **C32** A whole expression in the notation evaluates to the value it denotes, in a fresh variable; no other
variable changes and no data is dropped. -/
theorem c32_expression : ∀ (e : Note α) {m : Machine α} {w : Val α}, Reachable m → e.denote = some w →
    ∃ m' x, e.eval m = some (m', x) ∧ Reachable m' ∧ m'.view x = some w ∧ m.view x = none ∧
      (∀ z, z ≠ x → m'.view z = m.view z) ∧ m'.store.dropped = m.store.dropped := by
  intro e
  induction e with
  | tr d =>
    intro m w hr h
    cases h
    obtain ⟨m', h1, h2, h3⟩ := step_ok hr (op := .treeNew d) rfl
    refine ⟨m', m.fresh, ?_, h3, ?_, Proof.view_none_of_fresh hr (Nat.le_refl _), ?_, by rw [h2]; rfl⟩
    · simp only [Note.eval, h1]; rfl
    · rw [show m'.view = m'.store.vars from rfl, h2]; simp [Store.bind, Machine.store]
    · intro z hz; rw [show m'.view = m'.store.vars from rfl, h2]; simp [Store.bind, Machine.store, hz]
  | fr =>
    intro m w hr h
    cases h
    obtain ⟨m', h1, h2, h3⟩ := step_ok hr (op := .forestNew) rfl
    refine ⟨m', m.fresh, ?_, h3, ?_, Proof.view_none_of_fresh hr (Nat.le_refl _), ?_, by rw [h2]; rfl⟩
    · simp only [Note.eval, h1]; rfl
    · rw [show m'.view = m'.store.vars from rfl, h2]; simp [Store.bind, Machine.store]
    · intro z hz; rw [show m'.view = m'.store.vars from rfl, h2]; simp [Store.bind, Machine.store, hz]
  | neg a ih =>
    intro m w hr h
    simp only [Note.denote] at h
    split at h <;> simp at h
    subst h
    rename_i t h
    obtain ⟨m1, x, h1, h2, h3, h4, h5, h6⟩ := ih hr h
    simp only [Note.eval, h1, Option.bind_eq_bind, Option.bind_some]
    exact Proof.evals1 h2 h3 h4 h5 h6 rfl (by simp [Expr.denote, treeIn, Operand.var, h3])
  | divUnit a ih =>
    intro m w hr h
    simp only [Note.denote] at h
    split at h <;> simp at h
    subst h
    rename_i t h
    obtain ⟨m1, x, h1, h2, h3, h4, h5, h6⟩ := ih hr h
    simp only [Note.eval, h1, Option.bind_eq_bind, Option.bind_some]
    exact Proof.evals1 h2 h3 h4 h5 h6 rfl (by simp [Expr.denote, treeIn, Operand.var, h3])
  | sub a b iha ihb =>
    intro m w hr h
    simp only [Note.denote] at h
    split at h <;> simp at h <;>
    · subst h
      rename_i ha hb
      obtain ⟨m1, x, h1, h2, h3, h4, h5, h6⟩ := iha hr ha
      obtain ⟨m2, y, k1, k2, k3, k4, k5, k6⟩ := ihb h2 hb
      have hxy : x ≠ y := by rintro rfl; rw [h3] at k4; cases k4
      have h3' := h3
      rw [← k5 x hxy] at h3'
      simp only [Note.eval, h1, k1, Option.bind_eq_bind, Option.bind_some, Proof.ty_of_denote a ha, Proof.ty_of_denote b hb,
        Proof.tyOf, Note.pickSub]
      exact Proof.evals2 h3 h4 h5 h6 k2 k3 k4 k5 k6 rfl (by simp [Expr.denote, treeIn, forestIn, Operand.var, h3', k3])
  | div a b iha ihb =>
    intro m w hr h
    simp only [Note.denote] at h
    split at h <;> simp at h <;>
    · subst h
      rename_i ha hb
      obtain ⟨m1, x, h1, h2, h3, h4, h5, h6⟩ := iha hr ha
      obtain ⟨m2, y, k1, k2, k3, k4, k5, k6⟩ := ihb h2 hb
      have hxy : x ≠ y := by rintro rfl; rw [h3] at k4; cases k4
      have h3' := h3
      rw [← k5 x hxy] at h3'
      simp only [Note.eval, h1, k1, Option.bind_eq_bind, Option.bind_some, Proof.ty_of_denote a ha, Proof.ty_of_denote b hb,
        Proof.tyOf, Note.pickDiv]
      exact Proof.evals2 h3 h4 h5 h6 k2 k3 k4 k5 k6 rfl (by simp [Expr.denote, treeIn, forestIn, Operand.var, h3', k3])

/-! ### The hypotheses are satisfiable -/

/-- `&t - &t` on the tree in variable 0 of the demonstration state. -/
example : ∃ m' r, (Expr.subTT (.ref 0) (.ref 0)).eval demo2 = some (m', r) ∧
    m'.view r = some (.forest [.node 0 [.node 1 [.node 5 []], .node 2 []], .node 0 [.node 1 [.node 5 []], .node 2 []]]) ∧
    m'.view 0 = demo2.view 0 := by
  obtain ⟨m', r, h1, h2, h3, h4, h5, _⟩ := c32_operator demo2_reachable (e := .subTT (.ref 0) (.ref 0)) (w := _)
    (by simp [Expr.legal, Expr.operands, Operand.moved]) (by simp only [Expr.denote, treeIn, Operand.var, demo2_view0]; rfl)
  refine ⟨m', r, h1, h3, ?_⟩
  rw [h5]
  · rfl
  · rintro rfl
    rw [demo2_view0] at h4
    simp [Expr.moved, Expr.operands, Operand.moved] at h4

/-- `tr(0) /( tr(1)/tr(2) - tr(3) )`. -/
example : ∃ m' x, (Note.div (.tr 0) (.sub (.div (.tr 1) (.tr 2)) (.tr 3))).eval demo2 = some (m', x) ∧
    m'.view x = some (.tree (.node 0 [.node 1 [.node 2 []], .node 3 []])) := by
  obtain ⟨m', x, h1, _, h2, _⟩ := c32_expression (.div (.tr 0) (.sub (.div (.tr 1) (.tr 2)) (.tr 3))) demo2_reachable rfl
  exact ⟨m', x, h1, h2⟩

end Trees
