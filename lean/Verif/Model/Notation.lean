import Verif.Model.Machine
/-
The operator notation — notation.rs. Each `impl` is the sequence of library calls its body makes.
A by-value operand is a variable moved into the operator, a by-reference operand a variable borrowed.
`k` is the first free variable (the locals of the body are numbered from it on).
-/
namespace Trees
variable {α : Type}

/-- `Clone for Tree` / `Clone for Forest` on the whole value — tree.rs 232-236, forest.rs 284-288. -/
def cloneTree (x : Var) : Op α := .mapBfs x .root (fun _ d => d)
def cloneForest (x : Var) : Op α := .mapBfsForest x [] (fun _ d => d)

/-- An operator with its operands: `val` moved, `ref` borrowed. -/
inductive Operand where
  | val (x : Var)
  | ref (x : Var)
deriving DecidableEq

/-- The variable of an operand. -/
def Operand.var : Operand → Var
  | val x => x
  | ref x => x
/-- The variables moved. -/
def Operand.moved : Operand → List Var
  | val x => [x]
  | ref _ => []

/-- The operators of notation.rs. -/
inductive Expr where
  | negT (x : Operand)
  | subTT (x y : Operand)
  | divTF (x y : Operand)
  | divTT (x y : Operand)
  | divUnit (x : Operand)
  | subFT (x y : Operand)
  | subFF (x y : Operand)
deriving DecidableEq

/-- The body of each of the 24 `impl`s: the calls and the variable returned. -/
def Expr.body (k : Nat) : Expr → List (Op α) × Var
  -- notation.rs 15-23
  | .negT (.val x) => ([.forestNew, .pushBack k [] x], k)
  -- notation.rs 26-34
  | .negT (.ref x) => ([.forestNew, cloneTree x, .pushBack k [] (k+1)], k)
  -- notation.rs 37-46
  | .subTT (.val x) (.val y) => ([.forestNew, .pushBack k [] x, .pushBack k [] y], k)
  -- notation.rs 49-58
  | .subTT (.val x) (.ref y) => ([.forestNew, .pushBack k [] x, cloneTree y, .pushBack k [] (k+1)], k)
  -- notation.rs 61-70
  | .subTT (.ref x) (.val y) => ([.forestNew, cloneTree x, .pushBack k [] (k+1), .pushBack k [] y], k)
  -- notation.rs 73-82
  | .subTT (.ref x) (.ref y) =>
    ([.forestNew, cloneTree x, .pushBack k [] (k+1), cloneTree y, .pushBack k [] (k+2)], k)
  -- notation.rs 85-92
  | .divTF (.val x) (.val y) => ([.append x [] y], x)
  -- notation.rs 95-102
  | .divTF (.val x) (.ref y) => ([cloneForest y, .append x [] k], x)
  -- notation.rs 105-113
  | .divTF (.ref x) (.val y) => ([cloneTree x, .append k [] y], k)
  -- notation.rs 116-124
  | .divTF (.ref x) (.ref y) => ([cloneTree x, cloneForest y, .append k [] (k+1)], k)
  -- notation.rs 127-134
  | .divTT (.val x) (.val y) => ([.pushBack x [] y], x)
  -- notation.rs 137-144
  | .divTT (.val x) (.ref y) => ([cloneTree y, .pushBack x [] k], x)
  -- notation.rs 147-155
  | .divTT (.ref x) (.val y) => ([cloneTree x, .pushBack k [] y], k)
  -- notation.rs 158-166
  | .divTT (.ref x) (.ref y) => ([cloneTree x, cloneTree y, .pushBack k [] (k+1)], k)
  -- notation.rs 169-175
  | .divUnit (.val x) => ([], x)
  -- notation.rs 178-184
  | .divUnit (.ref x) => ([cloneTree x], k)
  -- notation.rs 187-194
  | .subFT (.val x) (.val y) => ([.pushBack x [] y], x)
  -- notation.rs 197-204
  | .subFT (.val x) (.ref y) => ([cloneTree y, .pushBack x [] k], x)
  -- notation.rs 207-215
  | .subFT (.ref x) (.val y) => ([cloneForest x, .pushBack k [] y], k)
  -- notation.rs 218-226
  | .subFT (.ref x) (.ref y) => ([cloneForest x, cloneTree y, .pushBack k [] (k+1)], k)
  -- notation.rs 229-236
  | .subFF (.val x) (.val y) => ([.append x [] y], x)
  -- notation.rs 239-246
  | .subFF (.val x) (.ref y) => ([cloneForest y, .append x [] k], x)
  -- notation.rs 249-256
  | .subFF (.ref x) (.val y) => ([cloneForest x, .prepend y [] k], y)
  -- notation.rs 259-267
  | .subFF (.ref x) (.ref y) => ([cloneForest x, cloneForest y, .append k [] (k+1)], k)

/-- Run calls that must all return normally. -/
def runAll (m : Machine α) : List (Op α) → Option (Machine α)
  | [] => some m
  | op :: ops => match step m op with
    | .ok m' _ => runAll m' ops
    | _ => none

/-- Evaluate an operator: the state after it and the variable holding the result. -/
def Expr.eval (m : Machine α) (e : Expr) : Option (Machine α × Var) :=
  match runAll m (e.body m.fresh).1 with
  | some m' => some (m', (e.body (α := α) m.fresh).2)
  | none => none

/-- A closed expression in the notation, built from `tr(d)` and `fr()` — notation.rs 8, 11. -/
inductive Note (α : Type) where
  | tr (d : α)
  | fr
  | neg (a : Note α)
  | sub (a b : Note α)
  | div (a b : Note α)
  | divUnit (a : Note α)

/-- The two result types. -/
inductive Ty where
  | tree | forest
deriving DecidableEq

/-- The type of an expression; `none` if no operator `impl` applies. -/
def Note.ty : Note α → Option Ty
  | .tr _ => some .tree
  | .fr => some .forest
  | .neg a => if a.ty = some .tree then some .forest else none
  | .sub a b => match a.ty, b.ty with
    | some .tree, some .tree => some .forest
    | some .forest, some .tree => some .forest
    | some .forest, some .forest => some .forest
    | _, _ => none
  | .div a b => match a.ty, b.ty with
    | some .tree, some .tree => some .tree
    | some .tree, some .forest => some .tree
    | _, _ => none
  | .divUnit a => if a.ty = some .tree then some .tree else none

/-- The `impl` chosen for `-` and `/` with by-value operands. -/
def Note.pickSub : Option Ty → Option Ty → Operand → Operand → Option Expr
  | some .tree, some .tree, x, y => some (.subTT x y)
  | some .forest, some .tree, x, y => some (.subFT x y)
  | some .forest, some .forest, x, y => some (.subFF x y)
  | _, _, _, _ => none
def Note.pickDiv : Option Ty → Option Ty → Operand → Operand → Option Expr
  | some .tree, some .tree, x, y => some (.divTT x y)
  | some .tree, some .forest, x, y => some (.divTF x y)
  | _, _, _, _ => none

/-- Evaluate an expression: operands from left to right, each into a temporary. -/
def Note.eval (m : Machine α) : Note α → Option (Machine α × Var)
  | .tr d => match step m (.treeNew d) with
    | .ok m' (.var r) => some (m', r)
    | _ => none
  | .fr => match step m .forestNew with
    | .ok m' (.var r) => some (m', r)
    | _ => none
  | .neg a => do let (m1, x) ← a.eval m; (Expr.negT (.val x)).eval m1
  | .divUnit a => do let (m1, x) ← a.eval m; (Expr.divUnit (.val x)).eval m1
  | .sub a b => do
    let (m1, x) ← a.eval m
    let (m2, y) ← b.eval m1
    (← Note.pickSub a.ty b.ty (.val x) (.val y)).eval m2
  | .div a b => do
    let (m1, x) ← a.eval m
    let (m2, y) ← b.eval m1
    (← Note.pickDiv a.ty b.ty (.val x) (.val y)).eval m2

end Trees
