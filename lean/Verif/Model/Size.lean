import Verif.Model.Heap
/-
`Size` arithmetic — size.rs. `usize` is a natural number below `W = 2^bits`; integer arithmetic is given in both
build profiles: with overflow checks (overflow panics, here `none`) and without (wrap-around).
-/
namespace Trees

/-- Build profile: are integer overflows checked? -/
inductive Profile where
  | checked | wrapping
deriving DecidableEq

/-- `usize + usize`. -/
def uAdd (W : Nat) : Profile → Nat → Nat → Option Nat
  | .checked, a, b => if a + b < W then some (a + b) else none
  | .wrapping, a, b => some ((a + b) % W)
/-- `usize - usize`. -/
def uSub (W : Nat) : Profile → Nat → Nat → Option Nat
  | .checked, a, b => if b ≤ a then some (a - b) else none
  | .wrapping, a, b => some ((W + a - b) % W)

/-- `Add for Size` — size.rs 13-16 (left to right; `none` is a panic). -/
def Size.add (W : Nat) (p : Profile) (a b : Size) : Option Size :=
  (uAdd W p a.degree b.degree).bind fun d => (uAdd W p a.descendants b.descendants).bind fun n => some ⟨d, n⟩
/-- `Sub for Size` — size.rs 24-27. -/
def Size.sub (W : Nat) (p : Profile) (a b : Size) : Option Size :=
  (uSub W p a.degree b.degree).bind fun d => (uSub W p a.descendants b.descendants).bind fun n => some ⟨d, n⟩
/-- `AddAssign for Size` — size.rs 18-22: the new value of `self`; on panic nothing is assigned. -/
def Size.addAssign (W : Nat) (p : Profile) (a b : Size) : Option Size × Size :=
  match (uAdd W p a.degree b.degree).bind fun d => (uAdd W p a.descendants b.descendants).bind fun n => some ⟨d, n⟩ with
  | some s => (some s, s)
  | none => (none, a)
/-- `SubAssign for Size` — size.rs 29-33. -/
def Size.subAssign (W : Nat) (p : Profile) (a b : Size) : Option Size × Size :=
  match (uSub W p a.degree b.degree).bind fun d => (uSub W p a.descendants b.descendants).bind fun n => some ⟨d, n⟩ with
  | some s => (some s, s)
  | none => (none, a)

/-- A value that fits in two `usize`s. -/
def Size.Fits (W : Nat) (s : Size) : Prop := s.degree < W ∧ s.descendants < W

end Trees
