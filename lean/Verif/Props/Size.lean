import Verif.Model.Size
/-
C42: `Size` arithmetic.
-/
namespace Trees
set_option linter.unusedSimpArgs false

variable {W : Nat} {a b c : Size}

/-- **C42** Addition is componentwise whenever both sums fit, in either profile. -/
theorem c42_add {p : Profile} (h1 : a.degree + b.degree < W) (h2 : a.descendants + b.descendants < W) :
    a.add W p b = some ⟨a.degree + b.degree, a.descendants + b.descendants⟩ := by
  cases p <;> simp [Size.add, uAdd, h1, h2, Nat.mod_eq_of_lt]

/-- **C42** Subtraction is componentwise whenever nothing is taken that is not there, in either profile. -/
theorem c42_sub {p : Profile} (ha : a.Fits W) (h1 : b.degree ≤ a.degree) (h2 : b.descendants ≤ a.descendants) :
    a.sub W p b = some ⟨a.degree - b.degree, a.descendants - b.descendants⟩ := by
  obtain ⟨f1, f2⟩ := ha
  cases p with
  | checked => simp [Size.sub, uSub, h1, h2]
  | wrapping =>
    simp only [Size.sub, uSub, Option.bind_some]
    have e1 : W + a.degree - b.degree = a.degree - b.degree + W := by omega
    have e2 : W + a.descendants - b.descendants = a.descendants - b.descendants + W := by omega
    rw [e1, e2, Nat.add_mod_right, Nat.add_mod_right, Nat.mod_eq_of_lt (by omega), Nat.mod_eq_of_lt (by omega)]

/-- **C42** Subtracting what was added restores the value: whenever the addition returns, so does the
subtraction, in either profile, and also when the sum wrapped around. -/
theorem c42_add_sub {p : Profile} (ha : a.Fits W) (hb : b.Fits W) (h : a.add W p b = some c) : c.sub W p b = some a := by
  obtain ⟨a1, a2⟩ := ha
  obtain ⟨b1, b2⟩ := hb
  have key : ∀ x y : Nat, x < W → y < W → (W + (x + y) % W - y) % W = x := by
    intro x y hx hy
    by_cases hxy : x + y < W
    · rw [Nat.mod_eq_of_lt hxy, show W + (x + y) - y = x + W by omega, Nat.add_mod_right, Nat.mod_eq_of_lt hx]
    · have : (x + y) % W = x + y - W := by
        rw [Nat.mod_eq_sub_mod (Nat.not_lt.mp hxy), Nat.mod_eq_of_lt (by omega)]
      rw [this, show W + (x + y - W) - y = x by omega, Nat.mod_eq_of_lt hx]
  cases p with
  | checked =>
    simp only [Size.add, uAdd] at h
    split at h <;> simp at h
    split at h <;> simp at h
    subst h
    simp [Size.sub, uSub]
  | wrapping =>
    simp only [Size.add, uAdd, Option.bind_some, Option.some.injEq] at h
    subst h
    simp [Size.sub, uSub, key _ _ a1 b1, key _ _ a2 b2]

/-- **C42** With overflow checks, taking more than is there panics, and only that. -/
theorem c42_underflow : a.sub W .checked b = none ↔ a.degree < b.degree ∨ a.descendants < b.descendants := by
  simp only [Size.sub, uSub]
  by_cases h1 : b.degree ≤ a.degree <;> by_cases h2 : b.descendants ≤ a.descendants <;> simp [h1, h2] <;> omega

/-- **C42** With overflow checks, an addition panics exactly when a component does not fit. -/
theorem c42_overflow : a.add W .checked b = none ↔ W ≤ a.degree + b.degree ∨ W ≤ a.descendants + b.descendants := by
  simp only [Size.add, uAdd]
  by_cases h1 : a.degree + b.degree < W <;> by_cases h2 : a.descendants + b.descendants < W <;> simp [h1, h2] <;> omega

/-- **C42** `+=` and `-=` assign what `+` and `-` return, and leave the value alone if they panic. -/
theorem c42_assign {p : Profile} :
    a.addAssign W p b = (a.add W p b, (a.add W p b).getD a) ∧ a.subAssign W p b = (a.sub W p b, (a.sub W p b).getD a) := by
  constructor
  · simp only [Size.addAssign, Size.add]; split <;> rename_i h <;> rw [h] <;> rfl
  · simp only [Size.subAssign, Size.sub]; split <;> rename_i h <;> rw [h] <;> rfl

/-- **C42** The order of additions does not matter. -/
theorem c42_add_comm {p : Profile} : a.add W p b = b.add W p a := by
  cases p <;> simp [Size.add, uAdd, Nat.add_comm]

/-- Satisfiable: sizes on a 64-bit machine, and a wrapped sum. -/
example : Size.add (2^64) .checked ⟨2, 5⟩ ⟨1, 3⟩ = some ⟨3, 8⟩ := c42_add (by decide) (by decide)
example : ∃ c, Size.add (2^64) .wrapping ⟨2^64 - 1, 5⟩ ⟨1, 3⟩ = some c ∧ Size.sub (2^64) .wrapping c ⟨1, 3⟩ = some ⟨2^64 - 1, 5⟩ :=
  ⟨_, rfl, c42_add_sub ⟨by decide, by decide⟩ ⟨by decide, by decide⟩ rfl⟩

end Trees
