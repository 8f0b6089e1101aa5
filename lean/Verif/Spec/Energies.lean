import Verif.Model.Hamiltonian

/-!
# The Hamiltonian with named coefficients
-/

namespace Verif.Spec

open Complex Matrix

variable {A : Type} [Ring A] [Algebra ℂ A]

/-- A quadratic form in operators: `d i` multiplies the square of the `i`-th operator, `m i j` the product of two different ones. -/
noncomputable def quadForm {n : ℕ} (d : Fin n → ℝ) (m : Fin n → Fin n → ℝ) (x : Fin n → A) : A :=
  ∑ i, (d i : ℂ) • (x i) ^ 2 + ∑ i, ∑ j ∈ Finset.univ.erase i, (m i j : ℂ) • (x i * x j)

/-- The cosine of a branch: half the sum of `exp(2πi bias)` times the displacements of its nodes (`up` forwards, `down` backwards) and of the
opposite term. -/
noncomputable def cosOp (up down : ℕ → A) (bias : ℝ) (terms : List (ℝ × ℕ)) : A :=
  (1 / 2 : ℂ) • (exp (2 * Real.pi * bias * I) • (terms.map fun p => if 0 < p.1 then up p.2 else down p.2).prod +
    exp (-(2 * Real.pi * bias * I)) • (terms.map fun p => if p.1 < 0 then up p.2 else down p.2).prod)

end Verif.Spec
