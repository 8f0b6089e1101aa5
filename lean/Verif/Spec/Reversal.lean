import Verif.Model.Hamiltonian

/-!
# Reversing the direction of time and the sign of the charges
-/

namespace Verif.Spec

open Verif.Num Matrix

/-- The matrix seen after a change of states: the state `x` becomes `σ x` with the sign `θ x`, and the numbers are mapped by `κ` (the identity or the
complex conjugation). -/
noncomputable def reversed {ι : Type} (κ : ℂ →+* ℂ) (σ : ι → ι) (θ : ι → ℝ) (A : Matrix ι ι ℂ) : Matrix ι ι ℂ :=
  fun x y => (θ x : ℂ) * (θ y : ℂ) * κ (A (σ x) (σ y))

/-- A change of the states of a node: an involution with signs. -/
structure Involution {ι : Type} (σ : ι → ι) (θ : ι → ℝ) : Prop where
  twice : ∀ x, σ (σ x) = x
  sign : ∀ x, θ x * θ x = 1

/-- Time reversal exists for the operators of a node: it is antilinear, keeps the charge and reverses the flux.  (The displacement `D` by a Cooper pair stays,
because both `i` and the flux in its exponent change sign; the displacement `S` by a flux quantum becomes its adjoint.) -/
def TimeReversible {d : ℕ} (o : NodeOps d) : Prop :=
  ∃ σ θ, Involution σ θ ∧ reversed (starRingEnd ℂ) σ θ o.Q = o.Q ∧ reversed (starRingEnd ℂ) σ θ o.P = -o.P ∧ reversed (starRingEnd ℂ) σ θ o.D = o.D ∧
    reversed (starRingEnd ℂ) σ θ o.Ddag = o.Ddag ∧ reversed (starRingEnd ℂ) σ θ o.S = o.Sdag ∧ reversed (starRingEnd ℂ) σ θ o.Sdag = o.S

/-- Charge reversal exists for the operators of a node: it is linear, and reverses both the charge and the flux. -/
def ChargeReversible {d : ℕ} (o : NodeOps d) : Prop :=
  ∃ σ θ, Involution σ θ ∧ reversed (RingHom.id ℂ) σ θ o.Q = -o.Q ∧ reversed (RingHom.id ℂ) σ θ o.P = -o.P ∧ reversed (RingHom.id ℂ) σ θ o.D = o.Ddag ∧
    reversed (RingHom.id ℂ) σ θ o.Ddag = o.D ∧ reversed (RingHom.id ℂ) σ θ o.S = o.Sdag ∧ reversed (RingHom.id ℂ) σ θ o.Sdag = o.S

end Verif.Spec
