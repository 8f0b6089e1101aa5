import Mathlib.LinearAlgebra.Matrix.ConjTranspose
import Mathlib.Analysis.Complex.Norm
import Mathlib.LinearAlgebra.Matrix.Notation

/-!
# Eigenvectors of 2 × 2 operators
-/

namespace Verif.Spec

/-- `V` is a unitary matrix whose columns are eigenvectors of `M`, in the order of increasing eigenvalues. -/
def Diagonalises (M V : Matrix (Fin 2) (Fin 2) ℂ) : Prop :=
  ∃ a b : ℝ, a ≤ b ∧ V.conjTranspose * V = 1 ∧ M * V = V * !![(a : ℂ), 0; 0, (b : ℂ)]

/-- A function that diagonalises Hermitian 2 × 2 matrices, as `np.linalg.eigh`. -/
def IsEigh2 (eigh : Matrix (Fin 2) (Fin 2) ℂ → Matrix (Fin 2) (Fin 2) ℂ) : Prop := ∀ M, M.conjTranspose = M → Diagonalises M (eigh M)

/-- The same two levels at a point of a sweep (their energies and states), with other phases of the states. -/
def SameLevels {ι : Type} (p q : ℝ × ℝ × (ι → ℂ) × (ι → ℂ)) : Prop :=
  q.1 = p.1 ∧ q.2.1 = p.2.1 ∧ ∃ c d : ℂ, ‖c‖ = 1 ∧ ‖d‖ = 1 ∧ q.2.2.1 = c • p.2.2.1 ∧ q.2.2.2 = d • p.2.2.2

end Verif.Spec
