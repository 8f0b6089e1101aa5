import Mathlib.Analysis.Complex.Basic
import Mathlib.Data.Matrix.Mul

/-!
# Levels of a Hamiltonian, counted with their multiplicity
-/

namespace Verif.Spec

/-- `H` has at least `k` levels up to the energy `E`, counted with their multiplicity: in other words, its `k`-th lowest level is at most `E`. -/
def LevelsUpTo {ι : Type} [Fintype ι] (H : Matrix ι ι ℂ) (k : ℕ) (E : ℝ) : Prop :=
  ∃ v : Fin k → ι → ℂ, LinearIndependent ℂ v ∧ ∀ j, ∃ e : ℝ, e ≤ E ∧ H.mulVec (v j) = (e : ℂ) • v j

end Verif.Spec
