import Mathlib.LinearAlgebra.Matrix.Charpoly.Coeff
import Mathlib.LinearAlgebra.Matrix.Hermitian
import Mathlib.Algebra.Polynomial.Roots
import Mathlib.Analysis.SpecialFunctions.Sqrt
import Mathlib.Analysis.Complex.Basic

/-!
# The resonator response (pyscqed/numerical_system.py, `getResonatorResponse`)
-/

namespace Verif.Num

open Matrix

/-- What `eigvalsh` returns: the eigenvalues (roots of the characteristic polynomial, with multiplicity) in ascending order. -/
structure IsEigvals {T : ℕ} (M : Matrix (Fin T) (Fin T) ℝ) (e : Fin T → ℝ) : Prop where
  sorted : Monotone e
  spec : Finset.univ.val.map e = M.charpoly.roots

/-- The couplings `g_list` (numerical_system.py 750-761): `x i` is the matrix element of the charge between levels `i` and `i + 1`,
`gC` the derived prefactor. -/
noncomputable def couplings (gC : ℝ) (x : ℕ → ℂ) (i : ℕ) : ℝ := gC * ‖x i / x 0‖

/-- `diagonal_elements` (numerical_system.py 776). -/
def stripDiagonal {T : ℕ} (wrl : ℝ) (E : Fin T → ℝ) (n : ℕ) (i : Fin T) : ℝ := ((n : ℝ) - (i : ℕ)) * wrl + E i

/-- `offdiagonal_elements` (numerical_system.py 777): `g_list[i] * sqrt((n-i) * (n-i > 0))`. -/
noncomputable def stripCoupling (g : ℕ → ℝ) (n i : ℕ) : ℝ := g i * Real.sqrt (((n : ℝ) - i) * if i < n then 1 else 0)

/-- `strip_H` (numerical_system.py 778-779): the diagonal and the two neighbouring diagonals. -/
noncomputable def strip {T : ℕ} (wrl : ℝ) (E : Fin T → ℝ) (g : ℕ → ℝ) (n : ℕ) : Matrix (Fin T) (Fin T) ℝ :=
  diagonal (stripDiagonal wrl E n) + (Matrix.of fun i j : Fin T => if (j : ℕ) = i + 1 then stripCoupling g n i else 0) +
    (Matrix.of fun i j : Fin T => if (i : ℕ) = j + 1 then stripCoupling g n j else 0)

/-- `diag_bare` (numerical_system.py 765). -/
def bare {T : ℕ} (wrl : ℝ) (E : Fin T → ℝ) (i : Fin T) : ℝ := -((i : ℕ) : ℝ) * wrl + E i

open Classical in
/-- `order[i]` (numerical_system.py 767-769): the first position of `diag_bare[i]` among the sorted eigenvalues; `none` is the
`IndexError` when it is not found. -/
noncomputable def levelIndex {T : ℕ} (e : Fin T → ℝ) (b : ℝ) : Option (Fin T) := (List.finRange T).find? fun k => e k = b

/-- `getResonatorResponse` (numerical_system.py 736-784) for a given node, from the eigenvalues `E0` of the circuit, the matrix elements
`x` and what `eigvalsh` returned for the diagonal matrix (`e0`) and for the strips (`e`): row `n` and level `i` of the result.
There are `nmax + 1 + T` rows. -/
noncomputable def response {T : ℕ} (e0 : Fin T → ℝ) (e : ℕ → Fin T → ℝ) (b : Fin T → ℝ) (n : ℕ) (i : Fin T) : Option ℝ :=
  (levelIndex e0 (b i)).map (e n)

end Verif.Num
