import Verif.Spec.Symbolic
import Mathlib.Analysis.Matrix.Spectrum
import Mathlib.LinearAlgebra.Matrix.DotProduct
import Mathlib.Data.Real.StarOrdered

/-!
# Every real square matrix has a pseudo-inverse
-/

namespace Verif.Props

open Verif.Spec Matrix

/-- Every real square matrix has a pseudo-inverse. -/
theorem pinv_exists {n : ℕ} (A : Matrix (Fin n) (Fin n) ℝ) : ∃ B, IsPinv A B := by
  set S := Aᵀ * A with hS
  have hSs : Sᵀ = S := by rw [hS, transpose_mul, transpose_transpose]
  have hH : S.IsHermitian := by
    show Sᴴ = S
    rw [conjTranspose_eq_transpose_of_trivial, hSs]
  obtain ⟨d, U, hU, hd⟩ : ∃ (d : Fin n → ℝ) (U : Matrix (Fin n) (Fin n) ℝ), Uᵀ * U = 1 ∧ S = U * diagonal d * Uᵀ := by
    refine ⟨hH.eigenvalues, hH.eigenvectorUnitary, ?_, ?_⟩
    · have := hH.eigenvectorUnitary.2
      rw [mem_unitaryGroup_iff'] at this
      rwa [star_eq_conjTranspose, conjTranspose_eq_transpose_of_trivial] at this
    · have := hH.spectral_theorem
      simpa [Function.comp_def, star_eq_conjTranspose, conjTranspose_eq_transpose_of_trivial] using this
  set T := U * diagonal (fun i => (d i)⁻¹) * Uᵀ with hT
  have hTs : Tᵀ = T := by rw [hT]; simp [transpose_mul, Matrix.mul_assoc]
  have hmul : ∀ a b : Fin n → ℝ, (U * diagonal a * Uᵀ) * (U * diagonal b * Uᵀ) = U * diagonal (fun i => a i * b i) * Uᵀ := by
    intro a b
    rw [show (U * diagonal a * Uᵀ) * (U * diagonal b * Uᵀ) = U * diagonal a * (Uᵀ * U) * diagonal b * Uᵀ by simp only [Matrix.mul_assoc], hU,
      Matrix.mul_one, Matrix.mul_assoc U, diagonal_mul_diagonal]
  have hTST : T * S * T = T := by
    rw [hT, hd, hmul, hmul]
    congr 3
    funext i
    by_cases h : d i = 0
    · simp [h]
    · field_simp
  have hSTS : S * T * S = S := by
    rw [hT, hd, hmul, hmul]
    congr 3
    funext i
    by_cases h : d i = 0
    · simp [h]
    · field_simp
  have hTS : (T * S)ᵀ = T * S := by
    rw [hT, hd, hmul]
    simp [transpose_mul, Matrix.mul_assoc]
  refine ⟨T * Aᵀ, ?_, ?_, ?_, ?_⟩
  · have hz : (A * (T * S) - A)ᵀ * A = 0 := by
      rw [transpose_sub, transpose_mul, transpose_mul, hSs, hTs, Matrix.sub_mul,
        show S * T * Aᵀ * A = S * T * (Aᵀ * A) by simp only [Matrix.mul_assoc], ← hS, hSTS, sub_self]
    have hz' : (A * (T * S) - A)ᴴ * (A * (T * S) - A) = 0 := by
      rw [conjTranspose_eq_transpose_of_trivial, Matrix.mul_sub, ← Matrix.mul_assoc, hz, Matrix.zero_mul, sub_self]
    have := conjTranspose_mul_self_eq_zero.1 hz'
    rw [sub_eq_zero] at this
    rw [show A * (T * Aᵀ) * A = A * (T * (Aᵀ * A)) by simp only [Matrix.mul_assoc], ← hS]
    exact this
  · rw [show T * Aᵀ * A * (T * Aᵀ) = T * (Aᵀ * A) * T * Aᵀ by simp only [Matrix.mul_assoc], ← hS, hTST]
  · rw [show A * (T * Aᵀ) = A * T * Aᵀ by simp only [Matrix.mul_assoc]]
    simp only [transpose_mul, transpose_transpose, hTs, Matrix.mul_assoc]
  · rw [show T * Aᵀ * A = T * (Aᵀ * A) by simp only [Matrix.mul_assoc], ← hS, hTS]

end Verif.Props
