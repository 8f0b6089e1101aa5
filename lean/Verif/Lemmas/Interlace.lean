import Mathlib.Analysis.Matrix.Spectrum

/-!
# Levels of a Hermitian matrix and of its principal submatrices
-/

namespace Verif

open Matrix Complex

theorem quad_isometry {ι κ : Type*} [Fintype ι] [Fintype κ] [DecidableEq ι] (B : Matrix κ κ ℂ) (P : Matrix κ ι ℂ) (d : ι → ℝ)
    (h : Pᴴ * B * P = diagonal fun i => (d i : ℂ)) (a : ι → ℂ) :
    star (P *ᵥ a) ⬝ᵥ (B *ᵥ (P *ᵥ a)) = ((∑ i, d i * normSq (a i) : ℝ) : ℂ) := by
  rw [star_mulVec, dotProduct_mulVec, vecMul_vecMul, ← dotProduct_mulVec, mulVec_mulVec, h]
  unfold dotProduct
  push_cast
  apply Finset.sum_congr rfl
  intro i _
  rw [mulVec_diagonal, Pi.star_apply, Complex.star_def, Complex.normSq_eq_conj_mul_self]
  ring

theorem norm_isometry {ι κ : Type*} [Fintype ι] [Fintype κ] [DecidableEq ι] [DecidableEq κ] (P : Matrix κ ι ℂ) (h : Pᴴ * P = 1) (a : ι → ℂ) :
    star (P *ᵥ a) ⬝ᵥ (P *ᵥ a) = ((∑ i, normSq (a i) : ℝ) : ℂ) := by
  have := quad_isometry (1 : Matrix κ κ ℂ) P (fun _ => 1) (by rw [Matrix.mul_one, h]; simp) a
  rw [one_mulVec] at this
  rw [this]; simp

/-- If `B` is diagonal with the values `d` on an isometric image, and with `e` in an orthonormal basis, it has at least as many values `e` up to
`E` as there are values `d` up to `E`. -/
theorem count_levels {ι κ : Type*} [Fintype ι] [Fintype κ] [DecidableEq ι] [DecidableEq κ] (B : Matrix κ κ ℂ) (P : Matrix κ ι ℂ) (W : Matrix κ κ ℂ)
    (d : ι → ℝ) (e : κ → ℝ) (hP : Pᴴ * P = 1) (hd : Pᴴ * B * P = diagonal fun i => (d i : ℂ)) (hW : Wᴴ * W = 1)
    (he : Wᴴ * B * W = diagonal fun k => (e k : ℂ)) (E : ℝ) :
    (Finset.univ.filter fun i => d i ≤ E).card ≤ (Finset.univ.filter fun k => e k ≤ E).card := by
  let ext1 : ({i // d i ≤ E} → ℂ) →ₗ[ℂ] (ι → ℂ) := { toFun := fun a i => if h : d i ≤ E then a ⟨i, h⟩ else 0, map_add' := by intro a b; ext i; by_cases h : d i ≤ E <;> simp [h], map_smul' := by intro c a; ext i; by_cases h : d i ≤ E <;> simp [h] }
  let ext2 : ({k // ¬ e k ≤ E} → ℂ) →ₗ[ℂ] (κ → ℂ) := { toFun := fun a i => if h : e i ≤ E then 0 else a ⟨i, h⟩, map_add' := by intro a b; ext i; by_cases h : e i ≤ E <;> simp [h], map_smul' := by intro c a; ext i; by_cases h : e i ≤ E <;> simp [h] }
  let T : (({i // d i ≤ E} → ℂ) × ({k // ¬ e k ≤ E} → ℂ)) →ₗ[ℂ] (κ → ℂ) :=
    ((Matrix.mulVecLin P).comp ext1).coprod (-((Matrix.mulVecLin W).comp ext2))
  have hT : Function.Injective T := by
    rw [injective_iff_map_eq_zero]
    rintro ⟨a, b⟩ hab
    have hz : P *ᵥ ext1 a = W *ᵥ ext2 b := by
      have : P *ᵥ ext1 a + -(W *ᵥ ext2 b) = 0 := by simpa [T] using hab
      exact add_neg_eq_zero.1 this
    have q1 := quad_isometry B P d hd (ext1 a)
    have q2 := quad_isometry B W e he (ext2 b)
    have n1 := norm_isometry P hP (ext1 a)
    have n2 := norm_isometry W hW (ext2 b)
    rw [hz] at q1 n1
    have hq : ∑ i, d i * normSq (ext1 a i) = ∑ k, e k * normSq (ext2 b k) := by
      have := q1.symm.trans q2; exact_mod_cast this
    have hn : ∑ i, normSq (ext1 a i) = ∑ k, normSq (ext2 b k) := by
      have := n1.symm.trans n2; exact_mod_cast this
    have le1 : ∑ i, d i * normSq (ext1 a i) ≤ E * ∑ i, normSq (ext1 a i) := by
      rw [Finset.mul_sum]
      apply Finset.sum_le_sum
      intro i _
      by_cases h : d i ≤ E
      · exact mul_le_mul_of_nonneg_right h (normSq_nonneg _)
      · have : ext1 a i = 0 := by simp [ext1, h]
        rw [this]; simp
    have hb : ∀ k, ext2 b k = 0 := by
      by_contra hcon
      push Not at hcon
      obtain ⟨k, hk⟩ := hcon
      have lt2 : E * ∑ k, normSq (ext2 b k) < ∑ k, e k * normSq (ext2 b k) := by
        rw [Finset.mul_sum]
        apply Finset.sum_lt_sum
        · intro k _
          by_cases h : e k ≤ E
          · have : ext2 b k = 0 := by simp [ext2, h]
            rw [this]; simp
          · exact mul_le_mul_of_nonneg_right (le_of_lt (not_le.1 h)) (normSq_nonneg _)
        · refine ⟨k, Finset.mem_univ _, ?_⟩
          have h : ¬ e k ≤ E := by
            intro h
            exact hk (by simp [ext2, h])
          exact mul_lt_mul_of_pos_right (not_le.1 h) (normSq_pos.2 hk)
      rw [hn] at le1
      linarith
    have hn0 : ∑ i, normSq (ext1 a i) = 0 := by
      rw [hn]; exact Finset.sum_eq_zero fun k _ => by rw [hb k]; simp
    have ha : ∀ i, ext1 a i = 0 := by
      intro i
      have := (Finset.sum_eq_zero_iff_of_nonneg fun i _ => normSq_nonneg _).1 hn0 i (Finset.mem_univ _)
      exact normSq_eq_zero.1 this
    ext x
    · have := ha x.1
      simpa [ext1, x.2] using this
    · have := hb x.1
      have h2 : ext2 b x.1 = b x := by
        change (if h : e x.1 ≤ E then 0 else b ⟨x.1, h⟩) = b x
        rw [dif_neg x.2]
      rw [h2] at this
      exact this
  have hfin := LinearMap.finrank_le_finrank_of_injective hT
  rw [Module.finrank_prod, Module.finrank_fintype_fun_eq_card, Module.finrank_fintype_fun_eq_card, Module.finrank_fintype_fun_eq_card,
    Fintype.card_subtype, Fintype.card_subtype] at hfin
  have hc := Finset.card_filter_add_card_filter_not (s := (Finset.univ : Finset κ)) (p := fun k => e k ≤ E)
  rw [Finset.card_univ] at hc
  omega

/-- A principal submatrix of a Hermitian matrix has at most as many levels up to `E` as the matrix (Cauchy). -/
theorem count_submatrix {ι κ : Type*} [Fintype ι] [Fintype κ] [DecidableEq ι] [DecidableEq κ] {A : Matrix ι ι ℂ} {B : Matrix κ κ ℂ} (hA : A.IsHermitian)
    (hB : B.IsHermitian) (f : ι → κ) (hf : Function.Injective f) (hAB : ∀ i j, A i j = B (f i) (f j)) (E : ℝ) :
    (Finset.univ.filter fun i => hA.eigenvalues i ≤ E).card ≤ (Finset.univ.filter fun k => hB.eigenvalues k ≤ E).card := by
  let F : Matrix κ ι ℂ := fun k i => if k = f i then 1 else 0
  have hFc : ∀ i k, Fᴴ i k = if k = f i then 1 else 0 := by
    intro i k
    rw [conjTranspose_apply]
    change star (if k = f i then (1 : ℂ) else 0) = _
    split_ifs <;> simp
  have hF1 : Fᴴ * F = 1 := by
    ext i j
    rw [mul_apply, one_apply]
    simp only [hFc]
    change ∑ k, (if k = f i then (1 : ℂ) else 0) * (if k = f j then 1 else 0) = _
    by_cases hij : i = j
    · subst hij; simp
    · rw [if_neg hij]
      apply Finset.sum_eq_zero
      intro k _
      by_cases h1 : k = f i
      · rw [if_neg (c := k = f j) (fun h2 => hij (hf (h1.symm.trans h2))), mul_zero]
      · rw [if_neg h1]; simp
  have hF2 : Fᴴ * B * F = A := by
    ext i j
    rw [mul_apply, hAB]
    simp only [mul_apply, hFc]
    change ∑ k, (∑ l, (if l = f i then (1 : ℂ) else 0) * B l k) * (if k = f j then 1 else 0) = _
    simp
  let U : Matrix ι ι ℂ := hA.eigenvectorUnitary
  have hU : Uᴴ * U = 1 := mem_unitaryGroup_iff'.1 hA.eigenvectorUnitary.2
  let W : Matrix κ κ ℂ := hB.eigenvectorUnitary
  have hW : Wᴴ * W = 1 := mem_unitaryGroup_iff'.1 hB.eigenvectorUnitary.2
  have sA : A = U * diagonal (fun i => (hA.eigenvalues i : ℂ)) * Uᴴ := by
    have := hA.spectral_theorem
    simpa [Function.comp_def, Matrix.star_eq_conjTranspose] using this
  have sB : B = W * diagonal (fun i => (hB.eigenvalues i : ℂ)) * Wᴴ := by
    have := hB.spectral_theorem
    simpa [Function.comp_def, Matrix.star_eq_conjTranspose] using this
  refine count_levels B (F * U) W _ _ ?_ ?_ hW ?_ E
  · rw [conjTranspose_mul, Matrix.mul_assoc, ← Matrix.mul_assoc Fᴴ, hF1, Matrix.one_mul, hU]
  · have : (F * U)ᴴ * B * (F * U) = Uᴴ * (Fᴴ * B * F) * U := by rw [conjTranspose_mul]; simp only [Matrix.mul_assoc]
    rw [this, hF2]
    conv_lhs => rw [sA]
    rw [show Uᴴ * (U * diagonal (fun i => (hA.eigenvalues i : ℂ)) * Uᴴ) * U = (Uᴴ * U) * diagonal (fun i => (hA.eigenvalues i : ℂ)) * (Uᴴ * U) by
      simp only [Matrix.mul_assoc], hU, Matrix.one_mul, Matrix.mul_one]
  · conv_lhs => rw [sB]
    rw [show Wᴴ * (W * diagonal (fun i => (hB.eigenvalues i : ℂ)) * Wᴴ) * W = (Wᴴ * W) * diagonal (fun i => (hB.eigenvalues i : ℂ)) * (Wᴴ * W) by
      simp only [Matrix.mul_assoc], hW, Matrix.one_mul, Matrix.mul_one]

end Verif
