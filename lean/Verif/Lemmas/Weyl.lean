import Verif.Lemmas.LevelCount

/-!
# Levels of Hermitian matrices that differ by a bounded matrix
-/

namespace Verif

open Matrix Complex Verif.Spec

/-- The energy of a state. -/
noncomputable def energy {ι : Type} [Fintype ι] (A : Matrix ι ι ℂ) (v : ι → ℂ) : ℝ := (star v ⬝ᵥ (A *ᵥ v)).re

/-- Weyl: if no state has in `B` more than its energy in `A` plus `c`, then no level of `B` is above the one of `A` by more than `c`. -/
theorem levelsUpTo_weyl {ι : Type} [Fintype ι] [DecidableEq ι] {A B : Matrix ι ι ℂ} (hA : A.IsHermitian) (hB : B.IsHermitian) (c : ℝ)
    (hle : ∀ v : ι → ℂ, energy B v ≤ energy A v + c * ∑ i, normSq (v i)) (k : ℕ) (E : ℝ) (h : LevelsUpTo A k E) : LevelsUpTo B k (E + c) := by
  rw [levelsUpTo_hermitian hA] at h
  rw [levelsUpTo_hermitian hB]
  refine h.trans ?_
  let U : Matrix ι ι ℂ := hA.eigenvectorUnitary
  have hU : Uᴴ * U = 1 := mem_unitaryGroup_iff'.1 hA.eigenvectorUnitary.2
  let W : Matrix ι ι ℂ := hB.eigenvectorUnitary
  have hW : Wᴴ * W = 1 := mem_unitaryGroup_iff'.1 hB.eigenvectorUnitary.2
  have sA : A = U * diagonal (fun i => (hA.eigenvalues i : ℂ)) * Uᴴ := by
    have := hA.spectral_theorem
    simpa [Function.comp_def, Matrix.star_eq_conjTranspose] using this
  have sB : B = W * diagonal (fun i => (hB.eigenvalues i : ℂ)) * Wᴴ := by
    have := hB.spectral_theorem
    simpa [Function.comp_def, Matrix.star_eq_conjTranspose] using this
  have hd : Uᴴ * A * U = diagonal fun i => (hA.eigenvalues i : ℂ) := by
    conv_lhs => rw [sA]
    rw [show Uᴴ * (U * diagonal (fun i => (hA.eigenvalues i : ℂ)) * Uᴴ) * U = (Uᴴ * U) * diagonal (fun i => (hA.eigenvalues i : ℂ)) * (Uᴴ * U) by
      simp only [Matrix.mul_assoc], hU, Matrix.one_mul, Matrix.mul_one]
  have he : Wᴴ * B * W = diagonal fun i => (hB.eigenvalues i : ℂ) := by
    conv_lhs => rw [sB]
    rw [show Wᴴ * (W * diagonal (fun i => (hB.eigenvalues i : ℂ)) * Wᴴ) * W = (Wᴴ * W) * diagonal (fun i => (hB.eigenvalues i : ℂ)) * (Wᴴ * W) by
      simp only [Matrix.mul_assoc], hW, Matrix.one_mul, Matrix.mul_one]
  generalize hA.eigenvalues = d at hd
  generalize hB.eigenvalues = e at he
  let ext1 : ({i // d i ≤ E} → ℂ) →ₗ[ℂ] (ι → ℂ) := { toFun := fun a i => if h : d i ≤ E then a ⟨i, h⟩ else 0, map_add' := by intro a b; ext i; by_cases h : d i ≤ E <;> simp [h], map_smul' := by intro c a; ext i; by_cases h : d i ≤ E <;> simp [h] }
  let ext2 : ({k // ¬ e k ≤ E + c} → ℂ) →ₗ[ℂ] (ι → ℂ) := { toFun := fun a i => if h : e i ≤ E + c then 0 else a ⟨i, h⟩, map_add' := by intro a b; ext i; by_cases h : e i ≤ E + c <;> simp [h], map_smul' := by intro t a; ext i; by_cases h : e i ≤ E + c <;> simp [h] }
  let T : (({i // d i ≤ E} → ℂ) × ({k // ¬ e k ≤ E + c} → ℂ)) →ₗ[ℂ] (ι → ℂ) :=
    ((Matrix.mulVecLin U).comp ext1).coprod (-((Matrix.mulVecLin W).comp ext2))
  have hT : Function.Injective T := by
    rw [injective_iff_map_eq_zero]
    rintro ⟨a, b⟩ hab
    have hz : U *ᵥ ext1 a = W *ᵥ ext2 b := by
      have : U *ᵥ ext1 a + -(W *ᵥ ext2 b) = 0 := by simpa [T] using hab
      exact add_neg_eq_zero.1 this
    have q1 := quad_isometry A U d hd (ext1 a)
    have q2 := quad_isometry B W e he (ext2 b)
    have n1 := norm_isometry U hU (ext1 a)
    have n2 := norm_isometry W hW (ext2 b)
    have hcmp := hle (U *ᵥ ext1 a)
    have n3 : ∑ i, normSq ((U *ᵥ ext1 a) i) = ∑ i, normSq (ext1 a i) := by
      have h3 := norm_isometry (1 : Matrix ι ι ℂ) (by simp) (U *ᵥ ext1 a)
      rw [one_mulVec, n1] at h3
      exact_mod_cast h3.symm
    have f1 : energy A (U *ᵥ ext1 a) = ∑ i, d i * normSq (ext1 a i) := by
      unfold energy; rw [q1, Complex.ofReal_re]
    have f2 : energy B (U *ᵥ ext1 a) = ∑ k, e k * normSq (ext2 b k) := by
      unfold energy; rw [hz, q2, Complex.ofReal_re]
    rw [f1, f2, n3] at hcmp
    rw [hz] at n1
    have hn : ∑ i, normSq (ext1 a i) = ∑ k, normSq (ext2 b k) := by
      have := n1.symm.trans n2; exact_mod_cast this
    have le1 : ∑ i, d i * normSq (ext1 a i) ≤ E * ∑ i, normSq (ext1 a i) := by
      rw [Finset.mul_sum]
      apply Finset.sum_le_sum
      intro i _
      by_cases h : d i ≤ E
      · exact mul_le_mul_of_nonneg_right h (normSq_nonneg _)
      · have : ext1 a i = 0 := by simp [ext1, h]
        rw [this]; simp
    have hb : ∀ k, ext2 b k = 0 := by
      by_contra hcon
      push Not at hcon
      obtain ⟨k, hk⟩ := hcon
      have lt2 : (E + c) * ∑ k, normSq (ext2 b k) < ∑ k, e k * normSq (ext2 b k) := by
        rw [Finset.mul_sum]
        apply Finset.sum_lt_sum
        · intro k _
          by_cases h : e k ≤ E + c
          · have : ext2 b k = 0 := by simp [ext2, h]
            rw [this]; simp
          · exact mul_le_mul_of_nonneg_right (le_of_lt (not_le.1 h)) (normSq_nonneg _)
        · refine ⟨k, Finset.mem_univ _, ?_⟩
          have h : ¬ e k ≤ E + c := by
            intro h
            exact hk (by simp [ext2, h])
          exact mul_lt_mul_of_pos_right (not_le.1 h) (normSq_pos.2 hk)
      rw [hn] at le1 hcmp
      linarith
    have hn0 : ∑ i, normSq (ext1 a i) = 0 := by
      rw [hn]; exact Finset.sum_eq_zero fun k _ => by rw [hb k]; simp
    have ha : ∀ i, ext1 a i = 0 := by
      intro i
      have := (Finset.sum_eq_zero_iff_of_nonneg fun i _ => normSq_nonneg _).1 hn0 i (Finset.mem_univ _)
      exact normSq_eq_zero.1 this
    ext x
    · have := ha x.1
      simpa [ext1, x.2] using this
    · have := hb x.1
      have h2 : ext2 b x.1 = b x := by
        change (if h : e x.1 ≤ E + c then 0 else b ⟨x.1, h⟩) = b x
        rw [dif_neg x.2]
      rw [h2] at this
      exact this
  have hfin := LinearMap.finrank_le_finrank_of_injective hT
  rw [Module.finrank_prod, Module.finrank_fintype_fun_eq_card, Module.finrank_fintype_fun_eq_card, Module.finrank_fintype_fun_eq_card,
    Fintype.card_subtype, Fintype.card_subtype] at hfin
  have hc := Finset.card_filter_add_card_filter_not (s := (Finset.univ : Finset ι)) (p := fun k => e k ≤ E + c)
  rw [Finset.card_univ] at hc
  omega

/-- The `k`-th level of a Hermitian matrix with `0 < k` levels is at most each of its diagonal elements, for `k = 1`. -/
theorem levelsUpTo_diag {ι : Type} [Fintype ι] [DecidableEq ι] {A : Matrix ι ι ℂ} (hA : A.IsHermitian) (x : ι) : LevelsUpTo A 1 (A x x).re := by
  have h1 : LevelsUpTo (fun _ _ : Unit => A x x) 1 (A x x).re := by
    refine ⟨fun _ _ => 1, ?_, fun _ => ⟨(A x x).re, le_refl _, ?_⟩⟩
    · rw [Fintype.linearIndependent_iff]
      intro g hg i
      have := congrFun hg ()
      rw [Subsingleton.elim i 0]
      simpa using this
    · funext i
      have h2 : ((A x x).re : ℂ) = A x x := by
        have := congrFun (congrFun hA x) x
        rw [conjTranspose_apply] at this
        exact Complex.conj_eq_iff_re.1 this
      simp [mulVec, dotProduct, h2]
  exact levelsUpTo_submatrix hA (fun _ => x) (fun _ _ _ => rfl) (fun _ _ => rfl) 1 _ h1

/-- Antitone inverse: a form that is larger everywhere has the smaller inverse. -/
theorem inv_form_le {n : ℕ} {C C' : Matrix (Fin n) (Fin n) ℝ} (hC : Cᵀ = C) (hC' : C'ᵀ = C') (hd : C.det ≠ 0) (hd' : C'.det ≠ 0)
    (hpos : ∀ x, 0 ≤ x ⬝ᵥ C.mulVec x) (hle : ∀ x, x ⬝ᵥ C.mulVec x ≤ x ⬝ᵥ C'.mulVec x) (x : Fin n → ℝ) :
    x ⬝ᵥ C'⁻¹.mulVec x ≤ x ⬝ᵥ C⁻¹.mulVec x := by
  set y := C'⁻¹.mulVec x with hy
  set z := C⁻¹.mulVec x with hz
  have e1 : C'.mulVec y = x := by rw [hy, mulVec_mulVec, mul_nonsing_inv _ (isUnit_iff_ne_zero.2 hd'), one_mulVec]
  have e2 : C.mulVec z = x := by rw [hz, mulVec_mulVec, mul_nonsing_inv _ (isUnit_iff_ne_zero.2 hd), one_mulVec]
  have h1 := hpos (y - z)
  have h2 := hle y
  rw [mulVec_sub, sub_dotProduct, dotProduct_sub, dotProduct_sub, e2] at h1
  rw [e1] at h2
  have h3 : z ⬝ᵥ C.mulVec y = x ⬝ᵥ y := by
    rw [dotProduct_mulVec, ← mulVec_transpose, hC, e2]
  rw [h3] at h1
  have h4 : y ⬝ᵥ x = x ⬝ᵥ y := dotProduct_comm _ _
  have h5 : z ⬝ᵥ x = x ⬝ᵥ z := dotProduct_comm _ _
  linarith

end Verif
