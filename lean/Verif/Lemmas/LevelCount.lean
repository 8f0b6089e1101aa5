import Verif.Lemmas.Interlace
import Verif.Spec.Levels

/-!
# Counting levels by the values on a diagonal
-/

namespace Verif

open Matrix Complex Verif.Spec

theorem levelsUpTo_iff {ι : Type} [Fintype ι] [DecidableEq ι] (B W : Matrix ι ι ℂ) (e : ι → ℝ) (hW : Wᴴ * W = 1)
    (he : Wᴴ * B * W = diagonal fun k => (e k : ℂ)) (k : ℕ) (E : ℝ) :
    LevelsUpTo B k E ↔ k ≤ (Finset.univ.filter fun i => e i ≤ E).card := by
  have hW' : W * Wᴴ = 1 := mul_eq_one_comm.1 hW
  have hBW : B * W = W * diagonal fun k => (e k : ℂ) := by
    rw [← he, Matrix.mul_assoc Wᴴ, ← Matrix.mul_assoc W, hW', Matrix.one_mul]
  constructor
  · rintro ⟨v, hv, hE⟩
    let r : Fin k → {i // e i ≤ E} → ℂ := fun j i => (Wᴴ *ᵥ v j) i.1
    have hzero : ∀ j i, ¬ e i ≤ E → (Wᴴ *ᵥ v j) i = 0 := by
      intro j i hi
      obtain ⟨a, ha, hva⟩ := hE j
      have h1 : (diagonal fun k => (e k : ℂ)) *ᵥ (Wᴴ *ᵥ v j) = (a : ℂ) • (Wᴴ *ᵥ v j) := by
        rw [← he, mulVec_mulVec, Matrix.mul_assoc, hW', Matrix.mul_one, ← mulVec_mulVec, hva, mulVec_smul]
      have h2 := congrFun h1 i
      rw [mulVec_diagonal, Pi.smul_apply, smul_eq_mul] at h2
      have h3 : ((e i : ℂ) - a) * (Wᴴ *ᵥ v j) i = 0 := by rw [sub_mul, h2, sub_self]
      refine (mul_eq_zero.1 h3).resolve_left fun h4 => hi ?_
      have : e i = a := by exact_mod_cast sub_eq_zero.1 h4
      rw [this]; exact ha
    have hr : LinearIndependent ℂ r := by
      rw [Fintype.linearIndependent_iff] at hv ⊢
      intro c hc
      apply hv c
      have h1 : Wᴴ *ᵥ (∑ j, c j • v j) = 0 := by
        funext i
        rw [mulVec_sum]
        simp only [mulVec_smul, Finset.sum_apply, Pi.smul_apply, Pi.zero_apply]
        by_cases hi : e i ≤ E
        · have := congrFun hc ⟨i, hi⟩
          simpa [Finset.sum_apply, r] using this
        · exact Finset.sum_eq_zero fun j _ => by rw [hzero j i hi, smul_zero]
      have h2 := congrArg (W *ᵥ ·) h1
      simpa [mulVec_mulVec, hW'] using h2
    have := hr.fintype_card_le_finrank
    rwa [Fintype.card_fin, Module.finrank_fintype_fun_eq_card, Fintype.card_subtype] at this
  · intro hk
    rw [← Fintype.card_subtype, ← Fintype.card_fin k] at hk
    obtain ⟨f⟩ := Function.Embedding.nonempty_of_card_le hk
    refine ⟨fun j => W *ᵥ Pi.single (f j).1 1, ?_, fun j => ⟨e (f j).1, (f j).2, ?_⟩⟩
    · rw [Fintype.linearIndependent_iff]
      intro c hc j
      have h2 := congrArg (Wᴴ *ᵥ ·) hc
      simp only [← mulVec_smul, ← mulVec_sum, mulVec_mulVec, hW, one_mulVec, mulVec_zero] at h2
      have h3 := congrFun h2 (f j).1
      simp only [Finset.sum_apply, Pi.smul_apply, Pi.zero_apply, smul_eq_mul] at h3
      rw [Finset.sum_eq_single j] at h3
      · simpa using h3
      · intro i _ hij
        rw [Pi.single_apply, if_neg, mul_zero]
        exact fun h => hij (f.injective (Subtype.ext h.symm))
      · simp
    · rw [mulVec_mulVec, hBW, ← mulVec_mulVec, ← mulVec_smul]
      congr 1
      funext i
      rw [mulVec_diagonal, Pi.smul_apply, smul_eq_mul]
      by_cases hi : i = (f j).1
      · rw [hi]
      · rw [Pi.single_apply, if_neg hi, mul_zero, mul_zero]

theorem levelsUpTo_hermitian {ι : Type} [Fintype ι] [DecidableEq ι] {B : Matrix ι ι ℂ} (hB : B.IsHermitian) (k : ℕ) (E : ℝ) :
    LevelsUpTo B k E ↔ k ≤ (Finset.univ.filter fun i => hB.eigenvalues i ≤ E).card := by
  let W : Matrix ι ι ℂ := hB.eigenvectorUnitary
  have hW : Wᴴ * W = 1 := mem_unitaryGroup_iff'.1 hB.eigenvectorUnitary.2
  have sB : B = W * diagonal (fun i => (hB.eigenvalues i : ℂ)) * Wᴴ := by
    have := hB.spectral_theorem
    simpa [Function.comp_def, Matrix.star_eq_conjTranspose] using this
  refine levelsUpTo_iff B W _ hW ?_ k E
  conv_lhs => rw [sB]
  rw [show Wᴴ * (W * diagonal (fun i => (hB.eigenvalues i : ℂ)) * Wᴴ) * W = (Wᴴ * W) * diagonal (fun i => (hB.eigenvalues i : ℂ)) * (Wᴴ * W) by
    simp only [Matrix.mul_assoc], hW, Matrix.one_mul, Matrix.mul_one]

theorem levelsUpTo_diagonal {ι : Type} [Fintype ι] [DecidableEq ι] (d : ι → ℝ) (k : ℕ) (E : ℝ) :
    LevelsUpTo (diagonal fun i => (d i : ℂ)) k E ↔ k ≤ (Finset.univ.filter fun i => d i ≤ E).card :=
  levelsUpTo_iff _ 1 d (by simp) (by simp) k E

/-- A principal submatrix has at most the levels of the matrix, at every energy. -/
theorem levelsUpTo_submatrix {ι κ : Type} [Fintype ι] [Fintype κ] [DecidableEq ι] [DecidableEq κ] {A : Matrix ι ι ℂ} {B : Matrix κ κ ℂ} (hB : B.IsHermitian)
    (f : ι → κ) (hf : Function.Injective f) (hAB : ∀ i j, A i j = B (f i) (f j)) (k : ℕ) (E : ℝ) (h : LevelsUpTo A k E) : LevelsUpTo B k E := by
  have hA : A.IsHermitian := by
    ext i j
    rw [conjTranspose_apply, hAB, hAB, ← conjTranspose_apply, hB]
  rw [levelsUpTo_hermitian hA] at h
  rw [levelsUpTo_hermitian hB]
  exact h.trans (count_submatrix hA hB f hf hAB E)

end Verif
