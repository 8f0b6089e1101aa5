import Mathlib.LinearAlgebra.Matrix.Kronecker
import Verif.Lemmas.Gauge
import Verif.Lemmas.LevelCount

/-!
# Hamiltonians of independent parts
-/

namespace Verif.Props

open Verif Verif.Spec Verif.Circuit Verif.Sym Verif.Num Matrix Complex
open scoped Kronecker

/-- The levels of the sum of two Hamiltonians that act on different factors are the sums of the levels. -/
theorem levelsUpTo_sum {ι κ ν : Type} [Fintype ι] [Fintype κ] [Fintype ν] [DecidableEq ι] [DecidableEq κ] {A : Matrix ι ι ℂ} {B : Matrix κ κ ℂ}
    (hA : A.IsHermitian) (hB : B.IsHermitian) {M : Matrix ν ν ℂ} (τ : ι × κ ≃ ν)
    (hM : ∀ x y, M (τ x) (τ y) = (if x.2 = y.2 then A x.1 y.1 else 0) + (if x.1 = y.1 then B x.2 y.2 else 0)) :
    ∃ (a : ι → ℝ) (b : κ → ℝ), (∀ k E, LevelsUpTo A k E ↔ k ≤ (Finset.univ.filter fun i => a i ≤ E).card) ∧
      (∀ k E, LevelsUpTo B k E ↔ k ≤ (Finset.univ.filter fun j => b j ≤ E).card) ∧
      ∀ k E, LevelsUpTo M k E ↔ k ≤ (Finset.univ.filter fun p : ι × κ => a p.1 + b p.2 ≤ E).card := by
  refine ⟨hA.eigenvalues, hB.eigenvalues, levelsUpTo_hermitian hA, levelsUpTo_hermitian hB, fun k E => ?_⟩
  let U : Matrix ι ι ℂ := hA.eigenvectorUnitary
  have hU : Uᴴ * U = 1 := mem_unitaryGroup_iff'.1 hA.eigenvectorUnitary.2
  let W : Matrix κ κ ℂ := hB.eigenvectorUnitary
  have hW : Wᴴ * W = 1 := mem_unitaryGroup_iff'.1 hB.eigenvectorUnitary.2
  have sA : Uᴴ * A * U = diagonal fun i => (hA.eigenvalues i : ℂ) := by
    have : A = U * diagonal (fun i => (hA.eigenvalues i : ℂ)) * Uᴴ := by
      have := hA.spectral_theorem
      simpa [Function.comp_def, Matrix.star_eq_conjTranspose] using this
    conv_lhs => rw [this]
    rw [← Matrix.mul_assoc, ← Matrix.mul_assoc, hU, Matrix.one_mul, Matrix.mul_assoc, hU, Matrix.mul_one]
  have sB : Wᴴ * B * W = diagonal fun i => (hB.eigenvalues i : ℂ) := by
    have : B = W * diagonal (fun i => (hB.eigenvalues i : ℂ)) * Wᴴ := by
      have := hB.spectral_theorem
      simpa [Function.comp_def, Matrix.star_eq_conjTranspose] using this
    conv_lhs => rw [this]
    rw [← Matrix.mul_assoc, ← Matrix.mul_assoc, hW, Matrix.one_mul, Matrix.mul_assoc, hW, Matrix.mul_one]
  have hT : ∀ x y, M (τ x) (τ y) = (A ⊗ₖ (1 : Matrix κ κ ℂ) + (1 : Matrix ι ι ℂ) ⊗ₖ B) x y := by
    intro x y
    rw [hM, Matrix.add_apply, kronecker_apply, kronecker_apply, Matrix.one_apply, Matrix.one_apply]
    split_ifs <;> ring
  have hiff : LevelsUpTo M k E ↔ LevelsUpTo (A ⊗ₖ (1 : Matrix κ κ ℂ) + (1 : Matrix ι ι ℂ) ⊗ₖ B) k E := by
    refine ⟨levelsUpTo_reindex τ.symm (fun i j => ?_) k E, levelsUpTo_reindex τ hT k E⟩
    rw [← hT, τ.apply_symm_apply, τ.apply_symm_apply]
  rw [hiff, levelsUpTo_iff _ (U ⊗ₖ W) (fun p => hA.eigenvalues p.1 + hB.eigenvalues p.2)]
  · rw [conjTranspose_kronecker, ← mul_kronecker_mul, hU, hW, one_kronecker_one]
  · rw [conjTranspose_kronecker, Matrix.mul_add, Matrix.add_mul, ← mul_kronecker_mul, ← mul_kronecker_mul, ← mul_kronecker_mul, ← mul_kronecker_mul, Matrix.mul_one, Matrix.mul_one, hU, hW, sA, sB]
    ext ⟨x1, x2⟩ ⟨y1, y2⟩
    simp only [Matrix.add_apply, kronecker_apply, diagonal_apply, Matrix.one_apply, Prod.mk.injEq]
    by_cases h1 : x1 = y1 <;> by_cases h2 : x2 = y2 <;> simp [h1, h2]

theorem transfer_append (ns : List ℕ) (l l' : List (ℕ × ℕ × String)) {tr : Fin ns.length → ℕ} (EJ f : String → ℝ) (x y : ChargeState tr) :
    transfer ns (l ++ l') EJ f x y = transfer ns l EJ f x y + transfer ns l' EJ f x y := by
  unfold transfer
  rw [List.map_append, List.sum_append]

/-- Junctions among some of the nodes leave the pairs on the others alone. -/
theorem transfer_part {ns n1 n2 : List ℕ} {tr : Fin ns.length → ℕ} {t1 : Fin n1.length → ℕ} {t2 : Fin n2.length → ℕ} (σ : Fin n1.length ⊕ Fin n2.length ≃ Fin ns.length)
    (hσ1 : ∀ i, ns.get (σ (.inl i)) = n1.get i) (hσ2 : ∀ i, ns.get (σ (.inr i)) = n2.get i) (bs : List (ℕ × ℕ × String)) (hbs : ∀ d ∈ bs, d.1 ∉ n2 ∧ d.2.1 ∉ n2) (EJ f : String → ℝ)
    (x y : ChargeState tr) (x1 y1 : ChargeState t1) (x2 y2 : ChargeState t2)
    (hx1 : ∀ i, excess x (σ (.inl i)) = excess x1 i) (hy1 : ∀ i, excess y (σ (.inl i)) = excess y1 i)
    (hx2 : ∀ i, excess x (σ (.inr i)) = excess x2 i) (hy2 : ∀ i, excess y (σ (.inr i)) = excess y2 i) :
    transfer ns bs EJ f x y = open Classical in if x2 = y2 then transfer n1 bs EJ f x1 y1 else 0 := by
  classical
  have hinj : ∀ u w : ChargeState t2, (∀ i, excess u i = excess w i) → u = w := by
    intro u w h
    funext i
    have := h i
    unfold excess at this
    ext
    omega
  have hcr : ∀ d ∈ bs, ∀ (u w : ChargeState tr) (u1 w1 : ChargeState t1) (u2 w2 : ChargeState t2),
      (∀ i, excess u (σ (.inl i)) = excess u1 i) → (∀ i, excess w (σ (.inl i)) = excess w1 i) →
      (∀ i, excess u (σ (.inr i)) = excess u2 i) → (∀ i, excess w (σ (.inr i)) = excess w2 i) →
      (Crossed ns (d.1, d.2.1, 0) u w ↔ u2 = w2 ∧ Crossed n1 (d.1, d.2.1, 0) u1 w1) := by
    intro d hd u w u1 w1 u2 w2 hu1 hw1 hu2 hw2
    have hg : ∀ i, gains (d.1, d.2.1, 0) (n2.get i) = 0 := by
      intro i
      have hm := List.get_mem n2 i
      unfold gains
      have h1 : n2.get i ≠ d.1 := fun h => (hbs d hd).1 (h ▸ hm)
      have h2 : n2.get i ≠ d.2.1 := fun h => (hbs d hd).2 (h ▸ hm)
      simp [h1, h2, Ne.symm h1, Ne.symm h2, -List.get_eq_getElem]
    constructor
    · intro hc
      refine ⟨hinj _ _ fun i => ?_, fun i => ?_⟩
      · have := hc (σ (.inr i))
        rw [hu2, hw2, hσ2, hg, add_zero] at this
        exact this
      · have := hc (σ (.inl i))
        rw [hu1, hw1, hσ1] at this
        exact this
    · rintro ⟨rfl, hc⟩ j
      obtain ⟨i, rfl⟩ := σ.surjective j
      rcases i with i | i
      · rw [hu1, hw1, hσ1]
        exact hc i
      · rw [hu2, hw2, hσ2, hg, add_zero]
  unfold transfer
  split_ifs with h2
  · congr 1
    apply List.map_congr_left
    intro d hd
    rw [if_congr (hcr d hd x y x1 y1 x2 y2 hx1 hy1 hx2 hy2) rfl rfl, if_congr (hcr d hd y x y1 x1 y2 x2 hy1 hx1 hy2 hx2) rfl rfl]
    simp only [h2, true_and]
  · apply List.sum_eq_zero
    intro t ht
    obtain ⟨d, hd, rfl⟩ := List.mem_map.1 ht
    rw [if_congr (hcr d hd x y x1 y1 x2 y2 hx1 hy1 hx2 hy2) rfl rfl, if_congr (hcr d hd y x y1 x1 y2 x2 hy1 hx1 hy2 hx2) rfl rfl]
    simp only [h2, Ne.symm h2, false_and, if_false]
    simp

end Verif.Props
