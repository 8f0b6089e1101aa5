import Verif.Props.Operators

/-!
# C62: the flux values of the discretised flux basis
-/

namespace Verif.Props

open Verif Verif.Num Matrix

/-- **C62** The flux operator of the discretised flux basis is diagonal; its `2 t + 1` values begin at `-pmax`, end at `pmax` and are equally spaced by `pmax / t`,
and the flux changes sign under reversal of their order. -/
theorem C62_discretized_grid (t : ℕ) (ht : 0 < t) (pmax : ℝ) (s : Fin (2 * t + 1) → Fin (2 * t + 1) → ℂ) (E E' : Fin (2 * t + 1) → ℝ) (V V' : Op (2 * t + 1)) :
    ∃ (B : NodeOps (2 * t + 1)) (φ : Fin (2 * t + 1) → ℝ), discretizedFluxBasis t pmax s E V E' V' = some B ∧ B.P = diagonal (fun k => (φ k : ℂ)) ∧
      φ ⟨0, by omega⟩ = -pmax ∧ φ ⟨2 * t, by omega⟩ = pmax ∧ (∀ k : Fin (2 * t + 1), ∀ h : (k : ℕ) + 1 < 2 * t + 1, φ ⟨k + 1, h⟩ - φ k = pmax / t) ∧
      ∀ k, φ (Fin.rev k) = -φ k := by
  have h0 : t ≠ 0 := by omega
  have ht' : (t : ℝ) ≠ 0 := by exact_mod_cast h0
  refine ⟨_, fluxGrid t pmax, dif_neg (by omega), rfl, ?_, ?_, ?_, ?_⟩
  · simp [fluxGrid]
  · simp only [fluxGrid, if_neg h0]
    push_cast
    field_simp
    ring
  · intro k h
    simp only [fluxGrid, if_neg h0]
    push_cast
    field_simp
    ring
  · intro k
    simp only [fluxGrid, if_neg h0, Fin.val_rev]
    have hk := k.2
    rw [Nat.cast_sub (by omega)]
    push_cast
    field_simp
    ring

/-- The operator built from the Fourier states of any orthonormal states has the equally spaced eigenvalues between `-1/2` and `1/2`. -/
theorem fourierOp_eigh (t : ℕ) (s : Fin (2 * t + 1) → Fin (2 * t + 1) → ℂ) (hs : ∀ i j, star (s i) ⬝ᵥ s j = if i = j then 1 else 0) :
    ∃ W, IsEigh (fourierOp t s) (fun i => ((i : ℕ) - t : ℝ) / (2 * t + 1)) W := by
  obtain ⟨⟨hu, hsp⟩, -⟩ := fourier_eigh t (-1) (.inr rfl) (fun _ => 1) (fun _ => by simp) id (fun _ => rfl) (fun m => by simp)
  set e : Fin (2 * t + 1) → Fin (2 * t + 1) → ℂ := fun j => Pi.single (id j) 1 with he
  set W0 : Op (2 * t + 1) := fun m k => fourierState t e k m with hW0
  set S : Op (2 * t + 1) := Matrix.of fun m j => s j m with hS
  have hSu : Sᴴ * S = 1 := by
    ext i j
    rw [Matrix.mul_apply, Matrix.one_apply, ← hs i j]
    rfl
  have hf : ∀ k, fourierState t s k = S *ᵥ fourierState t e k := by
    intro k
    unfold fourierState
    rw [Matrix.mulVec_sum]
    refine Finset.sum_congr rfl fun j _ => ?_
    rw [Matrix.mulVec_smul]
    congr 1
    ext m
    rw [he]
    simp [hS]
  have hop : fourierOp t s = S * fourierOp t e * Sᴴ := by
    unfold fourierOp
    rw [Finset.mul_sum, Finset.sum_mul]
    refine Finset.sum_congr rfl fun i _ => ?_
    rw [Matrix.mul_smul, Matrix.smul_mul, hf, Matrix.mul_vecMulVec, Matrix.vecMulVec_mul, Matrix.star_mulVec]
  refine ⟨S * W0, mul_mem (mem_unitaryGroup_iff'.2 hSu) hu, ?_⟩
  rw [hop, hsp, conjTranspose_mul]
  simp only [Matrix.mul_assoc]

/-- **C62** Whatever states and eigenvectors the library calls return, the operators of the charge, the flux and the discretised flux basis come in adjoint pairs: the fourth is the adjoint
of the third and the sixth of the fifth, and the charge and the flux are Hermitian. -/
theorem C62_adjoint (t : ℕ) (s : Fin (2 * t + 1) → Fin (2 * t + 1) → ℂ) (hs : ∀ i j, star (s i) ⬝ᵥ s j = if i = j then 1 else 0) (q E E' : Fin (2 * t + 1) → ℝ)
    (V V' : Op (2 * t + 1)) (pmax : ℝ) (B : NodeOps (2 * t + 1))
    (hB : B = chargeBasis t q s E V ∨ B = fluxBasis t s E V E' V' ∨ discretizedFluxBasis t pmax s E V E' V' = some B) :
    B.Ddag = B.Dᴴ ∧ B.Sdag = B.Sᴴ ∧ B.Q.IsHermitian ∧ B.P.IsHermitian := by
  have hF : (fourierOp t s).IsHermitian := by
    obtain ⟨W, -, hsp⟩ := fourierOp_eigh t s hs
    rw [hsp]
    refine Matrix.isHermitian_mul_mul_conjTranspose _ ?_
    rw [Matrix.isHermitian_diagonal_iff]
    intro x
    exact Complex.conj_ofReal _
  have hC : (countOp t).IsHermitian := by
    rw [countOp_eq, Matrix.isHermitian_diagonal_iff]
    intro x
    show star _ = _
    simp
  rcases hB with rfl | rfl | hB
  · exact ⟨rfl, rfl, hC, hF⟩
  · exact ⟨rfl, rfl, hF, hC⟩
  · unfold discretizedFluxBasis at hB
    by_cases ht : t = 0
    · rw [dif_pos ht] at hB
      exact absurd hB (by simp)
    · rw [dif_neg ht] at hB
      obtain rfl := Option.some.inj hB
      refine ⟨rfl, rfl, ?_, ?_⟩
      · show (_ • fourierOp t s)ᴴ = _ • fourierOp t s
        rw [conjTranspose_smul, hF, ← Complex.ofReal_inv]
        congr 1
        exact Complex.conj_ofReal _
      · show (diagonal _).IsHermitian
        rw [Matrix.isHermitian_diagonal_iff]
        intro x
        exact Complex.conj_ofReal _

/-- **C62** The charge operator of the discretised flux basis has the eigenvalues `k / ((2 t + 1) d)` for `k = -t .. t`, where `d = pmax / t` is the distance of two values of the flux, as the
Fourier transform on such a grid requires. -/
theorem C62_discretized_charge (t : ℕ) (ht : 0 < t) (pmax : ℝ) (s : Fin (2 * t + 1) → Fin (2 * t + 1) → ℂ) (hs : ∀ i j, star (s i) ⬝ᵥ s j = if i = j then 1 else 0)
    (E E' : Fin (2 * t + 1) → ℝ) (V V' : Op (2 * t + 1)) :
    ∃ B W, discretizedFluxBasis t pmax s E V E' V' = some B ∧ IsEigh B.Q (fun k => ((k : ℕ) - t : ℝ) / ((2 * t + 1) * (pmax / t))) W := by
  obtain ⟨W, hu, hsp⟩ := fourierOp_eigh t s hs
  refine ⟨_, W, dif_neg (by omega), hu, ?_⟩
  have h0 : t ≠ 0 := by omega
  have ht' : (t : ℝ) ≠ 0 := by exact_mod_cast h0
  have hd : fluxGrid t pmax ⟨1, by omega⟩ - fluxGrid t pmax ⟨0, by omega⟩ = pmax / t := by
    simp only [fluxGrid, if_neg h0]
    push_cast
    field_simp
    ring
  show _ • fourierOp t s = _
  rw [hd, hsp, ← Matrix.smul_mul, ← Matrix.mul_smul, ← diagonal_smul]
  congr 3
  ext k
  simp only [Pi.smul_apply, smul_eq_mul]
  push_cast
  rw [div_mul_eq_div_div, div_eq_mul_inv _ ((pmax : ℂ) / t), mul_comm]

/-- The states of a number operator are orthonormal. -/
example (t : ℕ) : ∃ s : Fin (2 * t + 1) → Fin (2 * t + 1) → ℂ, ∀ i j, star (s i) ⬝ᵥ s j = if i = j then 1 else 0 :=
  ⟨fun j => Pi.single j 1, fun i j => by simp [Pi.single_apply, eq_comm]⟩

end Verif.Props
