import Verif.Lemmas.Response
import Verif.Spec.CircuitResponse
import Verif.Props.Hamiltonian
import Verif.Props.NetlistOp

/-!
# Energies of quadratic forms of operators and of contractions
-/

namespace Verif

open Matrix Complex Verif.Spec Verif.Num Verif.Props Verif.Sym Verif.Circuit

theorem energy_csmul {ι : Type} [Fintype ι] (r : ℝ) (A : Matrix ι ι ℂ) (v : ι → ℂ) : energy ((r : ℂ) • A) v = r * energy A v := by
  unfold energy
  rw [smul_mulVec, dotProduct_smul, smul_eq_mul, Complex.re_ofReal_mul]

theorem energy_neg {ι : Type} [Fintype ι] (A : Matrix ι ι ℂ) (v : ι → ℂ) : energy (-A) v = -energy A v := by
  unfold energy
  rw [neg_mulVec, dotProduct_neg, Complex.neg_re]

theorem energy_sum {ι κ : Type} [Fintype ι] (S : Finset κ) (F : κ → Matrix ι ι ℂ) (v : ι → ℂ) : energy (∑ k ∈ S, F k) v = ∑ k ∈ S, energy (F k) v := by
  classical
  induction S using Finset.induction_on with
  | empty => simp [energy]
  | insert a S ha ih => rw [Finset.sum_insert ha, Finset.sum_insert ha, energy_add, ih]

/-- A quadratic form of Hermitian operators: its energy is the form of the vectors they make of the state, component by component. -/
theorem energy_quadOp {ι : Type} [Fintype ι] [DecidableEq ι] {n : ℕ} (M : Matrix (Fin n) (Fin n) ℝ) (X : Fin n → Matrix ι ι ℂ) (hX : ∀ i, (X i)ᴴ = X i) (v : ι → ℂ) :
    energy (quadOp (num (Matrix ι ι ℂ)) M X) v =
      ∑ k, ((fun i => ((X i *ᵥ v) k).re) ⬝ᵥ M *ᵥ (fun i => ((X i *ᵥ v) k).re) + (fun i => ((X i *ᵥ v) k).im) ⬝ᵥ M *ᵥ (fun i => ((X i *ᵥ v) k).im)) := by
  rw [quadOp_smul, energy_sum]
  simp only [energy_sum, energy_csmul]
  have h1 : ∀ i j, energy (X i * X j) v = ∑ k, (((X i *ᵥ v) k).re * ((X j *ᵥ v) k).re + ((X i *ᵥ v) k).im * ((X j *ᵥ v) k).im) := by
    intro i j
    unfold energy
    have : star v ⬝ᵥ (X i * X j) *ᵥ v = star (X i *ᵥ v) ⬝ᵥ (X j *ᵥ v) := by
      rw [star_mulVec, hX, ← mulVec_mulVec, dotProduct_mulVec]
    rw [this]
    simp only [dotProduct, Complex.re_sum, Pi.star_apply, RCLike.star_def, Complex.mul_re, Complex.conj_re, Complex.conj_im, neg_mul, sub_neg_eq_add]
  simp only [h1]
  simp only [dotProduct, mulVec, Finset.mul_sum, Finset.sum_mul, ← Finset.sum_add_distrib]
  rw [Finset.sum_comm' (s := Finset.univ) (t := fun _ => Finset.univ) (t' := Finset.univ) (s' := fun _ => Finset.univ) (by simp)]
  have e2 : ∀ i : Fin n, ∑ j, ∑ k, M j i * (((X j *ᵥ v) k).re * ((X i *ᵥ v) k).re + ((X j *ᵥ v) k).im * ((X i *ᵥ v) k).im) =
      ∑ k, ∑ j, M j i * (((X j *ᵥ v) k).re * ((X i *ᵥ v) k).re + ((X j *ᵥ v) k).im * ((X i *ᵥ v) k).im) := fun i => Finset.sum_comm
  simp only [mulVec, dotProduct] at e2
  simp only [e2]
  rw [Finset.sum_comm]
  apply Finset.sum_congr rfl; intro k _
  rw [Finset.sum_comm]
  apply Finset.sum_congr rfl; intro i _
  apply Finset.sum_congr rfl; intro j _
  ring

theorem energy_quadOp_le {ι : Type} [Fintype ι] [DecidableEq ι] {n : ℕ} {M M' : Matrix (Fin n) (Fin n) ℝ} (X : Fin n → Matrix ι ι ℂ) (hX : ∀ i, (X i)ᴴ = X i)
    (hM : ∀ x : Fin n → ℝ, x ⬝ᵥ M' *ᵥ x ≤ x ⬝ᵥ M *ᵥ x) (v : ι → ℂ) :
    energy (quadOp (num (Matrix ι ι ℂ)) M' X) v ≤ energy (quadOp (num (Matrix ι ι ℂ)) M X) v := by
  rw [energy_quadOp _ _ hX, energy_quadOp _ _ hX]
  exact Finset.sum_le_sum fun k _ => add_le_add (hM _) (hM _)

/-! ### Contractions -/

theorem contraction_one {ι : Type} [Fintype ι] [DecidableEq ι] : Contraction (1 : Matrix ι ι ℂ) := fun v => by rw [one_mulVec]

theorem contraction_mul {ι : Type} [Fintype ι] {A B : Matrix ι ι ℂ} (hA : Contraction A) (hB : Contraction B) : Contraction (A * B) := fun v => by
  rw [← mulVec_mulVec]; exact (hA _).trans (hB _)

theorem contraction_prod {ι : Type} [Fintype ι] [DecidableEq ι] (l : List (Matrix ι ι ℂ)) (h : ∀ A ∈ l, Contraction A) : Contraction l.prod := by
  induction l with
  | nil => exact contraction_one
  | cons a l ih =>
    rw [List.prod_cons]
    exact contraction_mul (h a (by simp)) (ih fun A hA => h A (List.mem_cons_of_mem _ hA))

theorem norm_dot_le {ι : Type} [Fintype ι] (v w : ι → ℂ) : ‖star v ⬝ᵥ w‖ ≤ 1 / 2 * (∑ i, normSq (v i)) + 1 / 2 * ∑ i, normSq (w i) := by
  unfold dotProduct
  refine (norm_sum_le _ _).trans ?_
  rw [Finset.mul_sum, Finset.mul_sum, ← Finset.sum_add_distrib]
  refine Finset.sum_le_sum fun i _ => ?_
  rw [norm_mul, Pi.star_apply, norm_star, Complex.normSq_eq_norm_sq, Complex.normSq_eq_norm_sq]
  nlinarith [sq_nonneg (‖v i‖ - ‖w i‖)]

theorem dot_self {ι : Type} [Fintype ι] (v : ι → ℂ) : star v ⬝ᵥ v = ((∑ i, normSq (v i) : ℝ) : ℂ) := by
  unfold dotProduct
  push_cast
  refine Finset.sum_congr rfl fun i _ => ?_
  rw [Pi.star_apply, RCLike.star_def, Complex.normSq_eq_conj_mul_self]

theorem contraction_adjoint {ι : Type} [Fintype ι] {A : Matrix ι ι ℂ} (hA : Contraction A) : Contraction Aᴴ := fun v => by
  have h1 : star v ⬝ᵥ (A *ᵥ (Aᴴ *ᵥ v)) = ((∑ i, normSq ((Aᴴ *ᵥ v) i) : ℝ) : ℂ) := by
    rw [← dot_self, star_mulVec, conjTranspose_conjTranspose, dotProduct_mulVec]
  have h2 := norm_dot_le v (A *ᵥ (Aᴴ *ᵥ v))
  rw [h1, Complex.norm_real, Real.norm_eq_abs] at h2
  have h3 := hA (Aᴴ *ᵥ v)
  have h4 := le_abs_self (∑ i, normSq ((Aᴴ *ᵥ v) i))
  linarith

theorem contraction_energy {ι : Type} [Fintype ι] {A : Matrix ι ι ℂ} (hA : Contraction A) (c : ℂ) (v : ι → ℂ) : |energy (c • A) v| ≤ ‖c‖ * ∑ i, normSq (v i) := by
  unfold energy
  rw [smul_mulVec, dotProduct_smul, smul_eq_mul]
  refine (Complex.abs_re_le_norm _).trans ?_
  rw [norm_mul]
  refine mul_le_mul_of_nonneg_left ?_ (norm_nonneg _)
  have := norm_dot_le v (A *ᵥ v)
  have := hA v
  linarith

/-- An operator of a node that lengthens no state lengthens no state of the whole space. -/
theorem contraction_actsOn {n : ℕ} (cfg : Fin n → NodeCfg) (i : Fin n) {X : Op (cfg i).dim} (hX : Contraction X) : Contraction (actsOn cfg i X) := by
  intro v
  let e := Equiv.piSplitAt i fun j => Fin (cfg j).dim
  have hmv : ∀ x, (actsOn cfg i X *ᵥ v) x = (X *ᵥ fun a => v (Function.update x i a)) (x i) := by
    intro x
    unfold mulVec dotProduct actsOn
    rw [← Finset.sum_subset (Finset.subset_univ (Finset.univ.image fun a => Function.update x i a))]
    · rw [Finset.sum_image]
      · refine Finset.sum_congr rfl fun a _ => ?_
        show (if ∀ j, j ≠ i → x j = Function.update x i a j then X (x i) (Function.update x i a i) else 0) * _ = X (x i) a * _
        rw [if_pos fun j hj => (Function.update_of_ne hj _ _).symm, Function.update_self]
      · intro a _ b _ hab
        exact Function.update_injective x i hab
    · intro y _ hy
      show (if ∀ j, j ≠ i → x j = y j then X (x i) (y i) else 0) * _ = 0
      rw [if_neg, zero_mul]
      intro hxy
      apply hy
      rw [Finset.mem_image]
      refine ⟨y i, Finset.mem_univ _, ?_⟩
      funext j
      by_cases hj : j = i
      · subst hj; rw [Function.update_self]
      · rw [Function.update_of_ne hj]; exact hxy j hj
  simp only [hmv]
  rw [← e.symm.sum_comp, ← e.symm.sum_comp (fun x => normSq (v x)), Fintype.sum_prod_type_right, Fintype.sum_prod_type_right]
  refine Finset.sum_le_sum fun r _ => ?_
  have hup : ∀ a b, Function.update (e.symm (a, r)) i b = e.symm (b, r) := by
    intro a b
    funext j
    by_cases hj : j = i
    · subst hj
      rw [Function.update_self]
      simp [e, Equiv.piSplitAt]
    · rw [Function.update_of_ne hj]
      simp [e, Equiv.piSplitAt, hj]
  have hi : ∀ a, e.symm (a, r) i = a := by
    intro a; simp [e, Equiv.piSplitAt]
  simp only [hup, hi]
  exact hX _

/-- The change of the energy of a state when one cosine of contractions changes its amplitude and its phase. -/
theorem energy_cosine {ι : Type} [Fintype ι] [DecidableEq ι] {A B : Matrix ι ι ℂ} (hA : Contraction A) (hB : Contraction B) (J J' x x' : ℝ) (v : ι → ℂ) :
    |energy (-(num (Matrix ι ι ℂ) (1 / 2) * num _ J' * (expTau _ x' * A + expTau _ (-x') * B))) v -
      energy (-(num (Matrix ι ι ℂ) (1 / 2) * num _ J * (expTau _ x * A + expTau _ (-x) * B))) v| ≤
      (|J' - J| + 2 * Real.pi * |J| * |x' - x|) * ∑ i, normSq (v i) := by
  let a : ℂ := -(1 / 2 * (J' * exp (2 * Real.pi * x' * I) - J * exp (2 * Real.pi * x * I)))
  let b : ℂ := -(1 / 2 * (J' * exp (2 * Real.pi * (-x' : ℝ) * I) - J * exp (2 * Real.pi * (-x : ℝ) * I)))
  have key : -(num (Matrix ι ι ℂ) (1 / 2) * num _ J' * (expTau _ x' * A + expTau _ (-x') * B)) =
      -(num (Matrix ι ι ℂ) (1 / 2) * num _ J * (expTau _ x * A + expTau _ (-x) * B)) + (a • A + b • B) := by
    simp only [← map_mul, num_smul, expTau_smul, smul_add, smul_smul, neg_add, ← neg_smul]
    have : ∀ (p q r s t u : ℂ), p = r + t → q = s + u → p • A + q • B = r • A + s • B + (t • A + u • B) := by
      rintro p q r s t u rfl rfl
      rw [add_smul, add_smul]; abel
    apply this
    · simp only [a]; push_cast; ring
    · simp only [b]; push_cast; ring
  have hn : ∀ y y' : ℝ, ‖(-(1 / 2 * (J' * exp (2 * Real.pi * y' * I) - J * exp (2 * Real.pi * y * I))) : ℂ)‖ ≤ 1 / 2 * (|J' - J| + 2 * Real.pi * |J| * |y' - y|) := by
    intro y y'
    have e1 : (J' * exp (2 * Real.pi * y' * I) - J * exp (2 * Real.pi * y * I) : ℂ) = ((J' - J : ℝ) : ℂ) * exp (((2 * Real.pi * y' : ℝ) : ℂ) * I) +
        (J : ℂ) * (exp (((2 * Real.pi * y' : ℝ) : ℂ) * I) - exp (((2 * Real.pi * y : ℝ) : ℂ) * I)) := by push_cast; ring
    rw [norm_neg, norm_mul, e1]
    have h0 : ‖(1 / 2 : ℂ)‖ = 1 / 2 := by norm_num
    rw [h0]
    refine mul_le_mul_of_nonneg_left ?_ (by norm_num)
    refine (norm_add_le _ _).trans ?_
    rw [norm_mul, norm_mul, Complex.norm_exp_ofReal_mul_I, mul_one, Complex.norm_real, Complex.norm_real, Real.norm_eq_abs, Real.norm_eq_abs]
    refine add_le_add (le_refl _) ?_
    have h3 := phase_change (2 * Real.pi * y') (2 * Real.pi * y)
    rw [← mul_sub, abs_mul, abs_of_pos Real.two_pi_pos] at h3
    calc |J| * _ ≤ |J| * (2 * Real.pi * |y' - y|) := mul_le_mul_of_nonneg_left h3 (abs_nonneg _)
      _ = _ := by ring
  rw [key, energy_add, add_sub_cancel_left, energy_add]
  refine (abs_add_le _ _).trans ?_
  have hw : 0 ≤ ∑ i, normSq (v i) := Finset.sum_nonneg fun _ _ => normSq_nonneg _
  have h1 := (contraction_energy hA a v).trans (mul_le_mul_of_nonneg_right (hn x x') hw)
  have h2 := (contraction_energy hB b v).trans (mul_le_mul_of_nonneg_right (hn (-x) (-x')) hw)
  have h3 : |-x' - -x| = |x' - x| := by rw [← abs_neg]; congr 1; ring
  rw [h3] at h2
  linarith

end Verif
