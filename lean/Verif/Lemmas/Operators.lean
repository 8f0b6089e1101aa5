import Verif.Model.Operators
import Mathlib.RingTheory.RootsOfUnity.Complex
import Mathlib.Algebra.Field.GeomSum

/-! # Lemmas on the operators of the numerical system -/

namespace Verif.Num

open Matrix Complex

/-- The inverse of the eigenvector matrix is its adjoint. -/
theorem IsEigh.inv {n : ℕ} {M : Op n} {E : Fin n → ℝ} {V : Op n} (h : IsEigh M E V) : V⁻¹ = Vᴴ := by
  apply Matrix.inv_eq_right_inv
  exact (mem_unitaryGroup_iff.1 h.unitary)

/-- A function of the eigenvalues does not depend on the diagonalisation. -/
theorem eigh_function {n : ℕ} {M : Op n} {E E' : Fin n → ℝ} {V V' : Op n} (h : IsEigh M E V) (h' : IsEigh M E' V') (f : ℝ → ℂ) :
    V * diagonal (fun k => f (E k)) * Vᴴ = V' * diagonal (fun k => f (E' k)) * V'ᴴ := by
  have u1 : Vᴴ * V = 1 := mem_unitaryGroup_iff'.1 h.unitary
  have u2 : V'ᴴ * V' = 1 := mem_unitaryGroup_iff'.1 h'.unitary
  have u3 : V * Vᴴ = 1 := mem_unitaryGroup_iff.1 h.unitary
  have u4 : V' * V'ᴴ = 1 := mem_unitaryGroup_iff.1 h'.unitary
  set A := V'ᴴ * V with hA
  have e1 : diagonal (fun k => (E' k : ℂ)) * A = A * diagonal (fun k => (E k : ℂ)) := by
    have hM := h.spec.symm.trans h'.spec
    calc diagonal (fun k => (E' k : ℂ)) * A = V'ᴴ * (V' * diagonal (fun k => (E' k : ℂ)) * V'ᴴ) * V := by
            rw [hA]; simp only [← Matrix.mul_assoc]; rw [u2, Matrix.one_mul]
      _ = V'ᴴ * (V * diagonal (fun k => (E k : ℂ)) * Vᴴ) * V := by rw [hM]
      _ = A * diagonal (fun k => (E k : ℂ)) := by
            rw [hA]; simp only [Matrix.mul_assoc]; rw [u1, Matrix.mul_one]
  have e2 : diagonal (fun k => f (E' k)) * A = A * diagonal (fun k => f (E k)) := by
    ext i j
    have hij := congrFun (congrFun e1 i) j
    rw [diagonal_mul, mul_diagonal] at hij ⊢
    by_cases ha : A i j = 0
    · rw [ha]; simp
    · rw [mul_comm] at hij
      have : E' i = E j := by exact_mod_cast mul_left_cancel₀ ha hij
      rw [this, mul_comm]
  calc V * diagonal (fun k => f (E k)) * Vᴴ = V' * (A * diagonal (fun k => f (E k))) * Vᴴ := by
          rw [hA]; simp only [← Matrix.mul_assoc]; rw [u4, Matrix.one_mul]
    _ = V' * (diagonal (fun k => f (E' k)) * A) * Vᴴ := by rw [e2]
    _ = V' * diagonal (fun k => f (E' k)) * V'ᴴ := by
          rw [hA]; simp only [Matrix.mul_assoc]; rw [u3, Matrix.mul_one]

theorem expEigh_eq {n : ℕ} {M : Op n} {E E' : Fin n → ℝ} {V V' : Op n} (h : IsEigh M E V) (h' : IsEigh M E' V') (c : ℂ) :
    expEigh c E V = V' * diagonal (fun k => exp (c * E' k)) * V'ᴴ := by
  unfold expEigh
  rw [h.inv]
  exact eigh_function h h' fun x => exp (c * x)

/-- The sum of all the powers of a root of unity, for a symmetric range of exponents. -/
theorem fourier_sum (t : ℕ) (d : ℤ) :
    ∑ k : Fin (2 * t + 1), exp (2 * I * Real.pi * ((k : ℕ) - t : ℂ) * d / (2 * t + 1)) = if ((2 * t + 1 : ℕ) : ℤ) ∣ d then (2 * t + 1 : ℂ) else 0 := by
  have hN : (2 * t + 1 : ℂ) ≠ 0 := by exact_mod_cast (by omega : 2 * t + 1 ≠ 0)
  set w := exp (2 * Real.pi * I * (d / (2 * t + 1) : ℂ)) with hw
  have hterm : ∀ k : Fin (2 * t + 1), exp (2 * I * Real.pi * ((k : ℕ) - t : ℂ) * d / (2 * t + 1)) =
      exp (-(2 * Real.pi * I * (t * (d / (2 * t + 1)) : ℂ))) * w ^ (k : ℕ) := by
    intro k
    rw [hw, ← Complex.exp_nat_mul, ← Complex.exp_add]
    congr 1; ring
  rw [Finset.sum_congr rfl fun k _ => hterm k, ← Finset.mul_sum, Fin.sum_univ_eq_sum_range (fun k => w ^ k)]
  have hwN : w ^ (2 * t + 1) = 1 := by
    rw [hw, ← Complex.exp_nat_mul, Complex.exp_eq_one_iff]
    refine ⟨d, ?_⟩
    push_cast
    field_simp
  split_ifs with hd
  · obtain ⟨m, rfl⟩ := hd
    have hw1 : w = 1 := by
      rw [hw, Complex.exp_eq_one_iff]
      refine ⟨m, ?_⟩
      push_cast
      field_simp
    have hc : exp (-(2 * Real.pi * I * (t * ((((2 * t + 1 : ℕ) : ℤ) * m : ℤ) / (2 * t + 1)) : ℂ))) = 1 := by
      rw [Complex.exp_eq_one_iff]
      refine ⟨-(t * m), ?_⟩
      push_cast
      field_simp
    rw [hc, hw1]; simp
  · have hw1 : w ≠ 1 := by
      intro hh
      rw [hw, Complex.exp_eq_one_iff] at hh
      obtain ⟨m, hm⟩ := hh
      apply hd
      refine ⟨m, ?_⟩
      have h2 : (2 * Real.pi * I : ℂ) ≠ 0 := Complex.two_pi_I_ne_zero
      have h3 : (d : ℂ) / (2 * t + 1) = m := by
        apply mul_left_cancel₀ h2
        rw [hm]; ring
      rw [div_eq_iff hN] at h3
      have : (d : ℂ) = ((((2 * t + 1 : ℕ) : ℤ) * m : ℤ) : ℂ) := by rw [h3]; push_cast; ring
      exact_mod_cast this
    rw [geom_sum_eq hw1, hwN]; simp

/-- Eigenstates of a diagonal matrix with distinct entries are basis vectors, up to phases. -/
theorem eigenstates_diagonal {n : ℕ} (d : Fin n → ℝ) (hd : Function.Injective d) {q : Fin n → ℝ} {s : Fin n → Fin n → ℂ}
    (h : IsEigenstates (diagonal fun k => (d k : ℂ)) q s) :
    ∃ σ : Fin n → Fin n, Function.Injective σ ∧ (∀ j, q j = d (σ j)) ∧
      ∀ j, ∃ z : ℂ, ‖z‖ = 1 ∧ s j = Pi.single (σ j) z := by
  have hval : ∀ j m, s j m ≠ 0 → d m = q j := by
    intro j m hm
    have := congrFun (h.eigen j) m
    rw [mulVec_diagonal, Pi.smul_apply, smul_eq_mul] at this
    exact_mod_cast mul_right_cancel₀ hm this
  have hex : ∀ j, ∃ m, s j m ≠ 0 := by
    intro j
    by_contra hall
    push Not at hall
    have := h.orth j j
    rw [if_pos rfl] at this
    simp [dotProduct, hall] at this
  choose σ hσ using hex
  have hsupp : ∀ j m, m ≠ σ j → s j m = 0 := by
    intro j m hm
    by_contra hne
    exact hm (hd ((hval j m hne).trans (hval j _ (hσ j)).symm))
  have hdot : ∀ i j, star (s i) ⬝ᵥ s j = star (s i (σ j)) * s j (σ j) := by
    intro i j
    unfold dotProduct
    rw [Finset.sum_eq_single (σ j)]
    · rfl
    · intro m _ hm; rw [hsupp j m hm, mul_zero]
    · simp
  refine ⟨σ, ?_, fun j => (hval j _ (hσ j)).symm, ?_⟩
  · intro i j hij
    by_contra hne
    have := h.orth i j
    rw [if_neg hne, hdot, ← hij] at this
    rcases mul_eq_zero.1 this with h1 | h1
    · exact hσ i (star_eq_zero.1 h1)
    · rw [hij] at h1; exact hσ j h1
  · intro j
    refine ⟨s j (σ j), ?_, ?_⟩
    · have := h.orth j j
      rw [if_pos rfl, hdot, Complex.star_def, ← Complex.normSq_eq_conj_mul_self, Complex.normSq_eq_norm_sq] at this
      have h2 : ‖s j (σ j)‖ ^ 2 = 1 := by exact_mod_cast this
      have h3 := norm_nonneg (s j (σ j))
      nlinarith [sq_nonneg (‖s j (σ j)‖ - 1)]
    · ext m
      by_cases hm : m = σ j
      · subst hm; simp
      · rw [hsupp j m hm, Pi.single_eq_of_ne hm]

/-- ... in descending order of the entries if these decrease. -/
theorem eigenstates_anti {n : ℕ} (d : Fin n → ℝ) (hd : StrictAnti d) {q : Fin n → ℝ} {s : Fin n → Fin n → ℂ}
    (h : IsEigenstates (diagonal fun k => (d k : ℂ)) q s) :
    ∃ u : Fin n → ℂ, (∀ m, ‖u m‖ = 1) ∧ (∀ j, q j = d (Fin.rev j)) ∧ ∀ j, s j = Pi.single (Fin.rev j) (u (Fin.rev j)) := by
  obtain ⟨σ, hinj, hq, hs⟩ := eigenstates_diagonal d hd.injective h
  have hmono : StrictMono fun j => σ (Fin.rev j) := by
    intro i j hij
    have hle := h.sorted _ _ (Fin.rev_le_rev.2 hij.le)
    rw [hq, hq] at hle
    rcases lt_trichotomy (σ (Fin.rev i)) (σ (Fin.rev j)) with hlt | heq | hgt
    · exact hlt
    · exact absurd (Fin.rev_injective (hinj heq)) hij.ne
    · exact absurd hle (not_le.2 (hd hgt))
  have hid : (fun j => σ (Fin.rev j)) = id := by
    apply (StrictMono.range_inj hmono strictMono_id).1
    have hsurj : Function.Surjective fun j => σ (Fin.rev j) := Finite.injective_iff_surjective.1 hmono.injective
    rw [hsurj.range_eq]; simp
  have hσ : ∀ j, σ j = Fin.rev j := by
    intro j
    have := congrFun hid (Fin.rev j)
    simpa using this
  choose z hz1 hz2 using hs
  refine ⟨fun m => z (Fin.rev m), fun m => hz1 _, fun j => by rw [hq, hσ], fun j => ?_⟩
  rw [hz2, hσ]; simp

/-- ... in ascending order of the entries if these increase. -/
theorem eigenstates_mono {n : ℕ} (d : Fin n → ℝ) (hd : StrictMono d) {q : Fin n → ℝ} {s : Fin n → Fin n → ℂ}
    (h : IsEigenstates (diagonal fun k => (d k : ℂ)) q s) :
    ∃ u : Fin n → ℂ, (∀ m, ‖u m‖ = 1) ∧ (∀ j, q j = d j) ∧ ∀ j, s j = Pi.single j (u j) := by
  obtain ⟨σ, hinj, hq, hs⟩ := eigenstates_diagonal d hd.injective h
  have hmono : StrictMono σ := by
    intro i j hij
    have hle := h.sorted _ _ hij.le
    rw [hq, hq] at hle
    rcases lt_trichotomy (σ i) (σ j) with hlt | heq | hgt
    · exact hlt
    · exact absurd (hinj heq) hij.ne
    · exact absurd hle (not_le.2 (hd hgt))
  have hσ : σ = id := by
    apply (StrictMono.range_inj hmono strictMono_id).1
    have hsurj : Function.Surjective σ := Finite.injective_iff_surjective.1 hinj
    rw [hsurj.range_eq]; simp
  subst hσ
  choose z hz1 hz2 using hs
  exact ⟨z, hz1, hq, hz2⟩

/-- The Fourier states on basis vectors with phases; `ε` is the direction in which the basis is numbered. -/
theorem fourierState_apply (t : ℕ) (ε : ℤ) (u : Fin (2 * t + 1) → ℂ) (σ : Fin (2 * t + 1) → Fin (2 * t + 1)) (hσ : Function.Involutive σ)
    (he : ∀ m, ((σ m : ℕ) : ℤ) - t = ε * (t - (m : ℕ))) (k m : Fin (2 * t + 1)) :
    fourierState t (fun j => Pi.single (σ j) (u (σ j))) k m =
      ((Real.sqrt (1 / (2 * t + 1)) : ℝ) : ℂ) * exp (2 * I * Real.pi * ((k : ℕ) - t : ℂ) * (ε * (t - (m : ℕ)) : ℤ) / (2 * t + 1)) * u m := by
  unfold fourierState
  rw [Finset.sum_apply, Finset.sum_eq_single (σ m)]
  · simp only [Pi.smul_apply, smul_eq_mul]
    rw [hσ m, Pi.single_eq_same]
    have : ((σ m : ℕ) - t : ℂ) = ((ε * (t - (m : ℕ)) : ℤ) : ℂ) := by
      rw [← he m]; push_cast; ring
    rw [this]
  · intro j _ hj
    simp only [Pi.smul_apply, smul_eq_mul]
    rw [Pi.single_eq_of_ne, mul_zero]
    intro hm
    apply hj
    rw [hm, hσ j]
  · simp

theorem conj_unit {z : ℂ} (h : ‖z‖ = 1) : z * star z = 1 := by
  rw [Complex.star_def, Complex.mul_conj, Complex.normSq_eq_norm_sq, h]; simp

/-- The Fourier states diagonalise `fourierOp`, and its exponential is a cyclic shift. -/
theorem fourier_eigh (t : ℕ) (ε : ℤ) (hε : ε = 1 ∨ ε = -1) (u : Fin (2 * t + 1) → ℂ) (hu : ∀ m, ‖u m‖ = 1)
    (σ : Fin (2 * t + 1) → Fin (2 * t + 1)) (hσ : Function.Involutive σ) (he : ∀ m, ((σ m : ℕ) : ℤ) - t = ε * (t - (m : ℕ))) :
    let s := fun j => Pi.single (σ j) (u (σ j))
    let W : Op (2 * t + 1) := fun m k => fourierState t s k m
    IsEigh (fourierOp t s) (fun i => ((i : ℕ) - t : ℝ) / (2 * t + 1)) W ∧
    ∀ c : ℤ, W * diagonal (fun k : Fin (2 * t + 1) => exp ((2 * I * Real.pi * c) * ((((k : ℕ) - t : ℝ) / (2 * t + 1) : ℝ) : ℂ))) * Wᴴ =
      fun (m m' : Fin (2 * t + 1)) => if ((2 * t + 1 : ℕ) : ℤ) ∣ ε * ((m' : ℕ) - (m : ℕ)) + c then u m * star (u m') else 0 := by
  intro s W
  have hN : (2 * t + 1 : ℂ) ≠ 0 := by exact_mod_cast (by omega : 2 * t + 1 ≠ 0)
  have hsq : ((Real.sqrt (1 / (2 * t + 1)) : ℝ) : ℂ) * ((Real.sqrt (1 / (2 * t + 1)) : ℝ) : ℂ) = 1 / (2 * t + 1) := by
    rw [← Complex.ofReal_mul, Real.mul_self_sqrt (by positivity)]; push_cast; rfl
  have hW : ∀ m k, W m k = ((Real.sqrt (1 / (2 * t + 1)) : ℝ) : ℂ) *
      exp (2 * I * Real.pi * ((k : ℕ) - t : ℂ) * (ε * (t - (m : ℕ)) : ℤ) / (2 * t + 1)) * u m := fun m k => fourierState_apply t ε u σ hσ he k m
  have hWs : ∀ m k, star (W m k) = ((Real.sqrt (1 / (2 * t + 1)) : ℝ) : ℂ) *
      exp (-(2 * I * Real.pi * ((k : ℕ) - t : ℂ) * (ε * (t - (m : ℕ)) : ℤ) / (2 * t + 1))) * star (u m) := by
    intro m k
    rw [hW, star_mul', star_mul', Complex.star_def, Complex.conj_ofReal, ← Complex.exp_conj]
    congr 3
    have ht : (starRingEnd ℂ) (t : ℂ) = t := Complex.conj_natCast t
    have hk : (starRingEnd ℂ) ((k : ℕ) : ℂ) = (k : ℕ) := Complex.conj_natCast _
    have hi : ∀ z : ℤ, (starRingEnd ℂ) (z : ℂ) = z := fun z => by simp
    have h2 : (starRingEnd ℂ) (2 : ℂ) = 2 := by simpa using Complex.conj_natCast 2
    simp only [map_div₀, map_mul, map_sub, map_add, map_one, ht, hk, hi, h2, Complex.conj_I, Complex.conj_ofReal]
    ring
  have hprod : ∀ c : ℤ, W * diagonal (fun k : Fin (2 * t + 1) => exp ((2 * I * Real.pi * c) * ((((k : ℕ) - t : ℝ) / (2 * t + 1) : ℝ) : ℂ))) * Wᴴ =
      fun (m m' : Fin (2 * t + 1)) => if ((2 * t + 1 : ℕ) : ℤ) ∣ ε * ((m' : ℕ) - (m : ℕ)) + c then u m * star (u m') else 0 := by
    intro c
    ext m m'
    rw [Matrix.mul_apply]
    have hterm : ∀ k : Fin (2 * t + 1), (W * diagonal (fun k : Fin (2 * t + 1) => exp ((2 * I * Real.pi * c) * ((((k : ℕ) - t : ℝ) / (2 * t + 1) : ℝ) : ℂ)))) m k * Wᴴ k m' =
        (1 / (2 * t + 1) * (u m * star (u m'))) * exp (2 * I * Real.pi * ((k : ℕ) - t : ℂ) * ((ε * ((m' : ℕ) - (m : ℕ)) + c : ℤ) : ℂ) / (2 * t + 1)) := by
      intro k
      rw [mul_diagonal, conjTranspose_apply, hWs, hW]
      have hexp : exp (2 * I * Real.pi * ((k : ℕ) - t : ℂ) * ((ε * ((m' : ℕ) - (m : ℕ)) + c : ℤ) : ℂ) / (2 * t + 1)) =
          exp (2 * I * Real.pi * ((k : ℕ) - t : ℂ) * (ε * (t - (m : ℕ)) : ℤ) / (2 * t + 1)) *
          exp ((2 * I * Real.pi * c) * ((((k : ℕ) - t : ℝ) / (2 * t + 1) : ℝ) : ℂ)) *
          exp (-(2 * I * Real.pi * ((k : ℕ) - t : ℂ) * (ε * (t - (m' : ℕ)) : ℤ) / (2 * t + 1))) := by
        rw [← Complex.exp_add, ← Complex.exp_add]
        congr 1
        push_cast
        ring
      rw [hexp, ← hsq]
      ring
    rw [Finset.sum_congr rfl fun k _ => hterm k, ← Finset.mul_sum, fourier_sum]
    split_ifs
    · field_simp
    · simp
  refine ⟨⟨?_, ?_⟩, hprod⟩
  · rw [mem_unitaryGroup_iff]
    have h0 := hprod 0
    simp only [Int.cast_zero, mul_zero, zero_mul, Complex.exp_zero] at h0
    have hone : (diagonal fun _ : Fin (2 * t + 1) => (1 : ℂ)) = 1 := diagonal_one
    rw [hone, Matrix.mul_one] at h0
    rw [Matrix.star_eq_conjTranspose, h0]
    ext m m'
    by_cases hm : m = m'
    · subst hm
      rw [if_pos (by simp), conj_unit (hu m), one_apply_eq]
    · rw [if_neg, one_apply_ne hm]
      intro hdvd
      have hdvd' : ((2 * t + 1 : ℕ) : ℤ) ∣ ((m' : ℕ) : ℤ) - (m : ℕ) := by
        rcases hε with rfl | rfl
        · simpa using hdvd
        · have := hdvd.neg_right
          simpa using (dvd_neg.2 hdvd)
      apply hm
      obtain ⟨z, hz⟩ := hdvd'
      have hm1 := m.2
      have hm2 := m'.2
      have hz0 : z = 0 := by
        have h1 : -(2 * (t : ℤ) + 1) < (2 * t + 1) * z := by push_cast at hz; omega
        have h2 : (2 * (t : ℤ) + 1) * z < (2 * t + 1) := by push_cast at hz; omega
        nlinarith
      subst hz0
      ext; omega
  · ext m m'
    unfold fourierOp
    rw [Matrix.mul_apply, Matrix.sum_apply]
    apply Finset.sum_congr rfl
    intro k _
    rw [mul_diagonal, conjTranspose_apply, Matrix.smul_apply, vecMulVec_apply, Pi.star_apply, smul_eq_mul]
    show _ = W m k * _ * star (W m' k)
    simp only [W]
    push_cast
    ring

end Verif.Num
