import Verif.Props.Reversal
import Verif.Props.OperatorsGrid

/-!
# C107: charge reversal in the flux bases
-/

namespace Verif.Props

open Verif Verif.Spec Verif.Num Matrix Complex

/-- The states in reverse order. -/
theorem rev_involution (n : ℕ) : Involution (Fin.rev : Fin n → Fin n) (fun _ => 1) := ⟨Fin.rev_rev, fun _ => by norm_num⟩

theorem rev_apply {n : ℕ} (A : Op n) (x y : Fin n) : reversed (RingHom.id ℂ) Fin.rev (fun _ => 1) A x y = A (Fin.rev x) (Fin.rev y) := by
  rw [reversed_apply]
  simp

theorem rev_diagonal {n : ℕ} (d : Fin n → ℂ) : reversed (RingHom.id ℂ) Fin.rev (fun _ => 1) (diagonal d) = diagonal fun k => d (Fin.rev k) := by
  ext x y
  rw [rev_apply]
  by_cases hxy : x = y
  · subst hxy; rw [diagonal_apply_eq, diagonal_apply_eq]
  · rw [diagonal_apply_ne _ hxy, diagonal_apply_ne _ (fun h => hxy (Fin.rev_injective h))]

/-- The exponential of an operator that changes sign. -/
theorem rev_expEigh {n : ℕ} {M : Op n} {E : Fin n → ℝ} {V : Op n} (hE : IsEigh M E V) (hM : reversed (RingHom.id ℂ) Fin.rev (fun _ => 1) M = -M) :
    reversed (RingHom.id ℂ) Fin.rev (fun _ => 1) (expEigh (-(2 * I * Real.pi)) E V) = (expEigh (-(2 * I * Real.pi)) E V)ᴴ := by
  have hi := rev_involution n
  have h1 : IsEigh (-M) (fun k => E (Fin.rev k)) (reversed (RingHom.id ℂ) Fin.rev (fun _ => 1) V) := by
    refine ⟨?_, ?_⟩
    · rw [mem_unitaryGroup_iff, Matrix.star_eq_conjTranspose, ← reversed_adjoint (Or.inl rfl), ← revHom_apply _ _ _ hi, ← revHom_apply _ _ _ hi, ← map_mul]
      rw [show V * Vᴴ = 1 from mem_unitaryGroup_iff.1 hE.unitary, map_one]
    · rw [← hM]
      conv_lhs => rw [hE.spec]
      rw [← revHom_apply _ _ _ hi, map_mul, map_mul, revHom_apply, revHom_apply, revHom_apply, rev_diagonal, reversed_adjoint (Or.inl rfl)]
  have h2 : reversed (RingHom.id ℂ) Fin.rev (fun _ => 1) (expEigh (-(2 * I * Real.pi)) E V) =
      expEigh (-(2 * I * Real.pi)) (fun k => E (Fin.rev k)) (reversed (RingHom.id ℂ) Fin.rev (fun _ => 1) V) := by
    rw [expEigh_eq hE hE, expEigh_eq h1 h1, ← revHom_apply _ _ _ hi, map_mul, map_mul, revHom_apply, revHom_apply, revHom_apply, rev_diagonal, reversed_adjoint (Or.inl rfl)]
  rw [h2, expEigh_eq h1 (eigh_neg hE), expEigh_eq hE hE, conjTranspose_mul, conjTranspose_mul, conjTranspose_conjTranspose, Matrix.mul_assoc, diagonal_conjTranspose]
  congr 3
  funext k
  rw [Pi.star_apply, RCLike.star_def, ← Complex.exp_conj]
  congr 1
  simp [Complex.conj_ofNat]

theorem rev_cornerDisp {t : ℕ} {M : Op (2 * t + 1)} {E : Fin (2 * t + 1) → ℝ} {V : Op (2 * t + 1)} (hE : IsEigh M E V)
    (hM : reversed (RingHom.id ℂ) Fin.rev (fun _ => 1) M = -M) :
    reversed (RingHom.id ℂ) Fin.rev (fun _ => 1) (cornerDisp t E V) = (cornerDisp t E V)ᴴ := by
  have h1 := rev_expEigh hE hM
  ext x y
  have h2 := congrFun (congrFun h1 x) y
  rw [rev_apply, conjTranspose_apply] at h2
  unfold cornerDisp
  rw [rev_apply, conjTranspose_apply, Matrix.sub_apply, Matrix.sub_apply, h2, star_sub, corner_apply, corner_apply]
  congr 1
  have hiff : (((Fin.rev x : Fin (2 * t + 1)) : ℕ) = 2 * t ∧ ((Fin.rev y : Fin (2 * t + 1)) : ℕ) = 0) ↔ ((y : ℕ) = 2 * t ∧ (x : ℕ) = 0) := by
    rw [Fin.val_rev, Fin.val_rev]
    omega
  simp only [hiff]
  split_ifs <;> simp

/-- The conjugate operator changes sign if the states are counted downwards … -/
theorem rev_fourier_anti (t : ℕ) (s : Fin (2 * t + 1) → Fin (2 * t + 1) → ℂ) (u : ℂ) (hu : u * star u = 1) (hs : ∀ j, s j = Pi.single (Fin.rev j) u) :
    reversed (RingHom.id ℂ) Fin.rev (fun _ => 1) (fourierOp t s) = -fourierOp t s := by
  ext x y
  rw [rev_apply, Matrix.neg_apply, ← fourierOp_swap t s u hu hs, fourierOp_elements t s u hu hs, fourierOp_elements t s u hu hs]
  have h1 : ((Fin.rev x : Fin (2 * t + 1)) : ℕ) + (x : ℕ) = 2 * t := by rw [Fin.val_rev]; omega
  have h2 : ((Fin.rev y : Fin (2 * t + 1)) : ℕ) + (y : ℕ) = 2 * t := by rw [Fin.val_rev]; omega
  have h3 : ((Fin.rev y : Fin (2 * t + 1)) : ℂ) - ((Fin.rev x : Fin (2 * t + 1)) : ℕ) = ((x : ℕ) : ℂ) - (y : ℕ) := by
    have h4 := congrArg (Nat.cast : ℕ → ℂ) h1
    have h5 := congrArg (Nat.cast : ℕ → ℂ) h2
    push_cast at h4 h5
    linear_combination h5 - h4
  rw [h3]

/-- … and if they are counted upwards. -/
theorem rev_fourier_mono (t : ℕ) (s : Fin (2 * t + 1) → Fin (2 * t + 1) → ℂ) (u : ℂ) (hu : u * star u = 1) (hs : ∀ j, s j = Pi.single j u) :
    reversed (RingHom.id ℂ) Fin.rev (fun _ => 1) (fourierOp t s) = -fourierOp t s := by
  have hst : ∀ i x, fourierState t s i x = fourierState t (fun j => Pi.single (Fin.rev j) u) i (Fin.rev x) := by
    intro i x
    unfold fourierState
    rw [Finset.sum_apply, Finset.sum_apply]
    refine Finset.sum_congr rfl fun j _ => ?_
    rw [Pi.smul_apply, Pi.smul_apply, hs]
    dsimp only
    by_cases hj : j = x
    · subst hj; rw [Pi.single_eq_same, Pi.single_eq_same]
    · rw [Pi.single_eq_of_ne (Ne.symm hj), Pi.single_eq_of_ne (fun h => hj (Fin.rev_injective h).symm)]
  have hop : ∀ x y, fourierOp t s x y = fourierOp t (fun j => Pi.single (Fin.rev j) u) (Fin.rev x) (Fin.rev y) := by
    intro x y
    unfold fourierOp
    rw [Matrix.sum_apply, Matrix.sum_apply]
    refine Finset.sum_congr rfl fun i _ => ?_
    rw [Matrix.smul_apply, Matrix.smul_apply, vecMulVec_apply, vecMulVec_apply, Pi.star_apply, Pi.star_apply, hst, hst]
  have h1 := rev_fourier_anti t _ u hu (fun j => rfl)
  ext x y
  have h2 := congrFun (congrFun h1 x) y
  rw [rev_apply, Matrix.neg_apply] at h2
  rw [rev_apply, Matrix.neg_apply, hop, hop, Fin.rev_rev, Fin.rev_rev, h2, neg_neg]

theorem unit_mul_star {u : ℂ} (hu : ‖u‖ = 1) : u * star u = 1 := by
  rw [RCLike.star_def, Complex.mul_conj, Complex.normSq_eq_norm_sq, hu]
  simp

theorem chargeReversible_corner {t : ℕ} {Q P : Op (2 * t + 1)} {E E' : Fin (2 * t + 1) → ℝ} {V V' : Op (2 * t + 1)}
    (hQ : reversed (RingHom.id ℂ) Fin.rev (fun _ => 1) Q = -Q) (hP : reversed (RingHom.id ℂ) Fin.rev (fun _ => 1) P = -P) (hE : IsEigh P E V) (hE' : IsEigh Q E' V') :
    ChargeReversible (⟨Q, P, cornerDisp t E V, (cornerDisp t E V)ᴴ, cornerDisp t E' V', (cornerDisp t E' V')ᴴ⟩ : NodeOps (2 * t + 1)) := by
  have h1 := rev_cornerDisp hE hP
  have h2 := rev_cornerDisp hE' hQ
  refine ⟨Fin.rev, fun _ => 1, rev_involution _, hQ, hP, h1, ?_, h2, ?_⟩
  · rw [reversed_adjoint (Or.inl rfl), h1, conjTranspose_conjTranspose]
  · rw [reversed_adjoint (Or.inl rfl), h2, conjTranspose_conjTranspose]

/-- **C107** In the flux basis the reversal of charges and fluxes exists, if the eigenvectors of the flux operator come with equal phases. -/
theorem C107_flux_basis (t : ℕ) (q : Fin (2 * t + 1) → ℝ) (s : Fin (2 * t + 1) → Fin (2 * t + 1) → ℂ) (E E' : Fin (2 * t + 1) → ℝ) (V V' : Op (2 * t + 1))
    (hs : IsEigenstates (countOp t) q s) (hphase : ∀ i j, s i (Fin.rev i) = s j (Fin.rev j)) (hE : IsEigh (countOp t) E V) (hE' : IsEigh (fourierOp t s) E' V') :
    ChargeReversible (fluxBasis t s E V E' V') := by
  have hP : reversed (RingHom.id ℂ) Fin.rev (fun _ => 1) (countOp t) = -countOp t := by
    rw [countOp_eq, rev_diagonal, Matrix.diagonal_neg]
    congr 1
    funext k
    have h1 : ((Fin.rev k : Fin (2 * t + 1)) : ℕ) + (k : ℕ) = 2 * t := by rw [Fin.val_rev]; omega
    have h2 := congrArg (Nat.cast : ℕ → ℂ) h1
    push_cast at h2 ⊢
    linear_combination -h2
  have hs2 := hs
  rw [countOp_eq] at hs2
  have hanti : StrictAnti fun m : Fin (2 * t + 1) => (t : ℝ) - (m : ℕ) := by
    intro i j hij
    have : ((i : ℕ) : ℝ) < (j : ℕ) := by exact_mod_cast hij
    show (t : ℝ) - (j : ℕ) < t - (i : ℕ)
    linarith
  obtain ⟨u, hu, -, hsu⟩ := eigenstates_anti _ hanti hs2
  have hu0 : ∀ m, u m = u 0 := fun m => by
    have h1 := hphase (Fin.rev m) (Fin.rev 0)
    rwa [hsu, hsu, Fin.rev_rev, Fin.rev_rev, Pi.single_eq_same, Pi.single_eq_same] at h1
  exact chargeReversible_corner (rev_fourier_anti t s (u 0) (unit_mul_star (hu 0)) fun j => by rw [hsu, hu0]) hP hE hE'

/-- **C107** In the discretized flux basis the reversal of charges and fluxes exists, if the eigenvectors of the flux operator come with equal phases. -/
theorem C107_discretized (t : ℕ) (ht : 0 < t) (pmax : ℝ) (hp : 0 < pmax) (q : Fin (2 * t + 1) → ℝ) (s : Fin (2 * t + 1) → Fin (2 * t + 1) → ℂ) (E E' : Fin (2 * t + 1) → ℝ)
    (V V' : Op (2 * t + 1)) (B : NodeOps (2 * t + 1)) (hB : discretizedFluxBasis t pmax s E V E' V' = some B) (hs : IsEigenstates B.P q s)
    (hphase : ∀ i j, s i i = s j j) (hE : IsEigh B.P E V) (hE' : IsEigh B.Q E' V') : ChargeReversible B := by
  have h0 : t ≠ 0 := by omega
  have ht' : (0 : ℝ) < t := by exact_mod_cast ht
  obtain ⟨B', φ, c1, c2, -, -, c5, c6⟩ := C62_discretized_grid t ht pmax s E E' V V'
  obtain rfl := Option.some.inj (hB.symm.trans c1)
  have hP : reversed (RingHom.id ℂ) Fin.rev (fun _ => 1) B.P = -B.P := by
    rw [c2, rev_diagonal, Matrix.diagonal_neg]
    congr 1
    funext k
    rw [c6]; push_cast; rfl
  have hmono : StrictMono φ := by
    refine Fin.strictMono_iff_lt_succ.2 fun i => ?_
    have := c5 i.castSucc (by simp [i.2])
    have h3 : 0 < pmax / t := div_pos hp ht'
    have h4 : (⟨(i.castSucc : ℕ) + 1, by simp [i.2]⟩ : Fin (2 * t + 1)) = i.succ := rfl
    rw [h4] at this
    linarith
  rw [c2] at hs
  obtain ⟨u, hu, -, hsu⟩ := eigenstates_mono _ hmono hs
  have hu0 : ∀ m, u m = u 0 := fun m => by
    have h1 := hphase m 0
    rwa [hsu, hsu, Pi.single_eq_same, Pi.single_eq_same] at h1
  have hF := rev_fourier_mono t s (u 0) (unit_mul_star (hu 0)) fun j => by rw [hsu, hu0]
  have hB' := hB
  unfold discretizedFluxBasis at hB'
  rw [dif_neg h0] at hB'
  have hB2 := Option.some.inj hB'
  rw [← hB2] at hE hE' hP ⊢
  refine chargeReversible_corner ?_ hP hE hE'
  rw [reversed_smul, hF, smul_neg]
  rfl

/-- The hypotheses of `C107_flux_basis` are met for every truncation. -/
example (t : ℕ) : ∃ q s E V E' V', IsEigenstates (countOp t) q s ∧ (∀ i j, s i (Fin.rev i) = s j (Fin.rev j)) ∧ IsEigh (countOp t) E V ∧ IsEigh (fourierOp t s) E' V' :=
  flux_diagonalisation t

/-- The hypotheses of `C107_discretized` are met for every truncation above zero. -/
example (t : ℕ) (ht : 0 < t) : ∃ q s E E' V V' B, discretizedFluxBasis t 4 s E V E' V' = some B ∧ IsEigenstates B.P q s ∧ (∀ i j, s i i = s j j) ∧ IsEigh B.P E V ∧
    IsEigh B.Q E' V' := by
  have h0 : t ≠ 0 := by omega
  have ho : ∀ i j : Fin (2 * t + 1), star (Pi.single i (1 : ℂ) : Fin (2 * t + 1) → ℂ) ⬝ᵥ Pi.single j 1 = if i = j then 1 else 0 := by
    intro i j
    by_cases hij : i = j
    · subst hij; simp
    · rw [if_neg hij]
      simp [Ne.symm hij]
  have hgrid : ∀ i j : Fin (2 * t + 1), i ≤ j → fluxGrid t 4 i ≤ fluxGrid t 4 j := by
    intro i j hij
    have h1 : ((i : ℕ) : ℝ) ≤ (j : ℕ) := by exact_mod_cast hij
    simp only [fluxGrid, if_neg h0]
    gcongr
  obtain ⟨B, W, h1, h2⟩ := C62_discretized_charge t ht 4 (fun j => Pi.single j 1) ho (fluxGrid t 4) 0 1 1
  have hQ : ∀ (E' : Fin (2 * t + 1) → ℝ) (V' : Op (2 * t + 1)), ∃ B', discretizedFluxBasis t 4 (fun j => Pi.single j 1) (fluxGrid t 4) 1 E' V' = some B' ∧
      B'.P = diagonal (fun k => (fluxGrid t 4 k : ℂ)) ∧ B'.Q = B.Q := by
    intro E' V'
    unfold discretizedFluxBasis at h1 ⊢
    rw [dif_neg h0] at h1 ⊢
    refine ⟨_, rfl, rfl, ?_⟩
    cases h1
    rfl
  obtain ⟨B', k1, k2, k3⟩ := hQ (fun k => ((k : ℕ) - t : ℝ) / ((2 * t + 1) * (4 / t))) W
  refine ⟨fluxGrid t 4, fun j => Pi.single j 1, fluxGrid t 4, _, 1, W, B', k1, ?_, fun i j => by simp, by rw [k2]; exact eigh_diagonal _, by rw [k3]; exact h2⟩
  rw [k2]
  refine ⟨hgrid, fun j => ?_, ho⟩
  ext m
  rw [mulVec_diagonal, Pi.smul_apply, smul_eq_mul]
  by_cases hm : m = j
  · subst hm; rfl
  · rw [Pi.single_eq_of_ne hm]; simp

end Verif.Props
