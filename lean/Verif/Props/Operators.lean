import Verif.Lemmas.Operators
import Mathlib.Analysis.Normed.Algebra.MatrixExponential
import Mathlib.Analysis.Matrix.Spectrum
import Mathlib.Tactic.NoncommRing
import Mathlib.Analysis.SpecialFunctions.Exponential

/-!
# Properties of the operators of a node: C37, C38, C62
-/

namespace Verif.Props

open Verif.Num Matrix Complex

/-! ### C37: the charge basis -/

/-- The diagonal of `-num(2t+1, offset)`. -/
theorem neg_num (n o : ℕ) : -(numOp n o) = diagonal fun k : Fin n => ((-((k : ℕ) + o : ℝ) : ℝ) : ℂ) := by
  unfold numOp
  rw [Matrix.diagonal_neg]
  congr 1
  ext k
  simp [Pi.neg_apply]

theorem neg_num_anti (n o : ℕ) : StrictAnti fun k : Fin n => (-((k : ℕ) + o : ℝ) : ℝ) := by
  intro i j hij
  have : ((i : ℕ) : ℝ) < (j : ℕ) := by exact_mod_cast hij
  show -(((j : ℕ) : ℝ) + o) < -(((i : ℕ) : ℝ) + o)
  linarith

theorem rev_shift (t : ℕ) (m : Fin (2 * t + 1)) : ((Fin.rev m : ℕ) : ℤ) - t = 1 * (t - (m : ℕ)) := by
  rw [Fin.val_rev]
  have := m.2
  omega

/-- When `m' - m - 1` is a multiple of `2t+1`. -/
theorem shift_dvd (t : ℕ) (m m' : Fin (2 * t + 1)) :
    ((2 * t + 1 : ℕ) : ℤ) ∣ 1 * (((m' : ℕ) : ℤ) - (m : ℕ)) + (-1) ↔ (m' : ℕ) = m + 1 ∨ (m : ℕ) = 2 * t ∧ (m' : ℕ) = 0 := by
  have h1 := m.2
  have h2 := m'.2
  constructor
  · rintro ⟨z, hz⟩
    push_cast at hz
    have hz1 : z = 0 ∨ z = -1 := by
      have a1 : -(2 * (t : ℤ) + 1) * 2 < (2 * t + 1) * z := by omega
      have a2 : (2 * (t : ℤ) + 1) * z < (2 * t + 1) := by omega
      have : -2 < z := by nlinarith
      have : z < 1 := by nlinarith
      omega
    rcases hz1 with rfl | rfl
    · left; omega
    · right; omega
  · rintro (h | ⟨h3, h4⟩)
    · exact ⟨0, by omega⟩
    · exact ⟨-1, by rw [h3, h4]; push_cast; ring⟩

/-- **C37** whatever phases the diagonalisers choose: the charge operator is `t, t-1, …, -t` and the displacement lowers the index
(raises the charge) by one, up to phases `u`, and at the corner the difference to one of the phases remains. -/
theorem C37_any_phases (t : ℕ) (q : Fin (2 * t + 1) → ℝ) (s : Fin (2 * t + 1) → Fin (2 * t + 1) → ℂ) (E : Fin (2 * t + 1) → ℝ)
    (V : Op (2 * t + 1)) (hs : IsEigenstates (-(numOp (2 * t + 1) t)) q s) (hE : IsEigh (fourierOp t s) E V) :
    ∃ u : Fin (2 * t + 1) → ℂ, (∀ m, ‖u m‖ = 1) ∧ (∀ j, s j = Pi.single (Fin.rev j) (u (Fin.rev j))) ∧
      (∀ m m', (chargeBasis t q s E V).D m m' = (if (m' : ℕ) = m + 1 then u m * star (u m') else 0) +
        (if (m : ℕ) = 2 * t ∧ (m' : ℕ) = 0 then u m * star (u m') - 1 else 0)) ∧
      (chargeBasis t q s E V).Q = diagonal (fun m : Fin (2 * t + 1) => ((t : ℂ) - (m : ℕ))) ∧ (chargeBasis t q s E V).S = 1 := by
  rw [neg_num] at hs
  obtain ⟨u, hu, hq, hsu⟩ := eigenstates_anti _ (neg_num_anti _ _) hs
  refine ⟨u, hu, hsu, ?_, ?_, ?_⟩
  · intro m m'
    have hs' : s = fun j => Pi.single (Fin.rev j) (u (Fin.rev j)) := funext hsu
    obtain ⟨h1, h2⟩ := fourier_eigh t 1 (Or.inl rfl) u hu Fin.rev Fin.rev_rev (rev_shift t)
    rw [hs'] at hE
    have e1 := expEigh_eq hE h1 (-(2 * I * Real.pi))
    have e2 := h2 (-1)
    have hcast : ∀ k : Fin (2 * t + 1), exp ((2 * I * Real.pi * ((-1 : ℤ) : ℂ)) * ((((k : ℕ) - t : ℝ) / (2 * t + 1) : ℝ) : ℂ)) =
        exp (-(2 * I * Real.pi) * ((((k : ℕ) - t : ℝ) / (2 * t + 1) : ℝ) : ℂ)) := by
      intro k; congr 1; push_cast; ring
    simp only [hcast] at e2
    rw [e2] at e1
    show cornerDisp t E V m m' = _
    unfold cornerDisp
    rw [Matrix.sub_apply, e1]
    have hcorner : (ketbra (⟨2 * t, by omega⟩ : Fin (2 * t + 1)) ⟨0, by omega⟩) m m' = if (m : ℕ) = 2 * t ∧ (m' : ℕ) = 0 then 1 else 0 := by
      unfold ketbra
      simp only [Fin.ext_iff]
    rw [hcorner]
    show (if _ then _ else _) - _ = _
    have hd := shift_dvd t m m'
    by_cases a : (m' : ℕ) = m + 1
    · rw [if_pos (hd.2 (Or.inl a)), if_neg (by omega), if_pos a, if_neg (by omega)]; ring
    · by_cases b : (m : ℕ) = 2 * t ∧ (m' : ℕ) = 0
      · rw [if_pos (hd.2 (Or.inr b)), if_pos b, if_neg a, if_pos b]; ring
      · rw [if_neg (fun hh => (hd.1 hh).elim a b), if_neg b, if_neg a, if_neg b]; ring
  · show countOp t = _
    unfold countOp numOp
    rw [Matrix.diagonal_neg, smul_one_eq_diagonal, diagonal_add]
    congr 1
    ext m
    simp
    ring
  · show (diagonal fun k => exp (-(2 * I * Real.pi) * q k)) = 1
    rw [← diagonal_one]
    congr 1
    ext k
    rw [hq, Complex.exp_eq_one_iff]
    refine ⟨((Fin.rev k : ℕ) + t : ℤ), ?_⟩
    push_cast
    ring

/-- **C37** (partial: the eigenvectors of the number operator must come with equal phases) The charge basis of every truncation:
charges `t, …, -t`; `D` takes each basis state to the one with the next higher charge and annihilates the highest; `[Q, D] = D`;
the phase-slip displacement is the identity.  `E, V` is any diagonalisation of the flux operator. -/
theorem C37_charge_basis_partial (t : ℕ) (q : Fin (2 * t + 1) → ℝ) (s : Fin (2 * t + 1) → Fin (2 * t + 1) → ℂ) (E : Fin (2 * t + 1) → ℝ)
    (V : Op (2 * t + 1)) (hs : IsEigenstates (-(numOp (2 * t + 1) t)) q s) (hphase : ∀ i j, s i (Fin.rev i) = s j (Fin.rev j))
    (hE : IsEigh (fourierOp t s) E V) :
    let B := chargeBasis t q s E V
    B.Q = diagonal (fun m : Fin (2 * t + 1) => ((t : ℂ) - (m : ℕ))) ∧
    (∀ m m', B.D m m' = if (m' : ℕ) = m + 1 then 1 else 0) ∧ B.Ddag = B.Dᴴ ∧
    B.Q * B.D - B.D * B.Q = B.D ∧
    (∀ (m : ℕ) (hm : m + 1 < 2 * t + 1), B.D *ᵥ Pi.single ⟨m + 1, hm⟩ 1 = Pi.single ⟨m, by omega⟩ 1) ∧
    B.D *ᵥ Pi.single ⟨0, by omega⟩ 1 = 0 ∧
    B.S = 1 ∧ B.Sdag = 1 := by
  intro B
  obtain ⟨u, hu, hsu, hD, hQ, hS⟩ := C37_any_phases t q s E V hs hE
  have hone : ∀ m m', u m * star (u m') = 1 := by
    intro m m'
    have : u m = u m' := by
      have := hphase (Fin.rev m) (Fin.rev m')
      rw [hsu, hsu] at this
      simpa using this
    rw [this]; exact conj_unit (hu m')
  have hD' : ∀ m m', B.D m m' = if (m' : ℕ) = m + 1 then 1 else 0 := by
    intro m m'
    have := hD m m'
    rw [hone] at this
    simpa using this
  refine ⟨hQ, hD', rfl, ?_, ?_, ?_, hS, ?_⟩
  · show (chargeBasis t q s E V).Q * B.D - B.D * (chargeBasis t q s E V).Q = B.D
    rw [hQ]
    ext m m'
    rw [Matrix.sub_apply, diagonal_mul, mul_diagonal, hD']
    split_ifs with h
    · rw [h]; push_cast; ring
    · ring
  · intro m hm
    ext k
    rw [mulVec_single_one, col_apply, hD']
    by_cases hk : (k : ℕ) = m
    · rw [if_pos (by simp [hk])]
      have : k = ⟨m, by omega⟩ := Fin.ext hk
      rw [this, Pi.single_eq_same]
    · rw [if_neg (by simp; omega), Pi.single_eq_of_ne (fun hh => hk (congrArg Fin.val hh))]
  · ext k
    rw [mulVec_single_one, col_apply, hD', if_neg (by simp)]
    rfl
  · show ((chargeBasis t q s E V).S)ᴴ = 1
    rw [hS, conjTranspose_one]

/-- The hypotheses are met for every truncation. -/
theorem charge_diagonalisation (t : ℕ) (u : Fin (2 * t + 1) → ℂ) (hu : ∀ m, ‖u m‖ = 1) :
    ∃ q E V, IsEigenstates (-(numOp (2 * t + 1) t)) q (fun j => Pi.single (Fin.rev j) (u (Fin.rev j))) ∧
      IsEigh (fourierOp t fun j => Pi.single (Fin.rev j) (u (Fin.rev j))) E V := by
  obtain ⟨h1, _⟩ := fourier_eigh t 1 (Or.inl rfl) u hu Fin.rev Fin.rev_rev (rev_shift t)
  refine ⟨fun j => -((Fin.rev j : ℕ) + t : ℝ), _, _, ?_, h1⟩
  rw [neg_num]
  refine ⟨?_, ?_, ?_⟩
  · intro i j hij
    exact (neg_num_anti (2 * t + 1) t).antitone (Fin.rev_le_rev.2 hij)
  · intro j
    ext m
    rw [mulVec_diagonal, Pi.smul_apply, smul_eq_mul]
    by_cases hm : m = Fin.rev j
    · subst hm; rfl
    · rw [Pi.single_eq_of_ne hm]; simp
  · intro i j
    unfold dotProduct
    by_cases hij : i = j
    · subst hij
      rw [if_pos rfl, Finset.sum_eq_single (Fin.rev i)]
      · rw [Pi.star_apply, Pi.single_eq_same, mul_comm]; exact conj_unit (hu _)
      · intro b _ hb; rw [Pi.single_eq_of_ne hb]; simp
      · simp
    · rw [if_neg hij]
      apply Finset.sum_eq_zero
      intro b _
      by_cases hb : b = Fin.rev j
      · rw [Pi.star_apply, Pi.single_eq_of_ne (show b ≠ Fin.rev i from fun hh => hij (Fin.rev_injective (hh.symm.trans hb)))]; simp
      · rw [Pi.single_eq_of_ne hb]; simp

example (t : ℕ) : ∃ q s E V, IsEigenstates (-(numOp (2 * t + 1) t)) q s ∧ (∀ i j, s i (Fin.rev i) = s j (Fin.rev j)) ∧
    IsEigh (fourierOp t s) E V := by
  obtain ⟨q, E, V, h1, h2⟩ := charge_diagonalisation t (fun _ => 1) (by simp)
  exact ⟨q, _, E, V, h1, by simp, h2⟩

/-- **C37** is false if the diagonaliser of the number operator picks unequal signs: the displacement then connects the two edge
states, with the element `-2`. -/
theorem C37_phase_false : ∃ q s E V, IsEigenstates (-(numOp (2 * 1 + 1) 1)) q s ∧ IsEigh (fourierOp 1 s) E V ∧
    (chargeBasis 1 q s E V).D 2 0 = -2 := by
  obtain ⟨q, E, V, h1, h2⟩ := charge_diagonalisation 1 (fun m => if m = 0 then -1 else 1) (by intro m; split_ifs <;> simp)
  refine ⟨q, _, E, V, h1, h2, ?_⟩
  obtain ⟨u, _, hsu, hD, _⟩ := C37_any_phases 1 q _ E V h1 h2
  have hu : ∀ m, u m = if m = 0 then -1 else 1 := by
    intro m
    have := congrFun (hsu (Fin.rev m)) m
    rw [Fin.rev_rev, Pi.single_eq_same, Pi.single_eq_same] at this
    exact this.symm
  rw [hD, hu 2, hu 0, if_neg (show ¬ (2 : Fin 3) = 0 by decide), if_pos rfl]
  norm_num

/-! ### C38: the oscillator basis -/

theorem create_apply (n : ℕ) (i j : Fin n) : create n i j = if (i : ℕ) = j + 1 then ((Real.sqrt i : ℝ) : ℂ) else 0 := by
  unfold create
  rw [conjTranspose_apply]
  unfold destroy
  split_ifs
  · rw [Complex.star_def, Complex.conj_ofReal]
  · simp

/-- `a a†` on `n` levels. -/
theorem destroy_mul_create (n : ℕ) : destroy n * create n = diagonal fun k : Fin n => if (k : ℕ) = n - 1 then 0 else ((k : ℕ) + 1 : ℂ) := by
  have hsq : ∀ k : ℕ, ((Real.sqrt k : ℝ) : ℂ) * ((Real.sqrt k : ℝ) : ℂ) = k := by
    intro k
    rw [← Complex.ofReal_mul, Real.mul_self_sqrt (by positivity)]; simp
  ext i j
  rw [Matrix.mul_apply]
  by_cases hi : (i : ℕ) + 1 < n
  · rw [Finset.sum_eq_single ⟨i + 1, hi⟩]
    · rw [create_apply]
      unfold destroy
      rw [if_pos rfl]
      by_cases hij : i = j
      · subst hij
        rw [if_pos rfl, hsq, diagonal_apply_eq, if_neg (by omega)]
        push_cast; ring
      · rw [if_neg (fun hh => hij (Fin.ext (by simpa using hh))), mul_zero, diagonal_apply_ne _ hij]
    · intro b _ hb
      unfold destroy
      rw [if_neg (fun hh => hb (Fin.ext hh)), zero_mul]
    · simp
  · rw [Finset.sum_eq_zero]
    · by_cases hij : i = j
      · subst hij
        rw [diagonal_apply_eq, if_pos (by omega)]
      · rw [diagonal_apply_ne _ hij]
    · intro b _
      unfold destroy
      have := b.2
      rw [if_neg (by omega), zero_mul]

/-- `a† a` on `n` levels. -/
theorem create_mul_destroy (n : ℕ) : create n * destroy n = diagonal fun k : Fin n => ((k : ℕ) : ℂ) := by
  have hsq : ∀ k : ℕ, ((Real.sqrt k : ℝ) : ℂ) * ((Real.sqrt k : ℝ) : ℂ) = k := by
    intro k
    rw [← Complex.ofReal_mul, Real.mul_self_sqrt (by positivity)]; simp
  ext i j
  rw [Matrix.mul_apply]
  by_cases hi : (i : ℕ) = 0
  · rw [Finset.sum_eq_zero]
    · by_cases hij : i = j
      · subst hij; rw [diagonal_apply_eq, hi]; simp
      · rw [diagonal_apply_ne _ hij]
    · intro b _
      rw [create_apply, if_neg (by omega), zero_mul]
  · have hlt : (i : ℕ) - 1 < n := by have := i.2; omega
    rw [Finset.sum_eq_single ⟨i - 1, hlt⟩]
    · rw [create_apply, if_pos (by simp; omega)]
      unfold destroy
      by_cases hij : i = j
      · subst hij
        rw [if_pos (by simp; omega), hsq, diagonal_apply_eq]
      · rw [if_neg, mul_zero, diagonal_apply_ne _ hij]
        intro hh
        apply hij
        ext
        simp at hh
        omega
    · intro b _ hb
      rw [create_apply, if_neg, zero_mul]
      intro hh
      apply hb
      ext
      simp; omega
    · simp

/-- `[a, a†]` on `n` levels: the identity except for the last level. -/
theorem ladder_commutator (n : ℕ) :
    destroy n * create n - create n * destroy n = 1 - diagonal fun k : Fin n => if (k : ℕ) = n - 1 then (n : ℂ) else 0 := by
  rw [destroy_mul_create, create_mul_destroy, ← diagonal_one, diagonal_sub, diagonal_sub]
  congr 1
  ext k
  have := k.2
  split_ifs with hk
  · have : ((k : ℕ) : ℂ) + 1 = n := by exact_mod_cast (by omega : (k : ℕ) + 1 = n)
    rw [← this]; ring
  · ring

/-- **C38** The charge and flux operators of the oscillator basis are Hermitian. -/
theorem C38_hermitian (n : ℕ) (Z pq pp : ℝ) : (oscQ n Z pq)ᴴ = oscQ n Z pq ∧ (oscP n Z pp)ᴴ = oscP n Z pp := by
  have hc : (create n)ᴴ = destroy n := by unfold create; rw [conjTranspose_conjTranspose]
  have hd : (destroy n)ᴴ = create n := rfl
  constructor
  · unfold oscQ
    rw [conjTranspose_smul, conjTranspose_sub, hc, hd]
    have : star (I * ((Real.sqrt (1 / (2 * Z)) : ℝ) : ℂ) * (pq : ℂ)) = -(I * ((Real.sqrt (1 / (2 * Z)) : ℝ) : ℂ) * (pq : ℂ)) := by
      rw [Complex.star_def]; simp only [map_mul, Complex.conj_I, Complex.conj_ofReal]; ring
    rw [this, ← neg_sub, smul_neg, neg_smul, neg_neg]
  · unfold oscP
    rw [conjTranspose_smul, conjTranspose_add, hc, hd]
    have : star (((Real.sqrt (Z / 2) : ℝ) : ℂ) * (pp : ℂ)) = ((Real.sqrt (Z / 2) : ℝ) : ℂ) * (pp : ℂ) := by
      rw [Complex.star_def]; simp only [map_mul, Complex.conj_ofReal]
    rw [this, add_comm]

/-- **C38** The commutator of flux and charge is `i` (times the unit prefactors) on every level but the last, where it is `i (1 - n)`. -/
theorem C38_commutator (n : ℕ) (Z pq pp : ℝ) (hZ : 0 < Z) :
    oscP n Z pp * oscQ n Z pq - oscQ n Z pq * oscP n Z pp =
      (I * pq * pp) • diagonal fun k : Fin n => if (k : ℕ) = n - 1 then (1 - n : ℂ) else 1 := by
  have hxy : ((Real.sqrt (1 / (2 * Z)) : ℝ) : ℂ) * ((Real.sqrt (Z / 2) : ℝ) : ℂ) = 1 / 2 := by
    rw [← Complex.ofReal_mul, ← Real.sqrt_mul (by positivity)]
    have : 1 / (2 * Z) * (Z / 2) = (1 / 2) ^ 2 := by field_simp
    rw [this, Real.sqrt_sq (by norm_num)]
    norm_num
  have hdiag : (diagonal fun k : Fin n => if (k : ℕ) = n - 1 then (1 - n : ℂ) else 1) =
      1 - diagonal fun k : Fin n => if (k : ℕ) = n - 1 then (n : ℂ) else 0 := by
    rw [← diagonal_one, diagonal_sub]
    congr 1
    ext k
    split_ifs <;> ring
  rw [hdiag, ← ladder_commutator]
  unfold oscP oscQ
  simp only [smul_mul_smul_comm]
  have e : (((Real.sqrt (Z / 2) : ℝ) : ℂ) * (pp : ℂ)) * (I * ((Real.sqrt (1 / (2 * Z)) : ℝ) : ℂ) * (pq : ℂ)) = (I * pq * pp) * (1 / 2) := by
    rw [← hxy]; ring
  have e' : (I * ((Real.sqrt (1 / (2 * Z)) : ℝ) : ℂ) * (pq : ℂ)) * (((Real.sqrt (Z / 2) : ℝ) : ℂ) * (pp : ℂ)) = (I * pq * pp) * (1 / 2) := by
    rw [← hxy]; ring
  rw [e, e', ← smul_sub, mul_smul]
  congr 1
  have : (create n + destroy n) * (create n - destroy n) - (create n - destroy n) * (create n + destroy n) =
      (2 : ℂ) • (destroy n * create n - create n * destroy n) := by
    rw [two_smul]; noncomm_ring
  rw [this, smul_smul]; norm_num

/-- **C38** `getCommutator` gives `i` times the identity for two or more levels (and raises for a single one). -/
theorem C38_getCommutator (n : ℕ) (Z pq pp : ℝ) (hZ : 0 < Z) :
    (2 ≤ n → getCommutatorOsc (oscQ n Z pq) (oscP n Z pp) = some ((I * pq * pp) • 1)) ∧
    (n = 1 → getCommutatorOsc (oscQ n Z pq) (oscP n Z pp) = none) := by
  have hdiag : (1 - diagonal fun k : Fin n => if (k : ℕ) = n - 1 then (n : ℂ) else 0 : Op n) =
      diagonal fun k : Fin n => if (k : ℕ) = n - 1 then (1 - n : ℂ) else 1 := by
    rw [← diagonal_one, diagonal_sub]
    congr 1
    ext k
    split_ifs <;> ring
  constructor
  · intro hn
    have hne : ∀ k : Fin n, (if (k : ℕ) = n - 1 then (1 - n : ℂ) else 1) ≠ 0 := by
      intro k
      split_ifs
      · intro hh
        have : (n : ℂ) = 1 := (sub_eq_zero.1 hh).symm
        have : n = 1 := by exact_mod_cast this
        omega
      · exact one_ne_zero
    have hdet : (diagonal fun k : Fin n => if (k : ℕ) = n - 1 then (1 - n : ℂ) else 1).det ≠ 0 := by
      rw [det_diagonal, Finset.prod_ne_zero_iff]
      exact fun k _ => hne k
    unfold getCommutatorOsc
    simp only [hdiag]
    rw [if_neg hdet, C38_commutator n Z pq pp hZ, Matrix.smul_mul, Matrix.mul_nonsing_inv _ (isUnit_iff_ne_zero.2 hdet)]
  · intro hn
    subst hn
    unfold getCommutatorOsc
    rw [if_pos]
    simp

/-- **C38** The displacement operators of the oscillator basis are the exponentials of `i` times the scaled flux and charge operators,
whatever eigenvectors the diagonaliser returns, and they are unitary. -/
theorem C38_displacement {n : ℕ} (M : Op n) (E : Fin n → ℝ) (V : Op n) (h : IsEigh M E V) :
    oscDisp E V = NormedSpace.exp (I • M) ∧ oscDisp E V ∈ unitaryGroup (Fin n) ℂ := by
  have u1 : V * Vᴴ = 1 := mem_unitaryGroup_iff.1 h.unitary
  have hu : IsUnit V := (Matrix.isUnit_iff_isUnit_det V).2 (by
    have : V.det * Vᴴ.det = 1 := by rw [← det_mul, u1, det_one]
    exact IsUnit.of_mul_eq_one _ this)
  constructor
  · rw [h.spec, ← h.inv, ← Matrix.smul_mul, ← Matrix.mul_smul, Matrix.exp_conj V _ hu]
    unfold oscDisp expEigh
    rw [← diagonal_smul, Matrix.exp_diagonal]
    congr 3
    ext k
    simp [Pi.coe_exp, Complex.exp_eq_exp_ℂ]
  · unfold oscDisp expEigh
    rw [h.inv]
    refine mul_mem (mul_mem h.unitary ?_) ?_
    · rw [mem_unitaryGroup_iff, Matrix.star_eq_conjTranspose, diagonal_conjTranspose, diagonal_mul_diagonal, ← diagonal_one]
      congr 1
      ext k
      rw [Pi.star_apply, Complex.star_def, ← Complex.exp_conj, ← Complex.exp_add]
      simp
    · rw [mem_unitaryGroup_iff, Matrix.star_eq_conjTranspose, conjTranspose_conjTranspose]
      exact mem_unitaryGroup_iff'.1 h.unitary

/-- The two facts of `C38_displacement` are about diagonalisations that exist. -/
example (n : ℕ) (Z p a f h : ℝ) : ∃ E V, IsEigh (oscPp n Z p a f h) E V := by
  have hH : (oscPp n Z p a f h).IsHermitian := by
    unfold oscPp
    show _ᴴ = _
    rw [conjTranspose_smul, (C38_hermitian n Z p p).2, Complex.star_def, Complex.conj_ofReal]
  exact ⟨hH.eigenvalues, hH.eigenvectorUnitary, hH.eigenvectorUnitary.2, by simpa [Function.comp_def, Matrix.star_eq_conjTranspose] using hH.spectral_theorem⟩

/-! ### C62: the flux bases -/

theorem countOp_eq (t : ℕ) : countOp t = diagonal fun m : Fin (2 * t + 1) => (((t : ℝ) - (m : ℕ) : ℝ) : ℂ) := by
  unfold countOp numOp
  rw [Matrix.diagonal_neg, smul_one_eq_diagonal, diagonal_add]
  congr 1
  ext m
  simp
  ring

theorem corner_apply (t : ℕ) (m m' : Fin (2 * t + 1)) :
    (ketbra (⟨2 * t, by omega⟩ : Fin (2 * t + 1)) ⟨0, by omega⟩) m m' = if (m : ℕ) = 2 * t ∧ (m' : ℕ) = 0 then 1 else 0 := by
  unfold ketbra
  simp only [Fin.ext_iff]

theorem eigh_diagonal {n : ℕ} (d : Fin n → ℝ) : IsEigh (diagonal fun k => (d k : ℂ)) d 1 :=
  ⟨one_mem _, by simp⟩

/-- **C62** (partial) The flux basis of every truncation: fluxes `t, …, -t`; the phase-slip displacement moves the flux by one, up to
phases; the Josephson displacement is the identity except for a spurious element between the two edge states.  Missing: without that
element it would be `exp(-2πi P)`, which is the identity on whole flux quanta (`C62_false`). -/
theorem C62_flux_basis_partial (t : ℕ) (q : Fin (2 * t + 1) → ℝ) (s : Fin (2 * t + 1) → Fin (2 * t + 1) → ℂ) (E E' : Fin (2 * t + 1) → ℝ)
    (V V' : Op (2 * t + 1)) (hs : IsEigenstates (countOp t) q s) (hphase : ∀ i j, s i (Fin.rev i) = s j (Fin.rev j))
    (hE : IsEigh (countOp t) E V) (hE' : IsEigh (fourierOp t s) E' V') :
    let B := fluxBasis t s E V E' V'
    B.P = diagonal (fun m : Fin (2 * t + 1) => ((t : ℂ) - (m : ℕ))) ∧
    (∀ m m', B.S m m' = if (m' : ℕ) = m + 1 then 1 else 0) ∧ B.P * B.S - B.S * B.P = B.S ∧
    (∀ m m', B.D m m' = (if m = m' then 1 else 0) - if (m : ℕ) = 2 * t ∧ (m' : ℕ) = 0 then 1 else 0) ∧
    expEigh (-(2 * I * Real.pi)) E V = 1 := by
  intro B
  rw [countOp_eq] at hs hE
  have hanti : StrictAnti fun m : Fin (2 * t + 1) => (t : ℝ) - (m : ℕ) := by
    intro i j hij
    have : ((i : ℕ) : ℝ) < (j : ℕ) := by exact_mod_cast hij
    show (t : ℝ) - (j : ℕ) < t - (i : ℕ)
    linarith
  obtain ⟨u, hu, hq, hsu⟩ := eigenstates_anti _ hanti hs
  have hone : ∀ m m', u m * star (u m') = 1 := by
    intro m m'
    have : u m = u m' := by
      have := hphase (Fin.rev m) (Fin.rev m')
      rw [hsu, hsu] at this
      simpa using this
    rw [this]; exact conj_unit (hu m')
  have hP : B.P = diagonal (fun m : Fin (2 * t + 1) => ((t : ℂ) - (m : ℕ))) := by
    show countOp t = _
    rw [countOp_eq]
    congr 1; ext m; push_cast; rfl
  have hS : ∀ m m', B.S m m' = if (m' : ℕ) = m + 1 then 1 else 0 := by
    intro m m'
    have hs' : s = fun j => Pi.single (Fin.rev j) (u (Fin.rev j)) := funext hsu
    obtain ⟨h1, h2⟩ := fourier_eigh t 1 (Or.inl rfl) u hu Fin.rev Fin.rev_rev (rev_shift t)
    rw [hs'] at hE'
    have e1 := expEigh_eq hE' h1 (-(2 * I * Real.pi))
    have e2 := h2 (-1)
    have hcast : ∀ k : Fin (2 * t + 1), exp ((2 * I * Real.pi * ((-1 : ℤ) : ℂ)) * ((((k : ℕ) - t : ℝ) / (2 * t + 1) : ℝ) : ℂ)) =
        exp (-(2 * I * Real.pi) * ((((k : ℕ) - t : ℝ) / (2 * t + 1) : ℝ) : ℂ)) := by
      intro k; congr 1; push_cast; ring
    simp only [hcast] at e2
    rw [e2] at e1
    show cornerDisp t E' V' m m' = _
    unfold cornerDisp
    rw [Matrix.sub_apply, e1, corner_apply]
    show (if _ then _ else _) - _ = _
    rw [hone]
    have hd := shift_dvd t m m'
    by_cases a : (m' : ℕ) = m + 1
    · rw [if_pos (hd.2 (Or.inl a)), if_neg (by omega), if_pos a]; ring
    · by_cases b : (m : ℕ) = 2 * t ∧ (m' : ℕ) = 0
      · rw [if_pos (hd.2 (Or.inr b)), if_pos b, if_neg a]; ring
      · rw [if_neg (fun hh => (hd.1 hh).elim a b), if_neg b, if_neg a]; ring
  have hexp : expEigh (-(2 * I * Real.pi)) E V = 1 := by
    rw [expEigh_eq hE (eigh_diagonal _), conjTranspose_one, Matrix.mul_one, Matrix.one_mul, ← diagonal_one]
    congr 1
    ext k
    rw [Complex.exp_eq_one_iff]
    refine ⟨(k : ℕ) - t, ?_⟩
    push_cast
    ring
  refine ⟨hP, hS, ?_, ?_, hexp⟩
  · rw [hP]
    ext m m'
    rw [Matrix.sub_apply, diagonal_mul, mul_diagonal, hS]
    split_ifs with h
    · rw [h]; push_cast; ring
    · ring
  · intro m m'
    show cornerDisp t E V m m' = _
    unfold cornerDisp
    rw [Matrix.sub_apply, hexp, corner_apply, Matrix.one_apply]

theorem flux_diagonalisation (t : ℕ) : ∃ q s E V E' V', IsEigenstates (countOp t) q s ∧ (∀ i j, s i (Fin.rev i) = s j (Fin.rev j)) ∧
    IsEigh (countOp t) E V ∧ IsEigh (fourierOp t s) E' V' := by
  obtain ⟨h1, _⟩ := fourier_eigh t 1 (Or.inl rfl) (fun _ => 1) (by simp) Fin.rev Fin.rev_rev (rev_shift t)
  refine ⟨fun j => (t : ℝ) - (Fin.rev j : ℕ), _, _, 1, _, _, ?_, ?_, by rw [countOp_eq]; exact eigh_diagonal _, h1⟩
  · rw [countOp_eq]
    refine ⟨?_, ?_, ?_⟩
    · intro i j hij
      have : ((Fin.rev j : ℕ) : ℝ) ≤ (Fin.rev i : ℕ) := by exact_mod_cast Fin.rev_le_rev.2 hij
      linarith
    · intro j
      ext m
      rw [mulVec_diagonal, Pi.smul_apply, smul_eq_mul]
      by_cases hm : m = Fin.rev j
      · subst hm; rfl
      · rw [Pi.single_eq_of_ne hm]; simp
    · intro i j
      by_cases hij : i = j
      · subst hij; simp [dotProduct, Pi.single_apply]
      · rw [if_neg hij]
        simp only [dotProduct, Pi.star_apply, Pi.single_apply]
        apply Finset.sum_eq_zero
        intro b _
        by_cases hb : b = Fin.rev j
        · rw [if_neg (show b ≠ Fin.rev i from fun hh => hij (Fin.rev_injective (hh.symm.trans hb)))]; simp
        · rw [if_neg hb]; simp
  · intro i j; simp

/-- **C62** is false: for every truncation above zero, in every flux basis, the Josephson displacement has an element `-1` between the
two edge states although it should be diagonal, and it is not unitary. -/
theorem C62_false (t : ℕ) (ht : 0 < t) (s : Fin (2 * t + 1) → Fin (2 * t + 1) → ℂ) (E E' : Fin (2 * t + 1) → ℝ)
    (V V' : Op (2 * t + 1)) (hE : IsEigh (countOp t) E V) :
    (fluxBasis t s E V E' V').D ⟨2 * t, by omega⟩ ⟨0, by omega⟩ = -1 ∧ (fluxBasis t s E V E' V').D ∉ unitaryGroup (Fin (2 * t + 1)) ℂ := by
  have hexp : expEigh (-(2 * I * Real.pi)) E V = 1 := by
    rw [countOp_eq] at hE
    rw [expEigh_eq hE (eigh_diagonal _), conjTranspose_one, Matrix.mul_one, Matrix.one_mul, ← diagonal_one]
    congr 1
    ext k
    rw [Complex.exp_eq_one_iff]
    refine ⟨(k : ℕ) - t, ?_⟩
    push_cast
    ring
  have hD : ∀ m m', (fluxBasis t s E V E' V').D m m' = (if m = m' then 1 else 0) - if (m : ℕ) = 2 * t ∧ (m' : ℕ) = 0 then 1 else 0 := by
    intro m m'
    show cornerDisp t E V m m' = _
    unfold cornerDisp
    rw [Matrix.sub_apply, hexp, corner_apply, Matrix.one_apply]
  constructor
  · rw [hD, if_neg (by simp; omega), if_pos ⟨rfl, rfl⟩]; ring
  · intro hu
    have h1 := mem_unitaryGroup_iff'.1 hu
    have h2 := congrFun (congrFun h1 ⟨0, by omega⟩) ⟨2 * t, by omega⟩
    rw [Matrix.mul_apply, Matrix.one_apply_ne (by simp; omega), Finset.sum_eq_single ⟨2 * t, by omega⟩] at h2
    · rw [Matrix.star_apply, hD, hD, if_neg (by simp; omega), if_pos ⟨rfl, rfl⟩, if_pos rfl, if_neg (by simp; omega)] at h2
      norm_num at h2
    · intro b _ hb
      rw [hD b ⟨2 * t, by omega⟩, if_neg hb, if_neg (by simp; omega)]; simp
    · simp

example (t : ℕ) : ∃ q s E V E' V', IsEigenstates (countOp t) q s ∧ (∀ i j, s i (Fin.rev i) = s j (Fin.rev j)) ∧
    IsEigh (countOp t) E V ∧ IsEigh (fourierOp t s) E' V' := flux_diagonalisation t

/-- **C62** is false of the discretised flux basis too: the same spurious element appears. -/
theorem C62_discretized_false (t : ℕ) (ht : 0 < t) (pmax : ℝ) (s : Fin (2 * t + 1) → Fin (2 * t + 1) → ℂ) (E E' : Fin (2 * t + 1) → ℝ)
    (V V' : Op (2 * t + 1)) (hE : IsEigh (diagonal fun k => (fluxGrid t pmax k : ℂ)) E V) :
    ∃ B, discretizedFluxBasis t pmax s E V E' V' = some B ∧ B.P = diagonal (fun k => (fluxGrid t pmax k : ℂ)) ∧
      (∀ m m', B.D m m' = (if m = m' then exp (-(2 * I * Real.pi) * fluxGrid t pmax m) else 0) -
        if (m : ℕ) = 2 * t ∧ (m' : ℕ) = 0 then 1 else 0) := by
  refine ⟨_, dif_neg (by omega), rfl, ?_⟩
  intro m m'
  show cornerDisp t E V m m' = _
  unfold cornerDisp
  rw [Matrix.sub_apply, corner_apply, expEigh_eq hE (eigh_diagonal _), conjTranspose_one, Matrix.mul_one, Matrix.one_mul, diagonal_apply]

example (t : ℕ) (pmax : ℝ) : ∃ E V, IsEigh (diagonal fun k => (fluxGrid t pmax k : ℂ)) E V := ⟨_, 1, eigh_diagonal _⟩

end Verif.Props
