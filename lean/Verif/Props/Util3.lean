import Verif.Props.Util2
import Mathlib.Tactic
import Mathlib.LinearAlgebra.Matrix.Hermitian

/-!
# Properties C49, C50 and C51: Pauli coefficients, permutation-matrix decomposition, stoquasticity
-/

set_option linter.unusedVariables false

namespace Verif.Props

open Verif Verif.Util

/-! ### C49 -/

theorem norm_one_mul {z : ℂ} (h : ‖z‖ = 1) : (starRingEnd ℂ) z * z = 1 := by
  rw [← Complex.normSq_eq_conj_mul_self, Complex.normSq_eq_norm_sq, h]; norm_num

theorem gauge_phase {z : ℂ} (h : z ≠ 0) : ‖((‖z‖ : ℝ) : ℂ) / z‖ = 1 := by
  rw [norm_div, Complex.norm_real, norm_norm, div_self (norm_ne_zero_iff.2 h)]

/-- The reduced Hamiltonian consists of the matrix elements of the Hamiltonian `diag(E0, E1)` between the operator's
eigenvectors (the columns of `Vl`), up to phases of the eigenvectors. -/
theorem C49_matrix_elements_partial (E0 E1 : ℝ) (Vl : Matrix (Fin 2) (Fin 2) ℂ) (hdef : pauliDefined Vl) :
    ∃ g : Fin 2 → ℂ, (∀ k, ‖g k‖ = 1 ∧ g k * Vl 0 k = ((‖Vl 0 k‖ : ℝ) : ℂ)) ∧
      ∀ k l, reduced E0 E1 Vl k l =
        ∑ i, (starRingEnd ℂ) (g k * Vl i k) * (![(E0 : ℂ), (E1 : ℂ)] i) * (g l * Vl i l) := by
  refine ⟨fun k => ((‖Vl 0 k‖ : ℝ) : ℂ) / Vl 0 k, ?_, ?_⟩
  · intro k
    exact ⟨gauge_phase (hdef k), div_mul_cancel₀ _ (hdef k)⟩
  · intro k l
    unfold reduced
    simp only [Matrix.mul_apply, Matrix.conjTranspose_apply, Fin.sum_univ_two, Fin.isValue, RCLike.star_def]
    unfold gaugeU
    simp
    ring

theorem gaugeU_unitary (Vl : Matrix (Fin 2) (Fin 2) ℂ) (hdef : pauliDefined Vl) (hV : Vl.conjTranspose * Vl = 1) :
    (gaugeU Vl).conjTranspose * gaugeU Vl = 1 := by
  ext k l
  have h := congrFun (congrFun hV k) l
  simp only [Matrix.mul_apply, Matrix.conjTranspose_apply, Fin.sum_univ_two, RCLike.star_def] at h ⊢
  unfold gaugeU
  simp only [map_mul]
  have e : ∀ a b : ℂ, ∀ x y z w : ℂ, (starRingEnd ℂ) a * x * (b * y) + (starRingEnd ℂ) a * z * (b * w) =
      ((starRingEnd ℂ) a * b) * (x * y + z * w) := by intros; ring
  rw [e, h]
  by_cases hkl : k = l
  · subst hkl
    rw [norm_one_mul (gauge_phase (hdef k)), one_mul]
  · rw [Matrix.one_apply_ne hkl, mul_zero]

theorem two_by_two (H : Matrix (Fin 2) (Fin 2) ℂ) (hH : H.conjTranspose = H) (hx hy hz : ℝ)
    (h1 : hx = ((1 / 2 : ℂ) * (H * sigmax).trace).re) (h2 : hy = ((1 / 2 : ℂ) * (H * sigmay).trace).re)
    (h3 : hz = ((1 / 2 : ℂ) * (H * sigmaz).trace).re) :
    H = (H.trace / 2) • (1 : Matrix (Fin 2) (Fin 2) ℂ) + (hx : ℂ) • sigmax + (hy : ℂ) • sigmay + (hz : ℂ) • sigmaz ∧
    ((hx ^ 2 + hy ^ 2 + hz ^ 2 : ℝ) : ℂ) = (H.trace / 2) ^ 2 - H.det := by
  have h00 : (starRingEnd ℂ) (H 0 0) = H 0 0 := by simpa using congrFun (congrFun hH 0) 0
  have h11 : (starRingEnd ℂ) (H 1 1) = H 1 1 := by simpa using congrFun (congrFun hH 1) 1
  have h10 : (starRingEnd ℂ) (H 0 1) = H 1 0 := by simpa using congrFun (congrFun hH 1) 0
  have i00 : (H 0 0).im = 0 := by have := congrArg Complex.im h00; simp at this; linarith
  have i11 : (H 1 1).im = 0 := by have := congrArg Complex.im h11; simp at this; linarith
  have r10 : (H 1 0).re = (H 0 1).re := by rw [← h10]; simp
  have i10 : (H 1 0).im = -(H 0 1).im := by rw [← h10]; simp
  have ex : hx = (H 0 1).re := by
    rw [h1]; simp [Matrix.trace, sigmax, Matrix.mul_apply, Fin.sum_univ_two, r10]; ring
  have ey : hy = -(H 0 1).im := by
    rw [h2]; simp [Matrix.trace, sigmay, Matrix.mul_apply, Fin.sum_univ_two, i10]; ring
  have ez : hz = ((H 0 0).re - (H 1 1).re) / 2 := by
    rw [h3]; simp [Matrix.trace, sigmaz, Matrix.mul_apply, Fin.sum_univ_two]; ring
  constructor
  · ext i j
    apply Complex.ext <;> fin_cases i <;> fin_cases j <;>
      simp [Matrix.trace, sigmax, sigmay, sigmaz, Fin.sum_univ_two, ex, ey, ez, i00, i11, r10, i10] <;> ring
  · rw [Matrix.det_fin_two]
    apply Complex.ext <;>
      simp [Matrix.trace, Fin.sum_univ_two, ex, ey, ez, i00, i11, r10, i10, pow_two] <;> ring

/-- C49 (proved part): for every pair of energies and every eigenvector matrix with non-zero first row, the
coefficients reconstruct the reduced Hamiltonian (whose trace part is the mean energy), which is Hermitian, and the
length of the field is half the energy gap. -/
theorem C49_coefficients_partial (E0 E1 : ℝ) (Vl : Matrix (Fin 2) (Fin 2) ℂ) (hdef : pauliDefined Vl)
    (hV : Vl.conjTranspose * Vl = 1) :
    let h := pauli E0 E1 Vl
    reduced E0 E1 Vl = (((E0 + E1) / 2 : ℝ) : ℂ) • (1 : Matrix (Fin 2) (Fin 2) ℂ) + (h.1 : ℂ) • sigmax
      + (h.2.1 : ℂ) • sigmay + (h.2.2 : ℂ) • sigmaz ∧
    Matrix.IsHermitian (reduced E0 E1 Vl) ∧
    h.1 ^ 2 + h.2.1 ^ 2 + h.2.2 ^ 2 = ((E1 - E0) / 2) ^ 2 := by
  have hU := gaugeU_unitary Vl hdef hV
  have hU' : gaugeU Vl * (gaugeU Vl).conjTranspose = 1 := mul_eq_one_comm.1 hU
  have hherm : (reduced E0 E1 Vl).conjTranspose = reduced E0 E1 Vl := by
    unfold reduced
    rw [Matrix.conjTranspose_mul, Matrix.conjTranspose_mul, Matrix.conjTranspose_conjTranspose, Matrix.mul_assoc]
    congr 2
    ext i j; fin_cases i <;> fin_cases j <;> simp
  have htr : (reduced E0 E1 Vl).trace = (E0 : ℂ) + E1 := by
    unfold reduced
    rw [Matrix.trace_mul_comm, Matrix.mul_assoc, hU', Matrix.mul_one]
    simp [Matrix.trace, Fin.sum_univ_two]
  have hdet : (reduced E0 E1 Vl).det = (E0 : ℂ) * E1 := by
    unfold reduced
    rw [Matrix.det_mul_comm, Matrix.mul_assoc, hU', Matrix.mul_one, Matrix.det_fin_two]
    simp
  obtain ⟨h1, h2⟩ := two_by_two (reduced E0 E1 Vl) hherm _ _ _ rfl rfl rfl
  refine ⟨?_, hherm, ?_⟩
  · conv_lhs => rw [h1]
    rw [htr]
    push_cast
    rfl
  · rw [htr, hdet] at h2
    have h3 : (((((pauli E0 E1 Vl).1 ^ 2 + (pauli E0 E1 Vl).2.1 ^ 2 + (pauli E0 E1 Vl).2.2 ^ 2 : ℝ)) : ℂ)) =
        ((((E1 - E0) / 2) ^ 2 : ℝ) : ℂ) := by
      refine h2.trans ?_
      push_cast
      ring
    exact_mod_cast h3

/-- C49 (gauge): the coefficients depend neither on the phases `g` with which the eigensolver returns the operator's
eigenvectors nor on the phases `p` of the two circuit eigenvectors. -/
theorem C49_phase_independent (E0 E1 : ℝ) (Vl Vl' : Matrix (Fin 2) (Fin 2) ℂ) (g p : Fin 2 → ℂ)
    (hg : ∀ k, ‖g k‖ = 1) (hp : ∀ i, ‖p i‖ = 1) (h : ∀ i k, Vl' i k = p i * Vl i k * g k) :
    pauli E0 E1 Vl' = pauli E0 E1 Vl := by
  have hred : reduced E0 E1 Vl' = reduced E0 E1 Vl := by
    have hgne : ∀ k, g k ≠ 0 := fun k => by
      intro h0; have := hg k; rw [h0, norm_zero] at this; norm_num at this
    have hpne : ∀ k, p k ≠ 0 := fun k => by
      intro h0; have := hp k; rw [h0, norm_zero] at this; norm_num at this
    have hU : ∀ i k, gaugeU Vl' i k = (p i / p 0) * gaugeU Vl i k := by
      intro i k
      unfold gaugeU
      rw [h 0 k, h i k, norm_mul, norm_mul, hp, hg, one_mul, mul_one]
      by_cases h0 : Vl 0 k = 0
      · simp [h0]
      · have := hgne k; have := hpne 0
        field_simp
    ext k l
    unfold reduced
    simp only [Matrix.mul_apply, Matrix.conjTranspose_apply, Fin.sum_univ_two, RCLike.star_def, hU]
    have hq : ∀ i, (starRingEnd ℂ) (p i / p 0) * (p i / p 0) = 1 := by
      intro i
      apply norm_one_mul
      rw [norm_div, hp, hp, div_one]
    simp only [map_mul]
    simp
    have e0 := hq 0
    have e1 := hq 1
    simp only [map_div₀] at e0 e1
    linear_combination ((starRingEnd ℂ) (gaugeU Vl 0 k) * E0 * gaugeU Vl 0 l) * e0 +
      ((starRingEnd ℂ) (gaugeU Vl 1 k) * E1 * gaugeU Vl 1 l) * e1
  unfold pauli
  rw [hred]

/-- C49 is false when the computational operator is diagonal in the energy basis: the eigenvector matrix is then the
identity, a zero is divided by a zero, and the coefficients are not numbers. -/
theorem C49_false_diagonal_operator :
    ((1 : Matrix (Fin 2) (Fin 2) ℂ).conjTranspose * 1 = 1 ∧
      (!![1, 0; 0, 2] : Matrix (Fin 2) (Fin 2) ℂ) * 1 = 1 * !![1, 0; 0, 2]) ∧
    ¬ pauliDefined (1 : Matrix (Fin 2) (Fin 2) ℂ) := by
  refine ⟨⟨by simp, by simp⟩, fun h => h 1 (by simp)⟩

/-- A unitary eigenvector matrix with complex entries and non-zero first row. -/
example : pauliDefined (!![3 / 5, 4 / 5; 4 / 5 * Complex.I, -3 / 5 * Complex.I] : Matrix (Fin 2) (Fin 2) ℂ) ∧
    (!![3 / 5, 4 / 5; 4 / 5 * Complex.I, -3 / 5 * Complex.I] : Matrix (Fin 2) (Fin 2) ℂ).conjTranspose *
      !![3 / 5, 4 / 5; 4 / 5 * Complex.I, -3 / 5 * Complex.I] = 1 := by
  constructor
  · intro k; fin_cases k <;> norm_num
  · ext i j
    fin_cases i <;> fin_cases j <;>
      simp [Matrix.mul_apply, Fin.sum_univ_two, map_ofNat] <;> ring_nf <;> simp [Complex.I_sq, map_ofNat] <;> norm_num

/-! ### C50 -/

section Perm

variable {M : ℕ} [NeZero M]

theorem permMat_apply (j r c : Fin M) : permMat M j r c = if j = r - c then 1 else 0 := by
  unfold permMat roll
  by_cases h : r - j = c
  · rw [if_pos h, if_pos (by rw [← h]; abel)]
  · rw [if_neg h, if_neg (fun h' => h (by rw [h']; abel))]

theorem permMat_transpose_mul (j : Fin M) : permMat M j * (permMat M j).transpose = 1 := by
  ext r c
  rw [Matrix.mul_apply]
  simp only [Matrix.transpose_apply]
  unfold permMat roll
  by_cases h : r = c
  · subst h
    rw [Matrix.one_apply_eq, Finset.sum_eq_single (r - j)]
    · simp
    · intro b _ hb; simp [hb.symm]
    · simp
  · rw [Matrix.one_apply_ne h, Finset.sum_eq_zero]
    intro b _
    by_cases h1 : r - j = b
    · rw [if_neg (c := c - j = b), mul_zero]
      intro h2; exact h (sub_left_injective (h1.trans h2.symm))
    · rw [if_neg h1, zero_mul]

theorem permMat_inv (j : Fin M) : (permMat M j)⁻¹ = (permMat M j).transpose :=
  Matrix.inv_eq_right_inv (permMat_transpose_mul j)

theorem sanEntry_zero (tol : ℝ) : sanEntry tol 0 = 0 := by
  unfold sanEntry; apply Complex.ext <;> simp

theorem diagMat_apply (tol : ℝ) (H : Matrix (Fin M) (Fin M) ℂ) (j r c : Fin M) :
    diagMat M tol H j r c = if r = c then sanEntry tol (H r (r - j)) else 0 := by
  unfold diagMat sanArray
  rw [permMat_inv, Matrix.mul_apply]
  simp only [Matrix.transpose_apply]
  have hh : ∀ k, hdot H (permMat M j) r k = if r - j = k then H r k else 0 := by
    intro k; unfold hdot permMat roll; simp only [mul_ite, mul_one, mul_zero]
  simp only [hh]
  rw [Finset.sum_eq_single (r - j)]
  · rw [if_pos rfl]
    unfold permMat roll
    by_cases h : r = c
    · subst h; simp
    · rw [if_neg h, if_neg (fun h' => h (sub_left_injective h').symm), mul_zero, sanEntry_zero]
  · intro b _ hb; rw [if_neg hb.symm, zero_mul]
  · simp

/-- C50 (coverage): every position of an `M × M` matrix is covered by exactly one of the `M` permutation matrices, which
are zero elsewhere. -/
theorem C50_cover (r c : Fin M) : ∃! j : Fin M, permMat M j r c = 1 ∧ ∀ j', j' ≠ j → permMat M j' r c = 0 := by
  refine ⟨r - c, ⟨by rw [permMat_apply, if_pos rfl], fun j' h => by rw [permMat_apply, if_neg h]⟩, ?_⟩
  rintro j ⟨h, _⟩
  rw [permMat_apply] at h
  by_contra hc
  rw [if_neg hc] at h
  exact zero_ne_one h

/-- C50 (reconstruction): every `D_j` is diagonal and the sum of the `D_j P_j` is the Hamiltonian, up to the
removal of entries below the tolerance. -/
theorem C50_reconstruct (tol : ℝ) (H : Matrix (Fin M) (Fin M) ℂ) :
    (∀ j r c, r ≠ c → diagMat M tol H j r c = 0) ∧
    ∑ j, diagMat M tol H j * permMat M j = sanArray tol H := by
  refine ⟨fun j r c h => by rw [diagMat_apply, if_neg h], ?_⟩
  ext r c
  rw [Matrix.sum_apply]
  have : ∀ j, (diagMat M tol H j * permMat M j) r c = if j = r - c then sanEntry tol (H r c) else 0 := by
    intro j
    rw [Matrix.mul_apply, Finset.sum_eq_single r]
    · rw [diagMat_apply, if_pos rfl, permMat_apply]
      by_cases h : j = r - c
      · rw [if_pos h, if_pos h, mul_one, h]; congr 2; abel
      · rw [if_neg h, if_neg h, mul_zero]
    · intro b _ hb; rw [diagMat_apply, if_neg hb.symm, zero_mul]
    · simp
  simp only [this, Finset.sum_ite_eq', Finset.mem_univ, if_true]
  rfl

end Perm

theorem mem_product {α : Type} (l : List α) : ∀ (q : ℕ) (s : List α),
    s ∈ product l q ↔ s.length = q ∧ ∀ x ∈ s, x ∈ l := by
  intro q
  induction q with
  | zero => intro s; cases s <;> simp [product]
  | succ q ih =>
    intro s
    unfold product
    rw [List.mem_flatMap]
    constructor
    · rintro ⟨x, hx, hs⟩
      obtain ⟨t, ht, rfl⟩ := List.mem_map.1 hs
      obtain ⟨h1, h2⟩ := (ih t).1 ht
      exact ⟨by simp [h1], by intro y hy; rcases List.mem_cons.1 hy with rfl | hy; exacts [hx, h2 y hy]⟩
    · rintro ⟨h1, h2⟩
      cases s with
      | nil => simp at h1
      | cons x t =>
        exact ⟨x, h2 x (by simp), List.mem_map.2 ⟨t, (ih t).2 ⟨by simpa using h1, fun y hy => h2 y (by simp [hy])⟩, rfl⟩⟩

theorem mem_shifts (M : ℕ) (k : ℤ) : k ∈ shifts M ↔ k ≠ 0 ∧ -(M : ℤ) < k ∧ k < M := by
  unfold shifts
  simp only [List.mem_append, List.mem_reverse, List.mem_map, List.mem_range]
  constructor
  · rintro (⟨i, hi, rfl⟩ | ⟨i, hi, rfl⟩) <;> omega
  · rintro ⟨h0, h1, h2⟩
    rcases lt_or_gt_of_ne h0 with h | h
    · left; exact ⟨(-k - 1).toNat, by omega, by omega⟩
    · right; exact ⟨(k - 1).toNat, by omega, by omega⟩

theorem zip_shifts (M : ℕ) : (shifts M).zip (shiftIdx M) = (shifts M).map fun k => (k, (k % (M : ℤ)).toNat) := by
  unfold shifts shiftIdx
  rw [List.zip_append (by simp), List.map_append]
  congr 1
  · apply List.ext_getElem
    · simp
    · intro i h1 h2
      simp only [List.length_zip, List.length_reverse, List.length_map, List.length_range, min_self] at h1
      simp only [List.getElem_zip, List.getElem_reverse, List.getElem_map, List.getElem_range, List.length_map,
        List.length_range, Prod.mk.injEq, true_and]
      have : (-(((M - 1 - 1 - i : ℕ) : ℤ) + 1)) % (M : ℤ) = (i : ℤ) + 1 := by
        rw [← Int.add_emod_right (-(((M - 1 - 1 - i : ℕ) : ℤ) + 1)) (M : ℤ), Int.emod_eq_of_lt (by omega) (by omega)]
        omega
      rw [this]; omega
  · apply List.ext_getElem
    · simp
    · intro i h1 h2
      simp only [List.length_zip, List.length_map, List.length_range, min_self] at h1
      simp only [List.getElem_zip, List.getElem_map, List.getElem_range, Prod.mk.injEq, true_and]
      rw [Int.emod_eq_of_lt (by omega) (by omega)]; omega

theorem lookup_map {f : ℤ → ℕ} : ∀ (l : List ℤ) (k : ℤ), k ∈ l → (l.map fun k => (k, f k)).lookup k = some (f k) := by
  intro l
  induction l with
  | nil => intro k h; simp at h
  | cons a l ih =>
    intro k h
    rw [List.map_cons, List.lookup_cons]
    by_cases hk : k = a
    · subst hk; simp
    · have : (k == a) = false := by simpa using hk
      rw [this]
      exact ih k (by simpa [hk] using h)

theorem kij_eq {M : ℕ} {k : ℤ} (h : k ∈ shifts M) : kij M k = some ((k % (M : ℤ)).toNat) := by
  unfold kij
  rw [zip_shifts, lookup_map _ _ h]

theorem filterMap_kij {M : ℕ} : ∀ (perm : List ℤ), (∀ k ∈ perm, k ∈ shifts M) →
    perm.filterMap (kij M) = perm.map fun k => (k % (M : ℤ)).toNat := by
  intro perm
  induction perm with
  | nil => intro _; rfl
  | cons k l ih =>
    intro h
    rw [List.filterMap_cons, kij_eq (h k (by simp)), ih fun x hx => h x (by simp [hx])]
    rfl

theorem shift_mod {M : ℕ} {k : ℤ} (h : k ∈ shifts M) :
    1 ≤ (k % (M : ℤ)).toNat ∧ (k % (M : ℤ)).toNat < M ∧ (M : ℤ) ∣ (((k % (M : ℤ)).toNat : ℕ) : ℤ) - k := by
  obtain ⟨h0, h1, h2⟩ := (mem_shifts M k).1 h
  have hM : (0 : ℤ) < M := by omega
  have ha := Int.emod_nonneg k hM.ne'
  have hb := Int.emod_lt_of_pos k hM
  have hd : (M : ℤ) ∣ k % M - k := by
    have h3 := Int.emod_add_mul_ediv k M
    exact ⟨-(k / M), by linarith⟩
  refine ⟨?_, by omega, ?_⟩
  · by_contra hc
    have : k % M = 0 := by omega
    have := Int.dvd_of_emod_eq_zero this
    rcases lt_or_gt_of_ne h0 with hk | hk
    · have := Int.le_of_dvd (by omega : 0 < -k) ((dvd_neg).2 this); omega
    · have := Int.le_of_dvd hk this; omega
  · rw [Int.toNat_of_nonneg ha]; exact hd

theorem sum_mod {M : ℕ} : ∀ (perm : List ℤ), (∀ k ∈ perm, k ∈ shifts M) →
    (M : ℤ) ∣ (((perm.map fun k => (k % (M : ℤ)).toNat).sum : ℕ) : ℤ) - perm.sum := by
  intro perm
  induction perm with
  | nil => intro _; simp
  | cons k l ih =>
    intro h
    have h1 := (shift_mod (h k (by simp))).2.2
    have h2 := ih fun x hx => h x (by simp [hx])
    simp only [List.map_cons, List.sum_cons]
    have := dvd_add h1 h2
    have e : ∀ a b c d : ℤ, a - b + (c - d) = a + c - (b + d) := by intros; ring
    rw [e] at this
    push_cast at this ⊢
    exact this

theorem exists_perm {M : ℕ} : ∀ (s : List ℕ) (t : ℕ), (∀ x ∈ s, 1 ≤ x ∧ x < M) → t ≤ s.length →
    ∃ perm : List ℤ, (∀ k ∈ perm, k ∈ shifts M) ∧ (perm.map fun k => (k % (M : ℤ)).toNat) = s ∧
      perm.sum = (s.sum : ℤ) - M * t := by
  intro s
  induction s with
  | nil => intro t _ ht; exact ⟨[], by simp, rfl, by simp at ht; simp [ht]⟩
  | cons x s ih =>
    intro t hs ht
    have hx := hs x (by simp)
    rcases t with _ | t
    · obtain ⟨perm, h1, h2, h3⟩ := ih 0 (fun y hy => hs y (by simp [hy])) (by omega)
      refine ⟨(x : ℤ) :: perm, ?_, ?_, ?_⟩
      · intro k hk
        rcases List.mem_cons.1 hk with rfl | hk
        · exact (mem_shifts M _).2 (by omega)
        · exact h1 k hk
      · rw [List.map_cons, h2, Int.emod_eq_of_lt (by omega) (by omega), Int.toNat_natCast]
      · rw [List.sum_cons, h3]; push_cast; simp
    · obtain ⟨perm, h1, h2, h3⟩ := ih t (fun y hy => hs y (by simp [hy])) (by simpa using ht)
      refine ⟨((x : ℤ) - M) :: perm, ?_, ?_, ?_⟩
      · intro k hk
        rcases List.mem_cons.1 hk with rfl | hk
        · exact (mem_shifts M _).2 (by omega)
        · exact h1 k hk
      · rw [List.map_cons, h2, Int.sub_emod_right, Int.emod_eq_of_lt (by omega) (by omega), Int.toNat_natCast]
      · rw [List.sum_cons, h3, List.sum_cons]; push_cast; ring

theorem foldl_dedup {α β : Type} [∀ (x : β) (l : List β), Decidable (x ∈ l)] (P : α → Prop) [DecidablePred P] (f : α → β) : ∀ (l : List α) (acc : List β),
    acc.Nodup → (l.foldl (fun seq a => if P a then (if f a ∈ seq then seq else seq ++ [f a]) else seq) acc).Nodup ∧
    ∀ s, s ∈ l.foldl (fun seq a => if P a then (if f a ∈ seq then seq else seq ++ [f a]) else seq) acc ↔
      s ∈ acc ∨ ∃ a ∈ l, P a ∧ f a = s := by
  intro l
  induction l with
  | nil => intro acc h; exact ⟨h, by simp⟩
  | cons a l ih =>
    intro acc h
    rw [List.foldl_cons]
    by_cases hP : P a
    · rw [if_pos hP]
      by_cases hm : f a ∈ acc
      · rw [if_pos hm]
        obtain ⟨h1, h2⟩ := ih acc h
        refine ⟨h1, fun s => ?_⟩
        rw [h2]
        constructor
        · rintro (h | ⟨b, hb, hp, he⟩)
          · exact Or.inl h
          · exact Or.inr ⟨b, by simp [hb], hp, he⟩
        · rintro (h | ⟨b, hb, hp, he⟩)
          · exact Or.inl h
          · rcases List.mem_cons.1 hb with rfl | hb
            · exact Or.inl (he ▸ hm)
            · exact Or.inr ⟨b, hb, hp, he⟩
      · rw [if_neg hm]
        obtain ⟨h1, h2⟩ := ih (acc ++ [f a]) (by
          rw [List.nodup_append]; refine ⟨h, by simp, ?_⟩
          intro x hx y hy; rw [List.mem_singleton] at hy; rintro rfl; exact hm (hy ▸ hx))
        refine ⟨h1, fun s => ?_⟩
        rw [h2, List.mem_append, List.mem_singleton]
        constructor
        · rintro ((h | rfl) | ⟨b, hb, hp, he⟩)
          · exact Or.inl h
          · exact Or.inr ⟨a, by simp, hP, rfl⟩
          · exact Or.inr ⟨b, by simp [hb], hp, he⟩
        · rintro (h | ⟨b, hb, hp, he⟩)
          · exact Or.inl (Or.inl h)
          · rcases List.mem_cons.1 hb with rfl | hb
            · exact Or.inl (Or.inr he.symm)
            · exact Or.inr ⟨b, hb, hp, he⟩
    · rw [if_neg hP]
      obtain ⟨h1, h2⟩ := ih acc h
      refine ⟨h1, fun s => ?_⟩
      rw [h2]
      constructor
      · rintro (h | ⟨b, hb, hp, he⟩)
        · exact Or.inl h
        · exact Or.inr ⟨b, by simp [hb], hp, he⟩
      · rintro (h | ⟨b, hb, hp, he⟩)
        · exact Or.inl h
        · rcases List.mem_cons.1 hb with rfl | hb
          · exact absurd hp hP
          · exact Or.inr ⟨b, hb, hp, he⟩

/-- C50 (sequences): the list of index sequences of length `q` contains, without repetition, exactly the sequences
of shifts between `1` and `M-1` whose sum is a multiple of `M`, i.e. that return to the starting state. -/
theorem C50_sequences (M q : ℕ) :
    (uniqueSequences M q).Nodup ∧
    ∀ s : List ℕ, s ∈ uniqueSequences M q ↔ s.length = q ∧ (∀ x ∈ s, 1 ≤ x ∧ x < M) ∧ M ∣ s.sum := by
  obtain ⟨h1, h2⟩ := foldl_dedup (fun perm : List ℤ => perm.sum = 0) (fun perm => perm.filterMap (kij M))
    (product (shifts M) q) [] List.nodup_nil
  refine ⟨h1, fun s => (h2 s).trans ?_⟩
  constructor
  · rintro (h | ⟨perm, hp, h0, rfl⟩)
    · simp at h
    · obtain ⟨hl, hm⟩ := (mem_product _ _ _).1 hp
      rw [filterMap_kij perm hm]
      refine ⟨by simp [hl], ?_, ?_⟩
      · intro x hx
        obtain ⟨k, hk, rfl⟩ := List.mem_map.1 hx
        exact ⟨(shift_mod (hm k hk)).1, (shift_mod (hm k hk)).2.1⟩
      · have := sum_mod perm hm
        rw [h0, sub_zero] at this
        exact_mod_cast this
  · rintro ⟨hl, hm, t', ht'⟩
    right
    obtain ⟨t, ht, htle⟩ : ∃ t, s.sum = M * t ∧ t ≤ s.length := by
      by_cases hM : M = 0
      · cases s with
        | nil => exact ⟨0, rfl, le_refl _⟩
        | cons x s => have := hm x (by simp); omega
      · refine ⟨t', ht', ?_⟩
        have hsum : s.sum ≤ s.length * M := by
          clear ht' hl
          induction s with
          | nil => simp
          | cons x s ih =>
            have := ih fun y hy => hm y (by simp [hy])
            have := (hm x (by simp)).2
            rw [List.sum_cons, List.length_cons, Nat.add_mul]; omega
        rw [ht', Nat.mul_comm] at hsum
        exact Nat.le_of_mul_le_mul_right hsum (by omega)
    obtain ⟨perm, h1, h2, h3⟩ := exists_perm s t hm htle
    refine ⟨perm, (mem_product _ _ _).2 ⟨?_, h1⟩, ?_, ?_⟩
    · rw [← hl, ← h2, List.length_map]
    · rw [h3, ht]; push_cast; ring
    · rw [filterMap_kij perm h1, h2]

/-- C50 (states): along a sequence of shifts the state after `k + 1` shifts is the starting state moved by their sum, modulo `M`; a sequence that is in the
list ends where it started. -/
theorem C50_states (M z0 : ℕ) (seq : List ℕ) :
    (stateIndices M z0 seq).length = seq.length ∧ (∀ k < seq.length, (stateIndices M z0 seq)[k]? = some ((z0 + (seq.take (k + 1)).sum) % M)) ∧
    (z0 < M → ∀ q, 0 < q → seq ∈ uniqueSequences M q → (stateIndices M z0 seq).getLast? = some z0) := by
  have h1 : ∀ z0, (stateIndices M z0 seq).length = seq.length := by
    induction seq with
    | nil => intro z0; rfl
    | cons x l ih => intro z0; rw [stateIndices, List.length_cons, List.length_cons, ih]
  have h2 : ∀ z0, ∀ k < seq.length, (stateIndices M z0 seq)[k]? = some ((z0 + (seq.take (k + 1)).sum) % M) := by
    clear h1
    induction seq with
    | nil => intro z0 k hk; simp at hk
    | cons x l ih =>
      intro z0 k hk
      rw [stateIndices]
      cases k with
      | zero => simp
      | succ k =>
        rw [List.getElem?_cons_succ, ih (z0 + x) k (by simpa using hk), List.take_succ_cons, List.sum_cons, Nat.add_assoc]
  refine ⟨h1 z0, h2 z0, fun hz q hq hs => ?_⟩
  obtain ⟨hl, _, t, ht⟩ := ((C50_sequences M q).2 seq).1 hs
  rw [List.getLast?_eq_getElem?, h1, h2 z0 _ (by omega), List.take_of_length_le (by omega), ht, Nat.add_mul_mod_self_left, Nat.mod_eq_of_lt hz]

/-- The three-state case at order three. -/
example : uniqueSequences 3 3 = [[1, 1, 1], [2, 2, 2]] := by decide

/-! ### C51 -/

theorem coefficient_error {M z0 : ℕ} {seq : List ℕ} (hs : seq ≠ []) (z : List (Fin M → ℂ))
    (D : ℕ → Matrix (Fin M) (Fin M) ℂ) : coefficient M z0 seq z D = .error .indexError := by
  cases seq with
  | nil => exact absurd rfl hs
  | cons a l =>
    unfold coefficient
    rw [stateIndices, List.zip_cons_cons, List.mapM_cons]
    cases hz : z[(a, (z0 + a) % M).2]? with
    | none => rfl
    | some zj =>
      simp only []
      have : mdot [NP.vec M (fun i => star (zj i)), NP.mat M M (D (a, (z0 + a) % M).1), NP.vec M zj] =
          .ok (.scalar (∑ i, star (zj i) * ∑ j, D a i j * zj j)) := by
        unfold mdot
        simp only [List.reverse_cons, List.reverse_nil, List.nil_append, List.cons_append, List.foldlM_cons, List.foldlM_nil,
          NP.dot, dif_pos, ok_bind, Fin.cast_refl, id, pure_eq_ok]
      rw [this]
      rfl

/-- C51 is false: for every Hamiltonian with at least two states, `isStoquastic` with any order list starting with two
(the default is `[2, 3]`) raises `IndexError`, whatever the eigensolver returns. -/
theorem C51_false_always_raises (M : ℕ) [NeZero M] (hM : 2 ≤ M) (H : Matrix (Fin M) (Fin M) ℂ)
    (eig : Matrix (Fin M) (Fin M) ℂ → List (Fin M → ℂ)) (rest : List ℕ) :
    isStoquastic M H eig (2 :: rest) = .error .indexError := by
  have hmem : [1, M - 1] ∈ uniqueSequences M 2 := by
    rw [(C50_sequences M 2).2]
    refine ⟨rfl, ?_, ?_⟩
    · intro x hx
      simp only [List.mem_cons, List.not_mem_nil, or_false] at hx
      omega
    · simp only [List.sum_cons, List.sum_nil]
      exact ⟨1, by omega⟩
  have hlen : ∀ s ∈ uniqueSequences M 2, s ≠ [] := by
    intro s hs
    have := (((C50_sequences M 2).2 s).1 hs).1
    intro h; simp [h] at this
  unfold isStoquastic
  obtain ⟨m, rfl⟩ : ∃ m, M = m + 1 := ⟨M - 1, by omega⟩
  rw [List.range_succ_eq_map]
  unfold checkOrder
  cases hu : uniqueSequences (m + 1) 2 with
  | nil => rw [hu] at hmem; simp at hmem
  | cons s l =>
    unfold checkSeqs
    rw [coefficient_error (hlen s (by rw [hu]; simp))]

/-- C51: `isStoquastic` never answers False, for any Hamiltonian and any list of orders: it returns True or raises
`IndexError`. -/
theorem C51_false_never_negative (M : ℕ) [NeZero M] (H : Matrix (Fin M) (Fin M) ℂ)
    (eig : Matrix (Fin M) (Fin M) ℂ → List (Fin M → ℂ)) (order : List ℕ) :
    isStoquastic M H eig order = .ok true ∨ isStoquastic M H eig order = .error .indexError := by
  have hseqs : ∀ z D z0 (l : List (List ℕ)), checkSeqs M z D z0 l = .ok true ∨ checkSeqs M z D z0 l = .error .indexError := by
    intro z D z0 l
    induction l with
    | nil => exact Or.inl rfl
    | cons s l ih =>
      unfold checkSeqs
      by_cases hs : s = []
      · subst hs
        have : coefficient M z0 [] z D = .ok 1 := rfl
        rw [this]
        simp only [Complex.one_re]
        rw [if_neg (by norm_num)]
        exact ih
      · rw [coefficient_error hs]; exact Or.inr rfl
  have hord : ∀ z D seqs (l : List ℕ), checkOrder M z D seqs l = .ok true ∨ checkOrder M z D seqs l = .error .indexError := by
    intro z D seqs l
    induction l with
    | nil => exact Or.inl rfl
    | cons a l ih =>
      unfold checkOrder
      rcases hseqs z D a seqs with h | h
      · rw [h]; exact ih
      · rw [h]; exact Or.inr rfl
  induction order with
  | nil => exact Or.inl rfl
  | cons q order ih =>
    unfold isStoquastic
    rcases hord (eig (diagMat M 1e-10 H 0)) (fun j => diagMat M 1e-10 H (Fin.ofNat M j)) (uniqueSequences M q)
      (List.range M) with h | h
    · rw [h]; exact ih
    · rw [h]; exact Or.inr rfl

/-- C51, the case that works: a one-state Hamiltonian is stoquastic at every positive order. -/
theorem C51_one_state_partial (H : Matrix (Fin 1) (Fin 1) ℂ) (eig : Matrix (Fin 1) (Fin 1) ℂ → List (Fin 1 → ℂ)) (order : List ℕ)
    (h : ∀ q ∈ order, 1 ≤ q) : isStoquastic 1 H eig order = .ok true := by
  induction order with
  | nil => rfl
  | cons q order ih =>
    unfold isStoquastic
    have hu : uniqueSequences 1 q = [] := by
      rw [List.eq_nil_iff_forall_not_mem]
      intro s hs
      obtain ⟨h1, h2, _⟩ := ((C50_sequences 1 q).2 s).1 hs
      have := h q (by simp)
      cases s with
      | nil => simp at h1; omega
      | cons x s => have := h2 x (by simp); omega
    rw [hu]
    exact ih fun q hq => h q (by simp [hq])

end Verif.Props
