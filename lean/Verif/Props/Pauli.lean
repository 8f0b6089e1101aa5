import Verif.Props.Util3
import Verif.Props.Observables
import Verif.Spec.Pauli

/-!
# C100: Pauli coefficients over a sweep
-/

namespace Verif.Props

open Verif Verif.Util Verif.Spec Verif.Num Matrix

theorem mapM_some {α β : Type} (f : α → Option β) (g : α → β) (l : List α) (h : ∀ x ∈ l, f x = some (g x)) : l.mapM f = some (l.map g) := by
  induction l with
  | nil => rfl
  | cons x l ih =>
    rw [List.mapM_cons, h x (by simp), ih fun y hy => h y (by simp [hy])]
    rfl

theorem subspaceOperators_spec {α : Type} (l : List α) (a b c d : α → ℂ) :
    createSubspaceOperators (l.map a) (l.map b) (l.map c) (l.map d) = some (l.map fun x => !![a x, b x; c x, d x]) := by
  unfold createSubspaceOperators
  rw [List.length_map]
  rw [mapM_some _ (fun i => if h : i < l.length then !![a l[i], b l[i]; c l[i], d l[i]] else 0) _ (fun i hi => by
    have hi := List.mem_range.1 hi
    simp [hi])]
  congr 1
  apply List.ext_getElem
  · simp
  · intro i h1 h2
    have : i < l.length := by simpa using h1
    simp [this]

/-- The coefficients at one point of the sweep. -/
theorem pauli_list {ι : Type} [Fintype ι] (eigh : Matrix (Fin 2) (Fin 2) ℂ → Matrix (Fin 2) (Fin 2) ℂ) (points : List (ℝ × ℝ × (ι → ℂ) × (ι → ℂ)))
    (F : ℝ × ℝ × (ι → ℂ) × (ι → ℂ) → Matrix (Fin 2) (Fin 2) ℂ) (basis : BasisOp ι)
    (hF : ∀ i (hi : i < points.length), opFunc points[i].2.2.1 points[i].2.2.2 i basis = some (F points[i])) :
    pauliCoefficients eigh points basis = some (points.map fun p => open Classical in if pauliDefined (eigh (F p)) then some (pauli p.1 p.2.1 (eigh (F p))) else none) := by
  unfold pauliCoefficients
  rw [mapM_some _ (fun q => open Classical in if pauliDefined (eigh (F q.1)) then some (pauli q.1.1 q.1.2.1 (eigh (F q.1))) else none) _ (fun q hq => by
    obtain ⟨p, i⟩ := q
    obtain ⟨hi, hp⟩ := List.mem_zipIdx' hq
    have := hF i hi
    rw [← hp] at this
    dsimp only
    rw [this]
    rfl)]
  congr 1
  have h := List.map_map (g := fun p => open Classical in if pauliDefined (eigh (F p)) then some (pauli p.1 p.2.1 (eigh (F p))) else none) (f := Prod.fst) (l := points.zipIdx)
  rw [List.zipIdx_map_fst] at h
  exact h.symm

/-- **C100** The operators on the two levels that `createSubspaceOperators` makes of the matrix elements of an operator give the same Pauli coefficients at every point of the sweep as
the operator itself. -/
theorem C100_elements {ι : Type} [Fintype ι] (eigh : Matrix (Fin 2) (Fin 2) ℂ → Matrix (Fin 2) (Fin 2) ℂ) (points : List (ℝ × ℝ × (ι → ℂ) × (ι → ℂ))) (O : Matrix ι ι ℂ) :
    ∃ l, createSubspaceOperators (points.map fun p => star p.2.2.1 ⬝ᵥ O.mulVec p.2.2.1) (points.map fun p => star p.2.2.1 ⬝ᵥ O.mulVec p.2.2.2)
        (points.map fun p => star p.2.2.2 ⬝ᵥ O.mulVec p.2.2.1) (points.map fun p => star p.2.2.2 ⬝ᵥ O.mulVec p.2.2.2) = some l ∧
      pauliCoefficients eigh points (.list l) = pauliCoefficients eigh points (.operator O) := by
  refine ⟨_, subspaceOperators_spec points _ _ _ _, ?_⟩
  rw [pauli_list eigh points (fun p => subspaceOperator O p.2.2.1 p.2.2.2) (.operator O) (fun _ _ => rfl),
    pauli_list eigh points (fun p => subspaceOperator O p.2.2.1 p.2.2.2) _ (fun i hi => by simp [opFunc, hi, subspaceOperator])]

/-- **C100** (partial) The same for the matrix elements that a sweep of currents or voltages returns (their real parts), if the operator and the states are real. -/
theorem C100_swept_partial {ι : Type} [Fintype ι] (eigh : Matrix (Fin 2) (Fin 2) ℂ → Matrix (Fin 2) (Fin 2) ℂ) (points : List (ℝ × ℝ × (ι → ℂ) × (ι → ℂ))) (O : Matrix ι ι ℂ)
    (hO : ∀ i j, (O i j).im = 0) (hp : ∀ p ∈ points, ∀ i, (p.2.2.1 i).im = 0 ∧ (p.2.2.2 i).im = 0) :
    ∃ l, createSubspaceOperators (points.map fun p => (matrixElement O p.2.2.1 p.2.2.1 : ℂ)) (points.map fun p => (matrixElement O p.2.2.1 p.2.2.2 : ℂ))
        (points.map fun p => (matrixElement O p.2.2.2 p.2.2.1 : ℂ)) (points.map fun p => (matrixElement O p.2.2.2 p.2.2.2 : ℂ)) = some l ∧
      pauliCoefficients eigh points (.list l) = pauliCoefficients eigh points (.operator O) := by
  have key : ∀ v w : ι → ℂ, (∀ i, (v i).im = 0) → (∀ i, (w i).im = 0) → (matrixElement O v w : ℂ) = star v ⬝ᵥ O.mulVec w := by
    intro v w hv hw
    have h1 : O = (Matrix.of fun i j => (O i j).re).map (fun x : ℝ => (x : ℂ)) := by ext i j; apply Complex.ext <;> simp [hO]
    have h2 : v = fun i => (((v i).re : ℝ) : ℂ) := by ext i; apply Complex.ext <;> simp [hv]
    have h3 : w = fun i => (((w i).re : ℝ) : ℂ) := by ext i; apply Complex.ext <;> simp [hw]
    rw [h1, h2, h3]
    exact C65_real_partial _ _ _
  obtain ⟨l, h1, h2⟩ := C100_elements eigh points O
  refine ⟨l, ?_, h2⟩
  rw [← h1]
  congr 1 <;> refine List.map_congr_left fun p hpp => ?_
  · exact key _ _ (fun i => (hp p hpp i).1) (fun i => (hp p hpp i).1)
  · exact key _ _ (fun i => (hp p hpp i).1) (fun i => (hp p hpp i).2)
  · exact key _ _ (fun i => (hp p hpp i).2) (fun i => (hp p hpp i).1)
  · exact key _ _ (fun i => (hp p hpp i).2) (fun i => (hp p hpp i).2)

/-! ### The eigenvectors of a 2 × 2 operator -/

theorem diag_eqs {M V : Matrix (Fin 2) (Fin 2) ℂ} {a b : ℝ} (h : M * V = V * !![(a : ℂ), 0; 0, (b : ℂ)]) (i k : Fin 2) :
    M i 0 * V 0 k + M i 1 * V 1 k = V i k * (![(a : ℂ), (b : ℂ)] k) := by
  have := congrFun (congrFun h i) k
  fin_cases k <;> simpa [Matrix.mul_apply, Fin.sum_univ_two] using this

theorem unit_column {V : Matrix (Fin 2) (Fin 2) ℂ} (h : V.conjTranspose * V = 1) (k : Fin 2) : ‖V 0 k‖ ^ 2 + ‖V 1 k‖ ^ 2 = 1 := by
  have := congrFun (congrFun h k) k
  rw [Matrix.one_apply_eq, Matrix.mul_apply, Fin.sum_univ_two, conjTranspose_apply, conjTranspose_apply] at this
  simp only [RCLike.star_def, Complex.conj_mul'] at this
  exact_mod_cast this

theorem coupled_defined {M V : Matrix (Fin 2) (Fin 2) ℂ} (hd : Diagonalises M V) (hM : M 0 1 ≠ 0) : pauliDefined V := by
  obtain ⟨a, b, -, hu, h⟩ := hd
  intro k h0
  have h1 := diag_eqs h 0 k
  rw [h0, mul_zero, zero_add, zero_mul] at h1
  have h2 := (mul_eq_zero.1 h1).resolve_left hM
  have := unit_column hu k
  rw [h0, h2] at this
  norm_num at this

theorem uncoupled_undefined {M V : Matrix (Fin 2) (Fin 2) ℂ} (hd : Diagonalises M V) (h01 : M 0 1 = 0) (h10 : M 1 0 = 0) (hM : M 0 0 ≠ M 1 1) : ¬ pauliDefined V := by
  obtain ⟨a, b, -, hu, h⟩ := hd
  intro hdef
  have e : ∀ k, V 1 k = 0 := by
    intro k
    have h0 := diag_eqs h 0 k
    have h1 := diag_eqs h 1 k
    rw [h01, zero_mul, add_zero] at h0
    rw [h10, zero_mul, zero_add] at h1
    by_contra hv
    apply hM
    have e0 : M 0 0 = ![(a : ℂ), (b : ℂ)] k := mul_right_cancel₀ (hdef k) (h0.trans (mul_comm _ _))
    have e1 : M 1 1 = ![(a : ℂ), (b : ℂ)] k := mul_right_cancel₀ hv (h1.trans (mul_comm _ _))
    rw [e0, e1]
  have h2 := congrFun (congrFun hu 0) 1
  rw [Matrix.mul_apply, Fin.sum_univ_two, conjTranspose_apply, conjTranspose_apply, e 0, e 1, mul_zero, add_zero, Matrix.one_apply_ne (by decide)] at h2
  rcases mul_eq_zero.1 h2 with h3 | h3
  · exact hdef 0 (star_eq_zero.1 h3)
  · exact hdef 1 h3

theorem same_eigenvalues {M V W : Matrix (Fin 2) (Fin 2) ℂ} {a b c d : ℝ} (hab : a ≤ b) (hcd : c ≤ d) (hV : V.conjTranspose * V = 1) (hW : W.conjTranspose * W = 1)
    (h1 : M * V = V * !![(a : ℂ), 0; 0, (b : ℂ)]) (h2 : M * W = W * !![(c : ℂ), 0; 0, (d : ℂ)]) : a = c ∧ b = d := by
  have key : ∀ (V : Matrix (Fin 2) (Fin 2) ℂ) (a b : ℝ), V.conjTranspose * V = 1 → M * V = V * !![(a : ℂ), 0; 0, (b : ℂ)] → M.trace = ((a + b : ℝ) : ℂ) ∧ M.det = ((a * b : ℝ) : ℂ) := by
    intro V a b hV h
    have hV' := mul_eq_one_comm.1 hV
    have hM : M = V * !![(a : ℂ), 0; 0, (b : ℂ)] * V.conjTranspose := by rw [← h, Matrix.mul_assoc, hV', Matrix.mul_one]
    constructor
    · rw [hM, Matrix.trace_mul_comm, ← Matrix.mul_assoc, hV, Matrix.one_mul]
      simp [Matrix.trace, Fin.sum_univ_two]
    · rw [hM, Matrix.det_mul_comm, ← Matrix.mul_assoc, hV, Matrix.one_mul, Matrix.det_fin_two]
      simp
  obtain ⟨t1, d1⟩ := key V a b hV h1
  obtain ⟨t2, d2⟩ := key W c d hW h2
  have ht : a + b = c + d := by exact_mod_cast t1.symm.trans t2
  have hd : a * b = c * d := by exact_mod_cast d1.symm.trans d2
  have hs : (b - a) ^ 2 = (d - c) ^ 2 := by
    have : (b - a) ^ 2 = (a + b) ^ 2 - 4 * (a * b) := by ring
    rw [this, ht, hd]; ring
  have := (sq_eq_sq₀ (sub_nonneg.2 hab) (sub_nonneg.2 hcd)).1 hs
  constructor <;> linarith

/-- Two eigenvector matrices of a coupled operator differ by the phases of the columns. -/
theorem same_eigenvectors {M V W : Matrix (Fin 2) (Fin 2) ℂ} (hV : Diagonalises M V) (hW : Diagonalises M W) (hM : M 0 1 ≠ 0) :
    ∃ g : Fin 2 → ℂ, (∀ k, ‖g k‖ = 1) ∧ ∀ i k, W i k = V i k * g k := by
  have dV := coupled_defined hV hM
  have dW := coupled_defined hW hM
  obtain ⟨a, b, hab, uV, eV⟩ := hV
  obtain ⟨c, d, hcd, uW, eW⟩ := hW
  obtain ⟨rfl, rfl⟩ := same_eigenvalues hab hcd uV uW eV eW
  have hr : ∀ k, ∀ X : Matrix (Fin 2) (Fin 2) ℂ, M * X = X * !![(a : ℂ), 0; 0, (b : ℂ)] → X 1 k = (![(a : ℂ), (b : ℂ)] k - M 0 0) / M 0 1 * X 0 k := by
    intro k X hX
    have := diag_eqs hX 0 k
    field_simp
    linear_combination this
  have h1 : ∀ i k, W i k = V i k * (W 0 k / V 0 k) := by
    intro i k
    have := dV k
    fin_cases i
    · simp only [Fin.zero_eta]
      field_simp
    · simp only [Fin.mk_one]
      rw [hr k W eW, hr k V eV]
      field_simp
  refine ⟨fun k => W 0 k / V 0 k, fun k => ?_, h1⟩
  have e1 := unit_column uV k
  have e2 := unit_column uW k
  rw [h1 0 k, h1 1 k, norm_mul, norm_mul] at e2
  have : ‖W 0 k / V 0 k‖ ^ 2 = 1 := by linear_combination e2 - ‖W 0 k / V 0 k‖ ^ 2 * e1
  exact (pow_eq_one_iff_of_nonneg (norm_nonneg _) two_ne_zero).1 this

theorem element_phases {ι : Type} [Fintype ι] (O : Matrix ι ι ℂ) (v w : ι → ℂ) (p q : ℂ) :
    star (p • v) ⬝ᵥ O.mulVec (q • w) = star p * q * (star v ⬝ᵥ O.mulVec w) := by
  rw [star_smul, mulVec_smul, smul_dotProduct, dotProduct_smul, smul_eq_mul, smul_eq_mul]
  ring

theorem subspace_hermitian {ι : Type} [Fintype ι] (O : Matrix ι ι ℂ) (hO : O.conjTranspose = O) (v w : ι → ℂ) :
    (subspaceOperator O v w).conjTranspose = subspaceOperator O v w := by
  have h : ∀ v w : ι → ℂ, star (star v ⬝ᵥ O.mulVec w) = star w ⬝ᵥ O.mulVec v := by
    intro v w
    rw [← star_dotProduct_star, star_star, star_mulVec, hO, dotProduct_mulVec, dotProduct_comm]
  ext i j
  fin_cases i <;> fin_cases j <;> simp only [subspaceOperator, conjTranspose_apply] <;> exact h _ _

/-- The operator at a point whose vectors have other phases. -/
theorem subspace_phases {ι : Type} [Fintype ι] (O : Matrix ι ι ℂ) (v w : ι → ℂ) (p : Fin 2 → ℂ) (i j : Fin 2) :
    subspaceOperator O (p 0 • v) (p 1 • w) i j = star (p i) * subspaceOperator O v w i j * p j := by
  fin_cases i <;> fin_cases j <;> simp only [subspaceOperator] <;> refine (element_phases _ _ _ _ _).trans ?_ <;> simp <;> ring

/-- The phases of the two states and the eigensolver do not matter at one point. -/
theorem point_phases {ι : Type} [Fintype ι] (eigh eigh' : Matrix (Fin 2) (Fin 2) ℂ → Matrix (Fin 2) (Fin 2) ℂ) (h : IsEigh2 eigh) (h' : IsEigh2 eigh') (O : Matrix ι ι ℂ)
    (hO : O.conjTranspose = O) (E0 E1 : ℝ) (v w : ι → ℂ) (p : Fin 2 → ℂ) (hp : ∀ i, ‖p i‖ = 1) (hc : star v ⬝ᵥ O.mulVec w ≠ 0) :
    pauliDefined (eigh (subspaceOperator O v w)) ∧ pauliDefined (eigh' (subspaceOperator O (p 0 • v) (p 1 • w))) ∧
    pauli E0 E1 (eigh' (subspaceOperator O (p 0 • v) (p 1 • w))) = pauli E0 E1 (eigh (subspaceOperator O v w)) := by
  have hpp : ∀ i, p i * star (p i) = 1 := fun i => by rw [RCLike.star_def, Complex.mul_conj', hp]; norm_num
  have hcp : ∀ i, star (p i) * p i = 1 := fun i => by rw [mul_comm]; exact hpp i
  have d := h _ (subspace_hermitian O hO v w)
  have d' := h' _ (subspace_hermitian O hO (p 0 • v) (p 1 • w))
  have hM : subspaceOperator O v w 0 1 ≠ 0 := hc
  generalize eigh' (subspaceOperator O (p 0 • v) (p 1 • w)) = X at *
  -- the second matrix, turned back, has the eigenvectors of the first operator
  have dW : Diagonalises (subspaceOperator O v w) (Matrix.of fun i k => p i * X i k) := by
    obtain ⟨a, b, hab, hu, he⟩ := d'
    refine ⟨a, b, hab, ?_, ?_⟩
    · rw [← hu]
      ext i j
      simp only [Matrix.mul_apply, conjTranspose_apply, Matrix.of_apply, star_mul]
      refine Finset.sum_congr rfl fun k _ => ?_
      linear_combination (star (X k i) * X k j) * hpp k
    · ext i k
      have e := congrFun (congrFun he i) k
      have hs := subspace_phases O v w p
      rw [Matrix.mul_apply, Fin.sum_univ_two, hs, hs] at e
      have e2 : (Matrix.of (fun i k => p i * X i k) * !![(a : ℂ), 0; 0, (b : ℂ)]) i k = p i * (X * !![(a : ℂ), 0; 0, (b : ℂ)]) i k := by
        rw [Matrix.mul_apply, Matrix.mul_apply, Finset.mul_sum]
        exact Finset.sum_congr rfl fun j _ => mul_assoc _ _ _
      rw [e2, ← e, Matrix.mul_apply, Fin.sum_univ_two, Matrix.of_apply, Matrix.of_apply]
      linear_combination (-(subspaceOperator O v w i 0 * p 0 * X 0 k + subspaceOperator O v w i 1 * p 1 * X 1 k)) * hpp i
  obtain ⟨g, hg, hW⟩ := same_eigenvectors d dW hM
  refine ⟨coupled_defined d hM, fun k hk => coupled_defined dW hM k (by rw [Matrix.of_apply, hk, mul_zero]), ?_⟩
  refine C49_phase_independent E0 E1 _ _ g (fun i => star (p i)) hg (fun i => by rw [norm_star]; exact hp i) fun i k => ?_
  rw [mul_assoc, ← hW i k, Matrix.of_apply, ← mul_assoc, hcp, one_mul]

/-- **C100** (phases) If the computational operator couples the two states at every point, every point has coefficients, and they depend neither on the phases with which the levels
were returned nor on the eigensolver that is used for the 2 × 2 operators. -/
theorem C100_phases {ι : Type} [Fintype ι] (eigh eigh' : Matrix (Fin 2) (Fin 2) ℂ → Matrix (Fin 2) (Fin 2) ℂ) (h : IsEigh2 eigh) (h' : IsEigh2 eigh') (O : Matrix ι ι ℂ)
    (hO : O.conjTranspose = O) (points points' : List (ℝ × ℝ × (ι → ℂ) × (ι → ℂ))) (hpts : List.Forall₂ SameLevels points points')
    (hc : ∀ p ∈ points, star p.2.2.1 ⬝ᵥ O.mulVec p.2.2.2 ≠ 0) :
    ∃ l : List (ℝ × ℝ × ℝ), l.length = points.length ∧ pauliCoefficients eigh points (.operator O) = some (l.map some) ∧
      pauliCoefficients eigh' points' (.operator O) = some (l.map some) := by
  refine ⟨points.map fun p => pauli p.1 p.2.1 (eigh (subspaceOperator O p.2.2.1 p.2.2.2)), by simp, ?_, ?_⟩
  · rw [pauli_list eigh points (fun p => subspaceOperator O p.2.2.1 p.2.2.2) (.operator O) (fun _ _ => rfl), List.map_map]
    refine congrArg some (List.map_congr_left fun p hp => ?_)
    have := (point_phases eigh eigh h h O hO p.1 p.2.1 p.2.2.1 p.2.2.2 1 (by simp) (hc p hp)).1
    rw [if_pos this]
    rfl
  · rw [pauli_list eigh' points' (fun p => subspaceOperator O p.2.2.1 p.2.2.2) (.operator O) (fun _ _ => rfl), List.map_map]
    refine congrArg some ?_
    induction hpts with
    | nil => rfl
    | @cons p q l l' hpq _ ih =>
      rw [List.map_cons, List.map_cons, ih fun p hp => hc p (List.mem_cons_of_mem _ hp)]
      congr 1
      obtain ⟨e0, e1, c, d, hcn, hdn, ev, ew⟩ := hpq
      obtain ⟨-, k1, k2⟩ := point_phases eigh eigh' h h' O hO p.1 p.2.1 p.2.2.1 p.2.2.2 ![c, d] (fun i => by fin_cases i <;> assumption) (hc p (by simp))
      have e : subspaceOperator O q.2.2.1 q.2.2.2 = subspaceOperator O ((![c, d] : Fin 2 → ℂ) 0 • p.2.2.1) ((![c, d] : Fin 2 → ℂ) 1 • p.2.2.2) := by rw [ev, ew]; rfl
      rw [e, if_pos k1, e0, e1, k2]
      rfl

/-- **C100** (no coupling) A point at which the computational operator has different values in the two states and does not couple them has no coefficients (Python's NaN), whatever the
eigensolver. -/
theorem C100_uncoupled {ι : Type} [Fintype ι] (eigh : Matrix (Fin 2) (Fin 2) ℂ → Matrix (Fin 2) (Fin 2) ℂ) (h : IsEigh2 eigh) (O : Matrix ι ι ℂ) (hO : O.conjTranspose = O)
    (points : List (ℝ × ℝ × (ι → ℂ) × (ι → ℂ))) (i : ℕ) (hi : i < points.length) (hc : star points[i].2.2.1 ⬝ᵥ O.mulVec points[i].2.2.2 = 0)
    (hd : star points[i].2.2.1 ⬝ᵥ O.mulVec points[i].2.2.1 ≠ star points[i].2.2.2 ⬝ᵥ O.mulVec points[i].2.2.2) :
    ∃ l, pauliCoefficients eigh points (.operator O) = some l ∧ l.length = points.length ∧ l[i]? = some none := by
  refine ⟨_, pauli_list eigh points (fun p => subspaceOperator O p.2.2.1 p.2.2.2) (.operator O) (fun _ _ => rfl), by simp, ?_⟩
  have hh := subspace_hermitian O hO points[i].2.2.1 points[i].2.2.2
  have h10 : subspaceOperator O points[i].2.2.1 points[i].2.2.2 1 0 = 0 := by
    have := congrFun (congrFun hh 1) 0
    rw [← this, conjTranspose_apply]
    have h01 : subspaceOperator O points[i].2.2.1 points[i].2.2.2 0 1 = 0 := hc
    rw [h01, star_zero]
  rw [List.getElem?_map, List.getElem?_eq_getElem hi, Option.map_some, if_neg (uncoupled_undefined (h _ hh) hc h10 hd)]

/-- **C100** is false for the matrix elements that sweeps return (their real parts): take two states that the operator couples by a real number and in which it has different values.  Multiply the
second state by `i`, as an eigensolver is free to do.  The coefficients from the operator are the same as before, those from the matrix elements are NaN. -/
theorem C100_false {ι : Type} [Fintype ι] (eigh : Matrix (Fin 2) (Fin 2) ℂ → Matrix (Fin 2) (Fin 2) ℂ) (h : IsEigh2 eigh) (O : Matrix ι ι ℂ) (hO : O.conjTranspose = O) (E0 E1 : ℝ) (v w : ι → ℂ)
    (hc : star v ⬝ᵥ O.mulVec w ≠ 0) (hr : (star v ⬝ᵥ O.mulVec w).im = 0) (hd : star v ⬝ᵥ O.mulVec v ≠ star w ⬝ᵥ O.mulVec w) :
    let u : ι → ℂ := Complex.I • w
    ∃ c l, pauliCoefficients eigh [(E0, E1, v, w)] (.operator O) = some [some c] ∧ pauliCoefficients eigh [(E0, E1, v, u)] (.operator O) = some [some c] ∧
      createSubspaceOperators [(matrixElement O v v : ℂ)] [(matrixElement O v u : ℂ)] [(matrixElement O u v : ℂ)] [(matrixElement O u u : ℂ)] = some l ∧
      pauliCoefficients eigh [(E0, E1, v, u)] (.list l) = some [none] := by
  intro u
  obtain ⟨l, hl, h1, h2⟩ := C100_phases eigh eigh h h O hO [(E0, E1, v, w)] [(E0, E1, v, u)] (.cons ⟨rfl, rfl, 1, Complex.I, by simp, by simp, by simp, rfl⟩ .nil) (by simpa using hc)
  obtain ⟨c, rfl⟩ := List.length_eq_one_iff.1 hl
  refine ⟨c, _, h1, h2, subspaceOperators_spec [(E0, E1, v, u)] (fun p => (matrixElement O p.2.2.1 p.2.2.1 : ℂ)) (fun p => (matrixElement O p.2.2.1 p.2.2.2 : ℂ)) (fun p => (matrixElement O p.2.2.2 p.2.2.1 : ℂ))
    (fun p => (matrixElement O p.2.2.2 p.2.2.2 : ℂ)), ?_⟩
  have hb : matrixElement O v u = 0 := by
    have := element_phases O v w 1 Complex.I
    rw [one_smul, star_one, one_mul] at this
    unfold matrixElement
    rw [this, Complex.I_mul_re, hr, neg_zero]
  have hh := subspace_hermitian O hO v u
  have hb' : matrixElement O u v = 0 := by
    have := congrFun (congrFun hh 1) 0
    have e : star u ⬝ᵥ O.mulVec v = star (star v ⬝ᵥ O.mulVec u) := this.symm
    unfold matrixElement at hb ⊢
    rw [e, RCLike.star_def, Complex.conj_re, hb]
  have huu : star u ⬝ᵥ O.mulVec u = star w ⬝ᵥ O.mulVec w := by
    rw [element_phases]; simp
  have hd' : (matrixElement O v v : ℂ) ≠ (matrixElement O u u : ℂ) := by
    rw [C65_diagonal_partial O hO, C65_diagonal_partial O hO, huu]
    exact hd
  rw [pauli_list eigh _ (fun p => !![(matrixElement O p.2.2.1 p.2.2.1 : ℂ), (matrixElement O p.2.2.1 p.2.2.2 : ℂ); (matrixElement O p.2.2.2 p.2.2.1 : ℂ), (matrixElement O p.2.2.2 p.2.2.2 : ℂ)]) _
    (fun i hi => by simp only [List.length_singleton, Nat.lt_one_iff] at hi; subst hi; rfl), List.map_cons, List.map_nil, if_neg]
  refine uncoupled_undefined (h _ ?_) ?_ ?_ hd'
  · dsimp only
    rw [hb, hb']
    ext i j
    fin_cases i <;> fin_cases j <;> simp
  · simp [hb]
  · simp [hb']

/-- There are functions that diagonalise every Hermitian 2 × 2 matrix. -/
theorem eigh2_exists : ∃ eigh, IsEigh2 eigh := by
  have key : ∀ M : Matrix (Fin 2) (Fin 2) ℂ, ∃ V, M.conjTranspose = M → Diagonalises M V := by
    intro M
    by_cases hM : M.conjTranspose = M
    swap
    · exact ⟨0, fun h => absurd h hM⟩
    have hH : M.IsHermitian := hM
    have hu : (hH.eigenvectorUnitary : Matrix (Fin 2) (Fin 2) ℂ).conjTranspose * (hH.eigenvectorUnitary : Matrix (Fin 2) (Fin 2) ℂ) = 1 :=
      Unitary.star_mul_self_of_mem hH.eigenvectorUnitary.2
    have hd : ∀ i k, (M * (hH.eigenvectorUnitary : Matrix (Fin 2) (Fin 2) ℂ)) i k = (hH.eigenvectorUnitary : Matrix (Fin 2) (Fin 2) ℂ) i k * (hH.eigenvalues k : ℂ) := by
      intro i k
      have := congrFun (hH.mulVec_eigenvectorBasis k) i
      rw [Matrix.mul_apply]
      simp only [Matrix.IsHermitian.eigenvectorUnitary_apply]
      refine Eq.trans ?_ (this.trans ?_)
      · rfl
      · simp [mul_comm]
    generalize (hH.eigenvectorUnitary : Matrix (Fin 2) (Fin 2) ℂ) = U at *
    by_cases hle : hH.eigenvalues 0 ≤ hH.eigenvalues 1
    · refine ⟨U, fun _ => ⟨_, _, hle, hu, ?_⟩⟩
      ext i k
      rw [hd]
      fin_cases k <;> simp [Matrix.mul_apply, Fin.sum_univ_two]
    · refine ⟨U.submatrix id (Equiv.swap 0 1), fun _ => ⟨_, _, (not_le.1 hle).le, ?_, ?_⟩⟩
      · have : (U.submatrix id (Equiv.swap 0 1)).conjTranspose * U.submatrix id (Equiv.swap 0 1) = (U.conjTranspose * U).submatrix (Equiv.swap 0 1) (Equiv.swap 0 1) := rfl
        rw [this, hu, submatrix_one_equiv]
      · ext i k
        have : (M * U.submatrix id (Equiv.swap 0 1)) i k = (M * U) i (Equiv.swap 0 1 k) := rfl
        rw [this, hd]
        fin_cases k <;> simp [Matrix.mul_apply, Fin.sum_univ_two]
  choose eigh h using key
  exact ⟨eigh, h⟩

/-- Two states and an operator that meet the hypotheses of `C100_false` and `C100_phases`. -/
example : (!![1, 1; 1, -1] : Matrix (Fin 2) (Fin 2) ℂ).conjTranspose = !![1, 1; 1, -1] ∧ star ![1, 0] ⬝ᵥ (!![1, 1; 1, -1] : Matrix (Fin 2) (Fin 2) ℂ).mulVec ![0, 1] = 1 ∧
    star ![1, 0] ⬝ᵥ (!![1, 1; 1, -1] : Matrix (Fin 2) (Fin 2) ℂ).mulVec ![1, 0] = 1 ∧ star ![0, 1] ⬝ᵥ (!![1, 1; 1, -1] : Matrix (Fin 2) (Fin 2) ℂ).mulVec ![0, 1] = -1 := by
  refine ⟨?_, ?_, ?_, ?_⟩
  · ext i j; fin_cases i <;> fin_cases j <;> simp
  all_goals simp [dotProduct, mulVec, Fin.sum_univ_two]

end Verif.Props
