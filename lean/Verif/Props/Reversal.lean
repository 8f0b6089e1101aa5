import Verif.Props.CircuitResponse
import Verif.Spec.Reversal
import Verif.Lemmas.Redraw
import Verif.Lemmas.Parallel

/-!
# C107: Reversing the fluxes, or the fluxes and the charges, does not change the energies
-/

namespace Verif.Props

open Verif Verif.Spec Verif.Circuit Verif.Sym Verif.Num Matrix Complex

/-! ### The changes of states as maps of operators -/

theorem reversed_apply {ι : Type} (κ : ℂ →+* ℂ) (σ : ι → ι) (θ : ι → ℝ) (A : Matrix ι ι ℂ) (x y : ι) :
    reversed κ σ θ A x y = (θ x : ℂ) * (θ y : ℂ) * κ (A (σ x) (σ y)) := rfl

/-- A change of states as a map that respects sums and products. -/
noncomputable def revHom {ι : Type} [Fintype ι] [DecidableEq ι] (κ : ℂ →+* ℂ) (σ : ι → ι) (θ : ι → ℝ) (h : Involution σ θ) : Matrix ι ι ℂ →+* Matrix ι ι ℂ where
  toFun := reversed κ σ θ
  map_one' := by
    ext x y
    unfold reversed
    by_cases hxy : x = y
    · subst hxy
      rw [one_apply_eq, one_apply_eq, map_one, mul_one, ← Complex.ofReal_mul, h.sign, Complex.ofReal_one]
    · rw [one_apply_ne hxy, one_apply_ne (fun h1 => hxy (by rw [← h.twice x, h1, h.twice])), map_zero, mul_zero]
  map_mul' A B := by
    ext x y
    rw [reversed_apply, mul_apply, mul_apply, map_sum, Finset.mul_sum]
    let τ : ι ≃ ι := ⟨σ, σ, h.twice, h.twice⟩
    rw [← Equiv.sum_comp τ]
    refine Finset.sum_congr rfl fun z _ => ?_
    have hz : (θ z : ℂ) * (θ z : ℂ) = 1 := by rw [← Complex.ofReal_mul, h.sign, Complex.ofReal_one]
    rw [map_mul]
    show _ = (θ x : ℂ) * (θ z : ℂ) * κ (A (σ x) (σ z)) * ((θ z : ℂ) * (θ y : ℂ) * κ (B (σ z) (σ y)))
    linear_combination (-(θ x : ℂ) * (θ y : ℂ) * κ (A (σ x) (σ z)) * κ (B (σ z) (σ y))) * hz
  map_zero' := by
    ext x y
    unfold reversed
    simp
  map_add' A B := by
    ext x y
    rw [Matrix.add_apply, reversed_apply, reversed_apply, reversed_apply, Matrix.add_apply, map_add, mul_add]

theorem revHom_apply {ι : Type} [Fintype ι] [DecidableEq ι] (κ : ℂ →+* ℂ) (σ : ι → ι) (θ : ι → ℝ) (h : Involution σ θ) (A : Matrix ι ι ℂ) :
    revHom κ σ θ h A = reversed κ σ θ A := rfl

theorem revHom_number {ι : Type} [Fintype ι] [DecidableEq ι] (κ : ℂ →+* ℂ) (σ : ι → ι) (θ : ι → ℝ) (h : Involution σ θ) (z : ℂ) :
    revHom κ σ θ h (algebraMap ℂ _ z) = algebraMap ℂ _ (κ z) := by
  rw [revHom_apply]
  ext x y
  unfold reversed
  rw [Matrix.algebraMap_matrix_apply, Matrix.algebraMap_matrix_apply]
  by_cases hxy : x = y
  · subst hxy
    rw [if_pos rfl, if_pos rfl, ← Complex.ofReal_mul, h.sign, Complex.ofReal_one, one_mul]
    rfl
  · rw [if_neg hxy, if_neg (fun h1 => hxy (by rw [← h.twice x, h1, h.twice])), map_zero, mul_zero]

/-- The change of states of all the nodes together. -/
theorem involution_all {n : ℕ} {cfg : Fin n → NodeCfg} {σ : ∀ i, Fin (cfg i).dim → Fin (cfg i).dim} {θ : ∀ i, Fin (cfg i).dim → ℝ} (h : ∀ i, Involution (σ i) (θ i)) :
    Involution (fun (x : (i : Fin n) → Fin (cfg i).dim) i => σ i (x i)) (fun x => ∏ i, θ i (x i)) where
  twice x := funext fun i => (h i).twice (x i)
  sign x := by
    rw [← Finset.prod_mul_distrib]
    exact Finset.prod_eq_one fun i _ => (h i).sign _

theorem revHom_actsOn {n : ℕ} {cfg : Fin n → NodeCfg} {σ : ∀ i, Fin (cfg i).dim → Fin (cfg i).dim} {θ : ∀ i, Fin (cfg i).dim → ℝ} (h : ∀ i, Involution (σ i) (θ i))
    (κ : ℂ →+* ℂ) (i : Fin n) (A : Op (cfg i).dim) :
    revHom κ _ _ (involution_all h) (actsOn cfg i A) = actsOn cfg i (reversed κ (σ i) (θ i) A) := by
  rw [revHom_apply]
  ext x y
  unfold reversed actsOn
  have hiff : (∀ j, j ≠ i → σ j (x j) = σ j (y j)) ↔ ∀ j, j ≠ i → x j = y j :=
    forall₂_congr fun j _ => ⟨fun h1 => by rw [← (h j).twice (x j), h1, (h j).twice], fun h1 => by rw [h1]⟩
  by_cases hxy : ∀ j, j ≠ i → x j = y j
  · rw [if_pos hxy, if_pos (hiff.2 hxy), ← Complex.ofReal_mul, ← Finset.prod_mul_distrib, ← Finset.mul_prod_erase Finset.univ _ (Finset.mem_univ i), Finset.prod_eq_one, mul_one,
      Complex.ofReal_mul]
    intro j hj
    rw [hxy j (Finset.ne_of_mem_erase hj), (h j).sign]
  · rw [if_neg hxy, if_neg (fun h1 => hxy (hiff.1 h1)), map_zero, mul_zero]

theorem actsOn_neg {n : ℕ} {cfg : Fin n → NodeCfg} (i : Fin n) (A : Op (cfg i).dim) : actsOn cfg i (-A) = -actsOn cfg i A := by
  ext x y
  rw [Matrix.neg_apply]
  by_cases hxy : ∀ j, j ≠ i → x j = y j
  · rw [show actsOn cfg i (-A) x y = (-A) (x i) (y i) from if_pos hxy, show actsOn cfg i A x y = A (x i) (y i) from if_pos hxy, Matrix.neg_apply]
  · rw [show actsOn cfg i (-A) x y = 0 from if_neg hxy, show actsOn cfg i A x y = 0 from if_neg hxy, neg_zero]

/-- The levels stay. -/
theorem levels_reversed {ι : Type} [Fintype ι] [DecidableEq ι] {κ : ℂ →+* ℂ} (hκ : κ = RingHom.id ℂ ∨ κ = starRingEnd ℂ) {σ : ι → ι} {θ : ι → ℝ}
    (h : Involution σ θ) (A : Matrix ι ι ℂ) (k : ℕ) (E : ℝ) : LevelsUpTo A k E ↔ LevelsUpTo (reversed κ σ θ A) k E := by
  have one : ∀ (θ : ι → ℝ) (_ : ∀ x, θ x * θ x = 1) (A : Matrix ι ι ℂ), LevelsUpTo A k E → LevelsUpTo (reversed κ σ θ A) k E := by
    intro θ hθ A hA
    let τ : ι ≃ ι := ⟨σ, σ, h.twice, h.twice⟩
    have hu : ∀ i, (starRingEnd ℂ) (θ i : ℂ) * (θ i : ℂ) = 1 := fun i => by rw [conj_ofReal, ← Complex.ofReal_mul, hθ, Complex.ofReal_one]
    have h1 : LevelsUpTo (fun x y => κ (A (σ x) (σ y))) k E := by
      rcases hκ with rfl | rfl
      · exact levelsUpTo_reindex τ (fun i j => by show A (σ (σ i)) (σ (σ j)) = _; rw [h.twice, h.twice]) k E hA
      · exact levelsUpTo_conj τ (fun i j => by show (starRingEnd ℂ) (A (σ (σ i)) (σ (σ j))) = _; rw [h.twice, h.twice]) k E hA
    exact levelsUpTo_gauge (Equiv.refl ι) (fun i => (θ i : ℂ)) hu (fun i j => by rw [conj_ofReal]; rfl) k E h1
  refine ⟨one θ h.sign A, fun hA => ?_⟩
  have h2 := one (fun x => θ (σ x)) (fun x => h.sign _) _ hA
  have h3 : reversed κ σ (fun x => θ (σ x)) (reversed κ σ θ A) = A := by
    ext x y
    rw [reversed_apply, reversed_apply, h.twice, h.twice, map_mul, map_mul]
    have s1 : ∀ x, (θ (σ x) : ℂ) * (θ (σ x) : ℂ) = 1 := fun x => by rw [← Complex.ofReal_mul, h.sign, Complex.ofReal_one]
    have s2 : ∀ r : ℝ, κ (r : ℂ) = r := fun r => by rcases hκ with rfl | rfl; exacts [rfl, conj_ofReal r]
    have s3 : ∀ z, κ (κ z) = z := fun z => by rcases hκ with rfl | rfl; exacts [rfl, Complex.conj_conj z]
    rw [s2, s2, s3]
    linear_combination A x y * ((θ (σ y) : ℂ) * (θ (σ y) : ℂ)) * s1 x + A x y * s1 y
  rwa [h3] at h2

/-! ### The Hamiltonian -/

theorem map_quadOp {A : Type} [Ring A] [Algebra ℂ A] (T : A →+* A) (hT : ∀ x, T (num A x) = num A x) {n : ℕ} (M : Matrix (Fin n) (Fin n) ℝ) (X : Fin n → A) :
    T (quadOp (num A) M X) = quadOp (num A) M fun i => T (X i) := by
  unfold quadOp
  simp only [map_sum, map_mul, hT]

theorem quadOp_neg {A : Type} [Ring A] [Algebra ℂ A] {n : ℕ} (M : Matrix (Fin n) (Fin n) ℝ) (X : Fin n → A) :
    quadOp (num A) M (fun i => -X i) = quadOp (num A) M X := by
  rw [quadOp_smul, quadOp_smul]
  simp

theorem map_disp {A : Type} [Ring A] (T : A →+* A) {D Dd D' Dd' : ℕ → A} (hD : ∀ j, T (D j) = D' j) (hDd : ∀ j, T (Dd j) = Dd' j) (flip : Bool) (ts : List (ℝ × ℕ)) (y : A) :
    T (dispProduct D Dd flip ts y) = dispProduct D' Dd' flip ts (T y) := by
  rw [dispProduct_eq, dispProduct_eq, map_mul, map_list_prod, List.map_map]
  congr 2
  refine List.map_congr_left fun p _ => ?_
  simp only [Function.comp_apply]
  split_ifs <;> simp [hD, hDd]

theorem disp_swap {A : Type} [Ring A] (D Dd : ℕ → A) (flip : Bool) (ts : List (ℝ × ℕ)) (hts : ∀ p ∈ ts, p.1 ≠ 0) (y : A) :
    dispProduct Dd D flip ts y = dispProduct D Dd (!flip) ts y := by
  rw [dispProduct_eq, dispProduct_eq]
  congr 2
  refine List.map_congr_left fun p hp => ?_
  rcases lt_or_gt_of_ne (hts p hp) with h1 | h1
  · cases flip <;> simp [h1, h1.le]
  · cases flip <;> simp [h1, h1.le]

theorem map_sum_terms {A : Type} [Ring A] [Algebra ℂ A] (T : A →+* A) (hT : ∀ x, T (num A x) = num A x) {b : ℕ} (E : ℝ) (J : Fin b → ℝ) (X Y : Fin b → A) (hXY : ∀ k, T (X k) = Y k) :
    T (num A E * ∑ k, -(num A (1 / 2) * num A (J k) * X k)) = num A E * ∑ k, -(num A (1 / 2) * num A (J k) * Y k) := by
  simp only [map_mul, map_sum, map_neg, hT, hXY]

/-- The Hamiltonian after a change of the operators that keeps the displacements of Cooper pairs. -/
theorem map_hamiltonian_time {A : Type} [Ring A] [Algebra ℂ A] (T : A →+* A) (hT : ∀ x, T (num A x) = num A x) (hexp : ∀ x, T (expTau A x) = expTau A (-x)) {n b : ℕ}
    (s : Sys A n b) (hts : ∀ k, ∀ p ∈ s.terms k, p.1 ≠ 0) (hQ : ∀ i, T (s.Q i) = s.Q i) (hP : ∀ i, T (s.P i) = -s.P i) (hD : ∀ j, T (s.D j) = s.D j)
    (hDd : ∀ j, T (s.Ddag j) = s.Ddag j) (hS : ∀ j, T (s.S j) = s.Sdag j) (hSd : ∀ j, T (s.Sdag j) = s.S j) {H H' : A} (hH : hamiltonian s = some H)
    (hH' : hamiltonian { s with Pb := fun k => -s.Pb k, Pbi := fun i => -s.Pbi i } = some H') : T H = H' := by
  rw [hamiltonian_sum hH, hamiltonian_sum hH', map_add, map_add]
  refine congrArg₂ _ (congrArg₂ _ ?_ ?_) ?_
  · unfold linearPart
    dsimp only
    rw [T.map_add, T.map_mul, T.map_mul, hT, hT, map_quadOp T hT, map_quadOp T hT]
    congr 2
    · congr 1
      funext i
      rw [map_add, hQ, hT]
    · rw [← quadOp_neg]
      congr 1
      funext i
      rw [map_add, hP, hT, map_neg]
      abel
  · refine map_sum_terms T hT _ _ _ _ fun k => ?_
    rw [map_add, map_disp T hD hDd, map_disp T hD hDd, hexp, hexp]
  · refine map_sum_terms T hT _ _ _ _ fun k => ?_
    rw [map_add, map_disp T hS hSd, map_disp T hS hSd, hexp, hexp, neg_neg, disp_swap s.S s.Sdag false _ (hts k), disp_swap s.S s.Sdag true _ (hts k), add_comm]
    rfl

/-- The Hamiltonian after a change of the operators that reverses charges and fluxes. -/
theorem map_hamiltonian_charge {A : Type} [Ring A] [Algebra ℂ A] (T : A →+* A) (hT : ∀ x, T (num A x) = num A x) (hexp : ∀ x, T (expTau A x) = expTau A x) {n b : ℕ}
    (s : Sys A n b) (hts : ∀ k, ∀ p ∈ s.terms k, p.1 ≠ 0) (hQ : ∀ i, T (s.Q i) = -s.Q i) (hP : ∀ i, T (s.P i) = -s.P i) (hD : ∀ j, T (s.D j) = s.Ddag j)
    (hDd : ∀ j, T (s.Ddag j) = s.D j) (hS : ∀ j, T (s.S j) = s.Sdag j) (hSd : ∀ j, T (s.Sdag j) = s.S j) {H H' : A} (hH : hamiltonian s = some H)
    (hH' : hamiltonian { s with Pb := fun k => -s.Pb k, Pbi := fun i => -s.Pbi i, Qb := fun i => -s.Qb i, Qbt := fun k => -s.Qbt k } = some H') : T H = H' := by
  rw [hamiltonian_sum hH, hamiltonian_sum hH', map_add, map_add]
  refine congrArg₂ _ (congrArg₂ _ ?_ ?_) ?_
  · unfold linearPart
    dsimp only
    rw [T.map_add, T.map_mul, T.map_mul, hT, hT, map_quadOp T hT, map_quadOp T hT]
    congr 2
    · rw [← quadOp_neg]
      congr 1
      funext i
      rw [map_add, hQ, hT, map_neg]
      abel
    · rw [← quadOp_neg]
      congr 1
      funext i
      rw [map_add, hP, hT, map_neg]
      abel
  · refine map_sum_terms T hT _ _ _ _ fun k => ?_
    rw [map_add, map_disp T hD hDd, map_disp T hD hDd, hexp, hexp, neg_neg, disp_swap s.D s.Ddag false _ (hts k), disp_swap s.D s.Ddag true _ (hts k), add_comm]
    rfl
  · refine map_sum_terms T hT _ _ _ _ fun k => ?_
    rw [map_add, map_disp T hS hSd, map_disp T hS hSd, hexp, hexp, neg_neg, disp_swap s.S s.Sdag false _ (hts k), disp_swap s.S s.Sdag true _ (hts k), add_comm]
    rfl

/-! ### Circuits -/

theorem expTau_time {ι : Type} [Fintype ι] [DecidableEq ι] (σ : ι → ι) (θ : ι → ℝ) (h : Involution σ θ) (x : ℝ) :
    revHom (starRingEnd ℂ) σ θ h (expTau (Matrix ι ι ℂ) x) = expTau (Matrix ι ι ℂ) (-x) := by
  unfold expTau
  rw [revHom_number, ← Complex.exp_conj]
  congr 2
  simp [Complex.conj_ofNat]

theorem num_reversed {ι : Type} [Fintype ι] [DecidableEq ι] {κ : ℂ →+* ℂ} (hκ : κ = RingHom.id ℂ ∨ κ = starRingEnd ℂ) (σ : ι → ι) (θ : ι → ℝ) (h : Involution σ θ) (x : ℝ) :
    revHom κ σ θ h (num (Matrix ι ι ℂ) x) = num (Matrix ι ι ℂ) x := by
  show revHom κ σ θ h (algebraMap ℂ _ (x : ℂ)) = algebraMap ℂ _ (x : ℂ)
  rw [revHom_number]
  rcases hκ with rfl | rfl
  · rfl
  · rw [conj_ofReal]

theorem biasVal_neg (phi : String → ℝ) (d : Dict Edge (Option String)) (e : Edge) : biasVal (fun c => -phi c) d e = -biasVal phi d e := by
  unfold biasVal
  split <;> simp

theorem fluxBiasVector_neg (phi : String → ℝ) (g : CG) (b : Biases) (i : ℕ) : fluxBiasVector (fun c => -phi c) g b i = -fluxBiasVector phi g b i := by
  unfold fluxBiasVector
  split
  · rw [biasVal_neg]; split_ifs <;> simp
  · simp

theorem fluxBiasNodes_neg (phi : String → ℝ) (g : CG) (b : Biases) (i : Fin (nodes g).length) : fluxBiasNodes (fun c => -phi c) g b i = -fluxBiasNodes phi g b i := by
  have h1 : (fun j : Fin (edges g).length => fluxBiasVectorInd (fun c => -phi c) g b j) = -fun j : Fin (edges g).length => fluxBiasVectorInd phi g b j := by
    funext j
    rw [Pi.neg_apply]
    unfold fluxBiasVectorInd
    split
    · rw [biasVal_neg]; split_ifs <;> simp
    · simp
  unfold fluxBiasNodes
  rw [h1, mulVec_neg, Pi.neg_apply]

theorem chargeBiasVector_neg (q : String → ℝ) (g : CG) (i : ℕ) : chargeBiasVector (fun c => -q c) g i = -chargeBiasVector q g i := by
  unfold chargeBiasVector
  split
  · split <;> simp
  · simp

/-- The numbers of a circuit with reversed fluxes. -/
theorem assemble_reversed {g : CG} {b : Biases} {val phi q : String → ℝ} {t : Transform ℝ (nodes g).length}
    {pinv : Matrix (Fin (edges g).length) (Fin (edges g).length) ℝ → Matrix (Fin (edges g).length) (Fin (edges g).length) ℝ} {u : Prefs}
    {s : Sys PUnit (nodes g).length (edges g).length} (h1 : assemble g b val phi q t pinv u = .ok s) :
    assemble g b val (fun c => -phi c) q t pinv u = .ok { s with Pb := fun k => -s.Pb k, Pbi := fun i => -s.Pbi i } ∧
    assemble g b val (fun c => -phi c) (fun c => -q c) t pinv u =
      .ok { s with Pb := fun k => -s.Pb k, Pbi := fun i => -s.Pbi i, Qb := fun i => -s.Qb i, Qbt := fun k => -s.Qbt k } ∧
    ∀ k, ∀ p ∈ s.terms k, p.1 ≠ 0 := by
  unfold assemble at h1 ⊢
  cases hC : capacitance val (resonatorCap val) g with
  | error e => rw [hC] at h1; cases h1
  | ok C =>
  simp only [hC] at h1 ⊢
  cases hCi : inverseCapacitance t (C.block (nodes g).length (nodes g).length) with
  | none => rw [hCi] at h1; cases h1
  | some Ci =>
  simp only [hCi] at h1 ⊢
  cases hM : branchInductance val g with
  | error e => rw [hM] at h1; cases h1
  | ok M =>
  simp only [hM] at h1 ⊢
  rw [← Except.ok.inj h1]
  refine ⟨?_, ?_, fun k => by dsimp only; exact (branchTerms_good g _ _).2⟩
  · simp only [fluxBiasVector_neg]
    congr 2
    funext i
    exact fluxBiasNodes_neg phi g b i
  · have e1 : (fun i : Fin (nodes g).length => chargeBiasVector (fun c => -q c) g i) = -fun i : Fin (nodes g).length => chargeBiasVector q g i :=
      funext fun i => chargeBiasVector_neg q g i
    simp only [fluxBiasVector_neg]
    congr 2
    · rw [e1, mulVec_neg]; rfl
    · funext i
      exact fluxBiasNodes_neg phi g b i

theorem hamiltonian_exists {A : Type} [Ring A] [Algebra ℂ A] {n b : ℕ} (s : Sys A n b) :
    (∃ H, hamiltonian s = some H) ↔ (∀ i ∈ josBranches s, s.terms i ≠ []) ∧ ∀ i ∈ slipBranches s, s.terms i ≠ [] := by
  unfold hamiltonian
  rw [branchSum_spec, branchSum_spec]
  have e1 : (∀ d ∈ (josBranches s).map (josData s), d.terms ≠ []) ↔ ∀ i ∈ josBranches s, s.terms i ≠ [] := by simp [josData]
  have e2 : (∀ d ∈ (slipBranches s).map (slipData s), d.terms ≠ []) ↔ ∀ i ∈ slipBranches s, s.terms i ≠ [] := by simp [slipData]
  rw [← e1, ← e2]
  split_ifs with k1 k2
  · exact ⟨fun _ => ⟨k1, k2⟩, fun _ => ⟨_, rfl⟩⟩
  · exact ⟨fun ⟨_, h⟩ => h.elim, fun h => absurd h.2 k2⟩
  · exact ⟨fun ⟨_, h⟩ => h.elim, fun h => absurd h.1 k1⟩

theorem expand_reversed {n : ℕ} {cfg : Fin n → NodeCfg} {σ : ∀ i, Fin (cfg i).dim → Fin (cfg i).dim} {θ : ∀ i, Fin (cfg i).dim → ℝ} (h : ∀ i, Involution (σ i) (θ i))
    (κ : ℂ →+* ℂ) {i : Fin n} {A B : Op (cfg i).dim} {A' B' : BigOp cfg} (hA : expandOp cfg i A = some A') (hB : expandOp cfg i B = some B')
    (hAB : reversed κ (σ i) (θ i) A = B) : revHom κ _ _ (involution_all h) A' = B' := by
  rw [expandOp_some hA, expandOp_some hB, revHom_actsOn h, hAB]

theorem expand_reversed_neg {n : ℕ} {cfg : Fin n → NodeCfg} {σ : ∀ i, Fin (cfg i).dim → Fin (cfg i).dim} {θ : ∀ i, Fin (cfg i).dim → ℝ} (h : ∀ i, Involution (σ i) (θ i))
    (κ : ℂ →+* ℂ) {i : Fin n} {A : Op (cfg i).dim} {A' : BigOp cfg} (hA : expandOp cfg i A = some A')
    (hAB : reversed κ (σ i) (θ i) A = -A) : revHom κ _ _ (involution_all h) A' = -A' := by
  rw [expandOp_some hA, revHom_actsOn h, hAB, actsOn_neg]

/-- **C107** Time reversal: reversing all flux biases at the same charge biases changes no level.  For every circuit, with mutual inductances, resonators and
any transform of the coordinates, all values, and at every node operators for which time reversal exists. -/
theorem C107_time (g : CG) (b : Biases) (val phi q : String → ℝ) (t : Transform ℝ (nodes g).length)
    (pinv : Matrix (Fin (edges g).length) (Fin (edges g).length) ℝ → Matrix (Fin (edges g).length) (Fin (edges g).length) ℝ) (u : Prefs)
    (cfg : Fin (nodes g).length → NodeCfg) (o : ∀ i, NodeOps (cfg i).dim) (ho : ∀ i, TimeReversible (o i)) (N : Fin (nodes g).length → BigNode cfg)
    (hN : ∀ i, expandNode cfg i (o i) = some (N i)) (s : Sys PUnit (nodes g).length (edges g).length) (H : BigOp cfg)
    (h1 : assemble g b val phi q t pinv u = .ok s) (h2 : hamiltonian (s.withNodes N) = some H) :
    ∃ s' H', assemble g b val (fun c => -phi c) q t pinv u = .ok s' ∧ hamiltonian (s'.withNodes N) = some H' ∧ ∀ k E, LevelsUpTo H k E ↔ LevelsUpTo H' k E := by
  choose σ θ hi hQ hP hD hDd hS hSd using ho
  obtain ⟨a1, -, a3⟩ := assemble_reversed h1
  have ex := fun i => expandNode_some (hN i)
  obtain ⟨H', h2'⟩ := (hamiltonian_exists (Sys.withNodes { s with Pb := fun k => -s.Pb k, Pbi := fun i => -s.Pbi i } N)).2 ((hamiltonian_exists (s.withNodes N)).1 ⟨H, h2⟩)
  refine ⟨_, H', a1, h2', fun k E => ?_⟩
  have hT := map_hamiltonian_time (revHom (starRingEnd ℂ) _ _ (involution_all hi)) (num_reversed (Or.inr rfl) _ _ _) (expTau_time _ _ _) (s.withNodes N) a3
    (fun i => expand_reversed hi _ (ex i).1 (ex i).1 (hQ i)) (fun i => expand_reversed_neg hi _ (ex i).2.1 (hP i)) (fun j => ?_) (fun j => ?_) (fun j => ?_) (fun j => ?_) h2 h2'
  · rw [← hT]
    exact levels_reversed (Or.inr rfl) (involution_all hi) H k E
  · by_cases hj : j < (nodes g).length
    · rw [show (s.withNodes N).D j = (N ⟨j, hj⟩).D from dif_pos hj]
      exact expand_reversed hi _ (ex ⟨j, hj⟩).2.2.1 (ex ⟨j, hj⟩).2.2.1 (hD _)
    · rw [show (s.withNodes N).D j = 0 from dif_neg hj, map_zero]
  · by_cases hj : j < (nodes g).length
    · rw [show (s.withNodes N).Ddag j = (N ⟨j, hj⟩).Ddag from dif_pos hj]
      exact expand_reversed hi _ (ex ⟨j, hj⟩).2.2.2.1 (ex ⟨j, hj⟩).2.2.2.1 (hDd _)
    · rw [show (s.withNodes N).Ddag j = 0 from dif_neg hj, map_zero]
  · by_cases hj : j < (nodes g).length
    · rw [show (s.withNodes N).S j = (N ⟨j, hj⟩).S from dif_pos hj, show (s.withNodes N).Sdag j = (N ⟨j, hj⟩).Sdag from dif_pos hj]
      exact expand_reversed hi _ (ex ⟨j, hj⟩).2.2.2.2.1 (ex ⟨j, hj⟩).2.2.2.2.2 (hS _)
    · rw [show (s.withNodes N).S j = 0 from dif_neg hj, show (s.withNodes N).Sdag j = 0 from dif_neg hj, map_zero]
  · by_cases hj : j < (nodes g).length
    · rw [show (s.withNodes N).Sdag j = (N ⟨j, hj⟩).Sdag from dif_pos hj, show (s.withNodes N).S j = (N ⟨j, hj⟩).S from dif_pos hj]
      exact expand_reversed hi _ (ex ⟨j, hj⟩).2.2.2.2.2 (ex ⟨j, hj⟩).2.2.2.2.1 (hSd _)
    · rw [show (s.withNodes N).Sdag j = 0 from dif_neg hj, show (s.withNodes N).S j = 0 from dif_neg hj, map_zero]

/-- **C107** Charge reversal: reversing all flux biases and all charge biases changes no level.  For every circuit, with mutual inductances, resonators and
any transform of the coordinates, all values, and at every node operators for which charge reversal exists. -/
theorem C107_charge (g : CG) (b : Biases) (val phi q : String → ℝ) (t : Transform ℝ (nodes g).length)
    (pinv : Matrix (Fin (edges g).length) (Fin (edges g).length) ℝ → Matrix (Fin (edges g).length) (Fin (edges g).length) ℝ) (u : Prefs)
    (cfg : Fin (nodes g).length → NodeCfg) (o : ∀ i, NodeOps (cfg i).dim) (ho : ∀ i, ChargeReversible (o i)) (N : Fin (nodes g).length → BigNode cfg)
    (hN : ∀ i, expandNode cfg i (o i) = some (N i)) (s : Sys PUnit (nodes g).length (edges g).length) (H : BigOp cfg)
    (h1 : assemble g b val phi q t pinv u = .ok s) (h2 : hamiltonian (s.withNodes N) = some H) :
    ∃ s' H', assemble g b val (fun c => -phi c) (fun c => -q c) t pinv u = .ok s' ∧ hamiltonian (s'.withNodes N) = some H' ∧
      ∀ k E, LevelsUpTo H k E ↔ LevelsUpTo H' k E := by
  choose σ θ hi hQ hP hD hDd hS hSd using ho
  obtain ⟨-, a1, a3⟩ := assemble_reversed h1
  have ex := fun i => expandNode_some (hN i)
  obtain ⟨H', h2'⟩ := (hamiltonian_exists (Sys.withNodes { s with Pb := fun k => -s.Pb k, Pbi := fun i => -s.Pbi i, Qb := fun i => -s.Qb i, Qbt := fun k => -s.Qbt k } N)).2 ((hamiltonian_exists (s.withNodes N)).1 ⟨H, h2⟩)
  refine ⟨_, H', a1, h2', fun k E => ?_⟩
  have hT := map_hamiltonian_charge (revHom (RingHom.id ℂ) _ _ (involution_all hi)) (num_reversed (Or.inl rfl) _ _ _) (fun x => by unfold expTau; rw [revHom_number]; rfl) (s.withNodes N) a3
    (fun i => expand_reversed_neg hi _ (ex i).1 (hQ i)) (fun i => expand_reversed_neg hi _ (ex i).2.1 (hP i)) (fun j => ?_) (fun j => ?_) (fun j => ?_) (fun j => ?_) h2 h2'
  · rw [← hT]
    exact levels_reversed (Or.inl rfl) (involution_all hi) H k E
  · by_cases hj : j < (nodes g).length
    · rw [show (s.withNodes N).D j = (N ⟨j, hj⟩).D from dif_pos hj, show (s.withNodes N).Ddag j = (N ⟨j, hj⟩).Ddag from dif_pos hj]
      exact expand_reversed hi _ (ex ⟨j, hj⟩).2.2.1 (ex ⟨j, hj⟩).2.2.2.1 (hD _)
    · rw [show (s.withNodes N).D j = 0 from dif_neg hj, show (s.withNodes N).Ddag j = 0 from dif_neg hj, map_zero]
  · by_cases hj : j < (nodes g).length
    · rw [show (s.withNodes N).Ddag j = (N ⟨j, hj⟩).Ddag from dif_pos hj, show (s.withNodes N).D j = (N ⟨j, hj⟩).D from dif_pos hj]
      exact expand_reversed hi _ (ex ⟨j, hj⟩).2.2.2.1 (ex ⟨j, hj⟩).2.2.1 (hDd _)
    · rw [show (s.withNodes N).Ddag j = 0 from dif_neg hj, show (s.withNodes N).D j = 0 from dif_neg hj, map_zero]
  · by_cases hj : j < (nodes g).length
    · rw [show (s.withNodes N).S j = (N ⟨j, hj⟩).S from dif_pos hj, show (s.withNodes N).Sdag j = (N ⟨j, hj⟩).Sdag from dif_pos hj]
      exact expand_reversed hi _ (ex ⟨j, hj⟩).2.2.2.2.1 (ex ⟨j, hj⟩).2.2.2.2.2 (hS _)
    · rw [show (s.withNodes N).S j = 0 from dif_neg hj, show (s.withNodes N).Sdag j = 0 from dif_neg hj, map_zero]
  · by_cases hj : j < (nodes g).length
    · rw [show (s.withNodes N).Sdag j = (N ⟨j, hj⟩).Sdag from dif_pos hj, show (s.withNodes N).S j = (N ⟨j, hj⟩).S from dif_pos hj]
      exact expand_reversed hi _ (ex ⟨j, hj⟩).2.2.2.2.2 (ex ⟨j, hj⟩).2.2.2.2.1 (hSd _)
    · rw [show (s.withNodes N).Sdag j = 0 from dif_neg hj, show (s.withNodes N).S j = 0 from dif_neg hj, map_zero]

/-! ### The bases -/

/-- A map of the numbers that is the identity or the complex conjugation. -/
theorem star_kappa {κ : ℂ →+* ℂ} (hκ : κ = RingHom.id ℂ ∨ κ = starRingEnd ℂ) (z : ℂ) : κ (star z) = star (κ z) := by
  rcases hκ with rfl | rfl <;> rfl

theorem real_kappa {κ : ℂ →+* ℂ} (hκ : κ = RingHom.id ℂ ∨ κ = starRingEnd ℂ) (x : ℝ) : κ (x : ℂ) = x := by
  rcases hκ with rfl | rfl
  exacts [rfl, conj_ofReal x]

theorem reversed_adjoint {ι : Type} {κ : ℂ →+* ℂ} (hκ : κ = RingHom.id ℂ ∨ κ = starRingEnd ℂ) (σ : ι → ι) (θ : ι → ℝ) (A : Matrix ι ι ℂ) :
    reversed κ σ θ Aᴴ = (reversed κ σ θ A)ᴴ := by
  ext x y
  rw [reversed_apply, conjTranspose_apply, conjTranspose_apply, reversed_apply, star_kappa hκ, star_mul', star_mul', RCLike.star_def, conj_ofReal, conj_ofReal,
    mul_comm (θ x : ℂ)]

theorem reversed_smul {ι : Type} (κ : ℂ →+* ℂ) (σ : ι → ι) (θ : ι → ℝ) (c : ℂ) (A : Matrix ι ι ℂ) : reversed κ σ θ (c • A) = κ c • reversed κ σ θ A := by
  ext x y
  rw [Matrix.smul_apply, reversed_apply, reversed_apply, Matrix.smul_apply, smul_eq_mul, smul_eq_mul, map_mul]
  ring

theorem reversed_diagonal {n : ℕ} (κ : ℂ →+* ℂ) {θ : Fin n → ℝ} (h : Involution id θ) (d : Fin n → ℂ) : reversed κ id θ (diagonal d) = diagonal fun k => κ (d k) := by
  ext x y
  rw [reversed_apply]
  by_cases hxy : x = y
  · subst hxy
    rw [diagonal_apply_eq, diagonal_apply_eq, ← Complex.ofReal_mul, h.sign, Complex.ofReal_one, one_mul]
    rfl
  · rw [diagonal_apply_ne _ hxy, id, id, diagonal_apply_ne _ hxy, map_zero, mul_zero]

/-- The eigenvectors of the matrix after a change of states. -/
theorem eigh_reversed {n : ℕ} {κ : ℂ →+* ℂ} (hκ : κ = RingHom.id ℂ ∨ κ = starRingEnd ℂ) {θ : Fin n → ℝ} (h : Involution id θ) {M : Op n} {E : Fin n → ℝ} {V : Op n}
    (hE : IsEigh M E V) : IsEigh (reversed κ id θ M) E (reversed κ id θ V) where
  unitary := by
    rw [mem_unitaryGroup_iff, Matrix.star_eq_conjTranspose, ← reversed_adjoint hκ, ← revHom_apply κ id θ h, ← revHom_apply κ id θ h, ← map_mul]
    rw [show V * Vᴴ = 1 from mem_unitaryGroup_iff.1 hE.unitary, map_one]
  spec := by
    conv_lhs => rw [hE.spec]
    rw [← revHom_apply κ id θ h, map_mul, map_mul, revHom_apply, revHom_apply, revHom_apply, reversed_diagonal κ h, reversed_adjoint hκ]
    simp only [real_kappa hκ]

theorem eigh_neg {n : ℕ} {M : Op n} {E : Fin n → ℝ} {V : Op n} (hE : IsEigh M E V) : IsEigh (-M) (fun k => -E k) V where
  unitary := hE.unitary
  spec := by
    conv_lhs => rw [hE.spec]
    rw [show (fun k => ((-E k : ℝ) : ℂ)) = fun k => -(E k : ℂ) from funext fun k => by simp, ← Matrix.diagonal_neg, Matrix.mul_neg, Matrix.neg_mul]

theorem oscDisp_neg {n : ℕ} {M : Op n} {E : Fin n → ℝ} {V : Op n} (hE : IsEigh M E V) : oscDisp (fun k => -E k) V = (oscDisp E V)ᴴ := by
  unfold oscDisp expEigh
  rw [hE.inv, conjTranspose_mul, conjTranspose_mul, conjTranspose_conjTranspose, Matrix.mul_assoc, diagonal_conjTranspose]
  congr 3
  funext k
  rw [Pi.star_apply, RCLike.star_def, ← Complex.exp_conj]
  congr 1
  simp

theorem oscDisp_unique {n : ℕ} {M : Op n} {E E' : Fin n → ℝ} {V V' : Op n} (h : IsEigh M E V) (h' : IsEigh M E' V') : oscDisp E V = oscDisp E' V' := by
  rw [(C38_displacement M E V h).1, (C38_displacement M E' V' h').1]

theorem reversed_oscDisp {n : ℕ} {κ : ℂ →+* ℂ} (hκ : κ = RingHom.id ℂ ∨ κ = starRingEnd ℂ) {θ : Fin n → ℝ} (h : Involution id θ) {M : Op n} {E : Fin n → ℝ} {V : Op n}
    (hE : IsEigh M E V) : reversed κ id θ (oscDisp E V) = reversed κ id θ V * diagonal (fun k => κ (exp (I * E k))) * (reversed κ id θ V)⁻¹ := by
  rw [(eigh_reversed hκ h hE).inv]
  unfold oscDisp expEigh
  rw [hE.inv, ← revHom_apply κ id θ h, map_mul, map_mul, revHom_apply, revHom_apply, revHom_apply, reversed_diagonal κ h, reversed_adjoint hκ]

theorem disp_time_odd {n : ℕ} {θ : Fin n → ℝ} (h : Involution id θ) {M : Op n} {E : Fin n → ℝ} {V : Op n} (hE : IsEigh M E V)
    (hM : reversed (starRingEnd ℂ) id θ M = -M) : reversed (starRingEnd ℂ) id θ (oscDisp E V) = oscDisp E V := by
  have h1 := eigh_neg (eigh_reversed (Or.inr rfl) h hE)
  rw [hM, neg_neg] at h1
  rw [oscDisp_unique hE h1, ← oscDisp_unique hE h1, reversed_oscDisp (Or.inr rfl) h hE, oscDisp_unique hE h1]
  unfold oscDisp expEigh
  congr 3
  funext k
  rw [← Complex.exp_conj]
  congr 1
  simp

theorem disp_time_even {n : ℕ} {θ : Fin n → ℝ} (h : Involution id θ) {M : Op n} {E : Fin n → ℝ} {V : Op n} (hE : IsEigh M E V)
    (hM : reversed (starRingEnd ℂ) id θ M = M) : reversed (starRingEnd ℂ) id θ (oscDisp E V) = (oscDisp E V)ᴴ := by
  have h1 := eigh_neg (eigh_reversed (Or.inr rfl) h hE)
  rw [hM] at h1
  rw [← oscDisp_neg hE, oscDisp_unique (eigh_neg hE) h1, reversed_oscDisp (Or.inr rfl) h hE]
  unfold oscDisp expEigh
  congr 3
  funext k
  rw [← Complex.exp_conj]
  congr 1
  simp

theorem disp_charge_odd {n : ℕ} {θ : Fin n → ℝ} (h : Involution id θ) {M : Op n} {E : Fin n → ℝ} {V : Op n} (hE : IsEigh M E V)
    (hM : reversed (RingHom.id ℂ) id θ M = -M) : reversed (RingHom.id ℂ) id θ (oscDisp E V) = (oscDisp E V)ᴴ := by
  have h1 := eigh_reversed (Or.inl rfl) h hE
  rw [hM] at h1
  rw [← oscDisp_neg hE, oscDisp_unique (eigh_neg hE) h1, reversed_oscDisp (Or.inl rfl) h hE]
  rfl

/-- The parity of the excitations of an oscillator. -/
noncomputable def parity (n : ℕ) (k : Fin n) : ℝ := (-1) ^ (k : ℕ)

theorem parity_involution (n : ℕ) : Involution (id : Fin n → Fin n) (parity n) where
  twice _ := rfl
  sign k := by unfold parity; rw [← pow_add, ← two_mul, pow_mul]; simp

theorem reversed_destroy {n : ℕ} {κ : ℂ →+* ℂ} (hκ : κ = RingHom.id ℂ ∨ κ = starRingEnd ℂ) : reversed κ id (parity n) (destroy n) = -destroy n := by
  ext x y
  rw [reversed_apply, Matrix.neg_apply]
  unfold destroy
  simp only [id]
  split_ifs with hxy
  · rw [real_kappa hκ]
    have h1 : (parity n x : ℂ) * (parity n y : ℂ) = -1 := by
      rw [← Complex.ofReal_mul]
      unfold parity
      rw [hxy, ← pow_add, show (x : ℕ) + (x + 1) = 2 * x + 1 by ring, pow_succ, pow_mul]
      simp
    rw [h1, neg_one_mul]
  · rw [map_zero, mul_zero, neg_zero]

theorem reversed_create {n : ℕ} {κ : ℂ →+* ℂ} (hκ : κ = RingHom.id ℂ ∨ κ = starRingEnd ℂ) : reversed κ id (parity n) (create n) = -create n := by
  unfold create
  rw [reversed_adjoint hκ, reversed_destroy hκ, conjTranspose_neg]

theorem reversed_oscP {n : ℕ} {κ : ℂ →+* ℂ} (hκ : κ = RingHom.id ℂ ∨ κ = starRingEnd ℂ) (Z p : ℝ) : reversed κ id (parity n) (oscP n Z p) = -oscP n Z p := by
  unfold oscP
  rw [reversed_smul, ← revHom_apply κ id _ (parity_involution n), map_add, revHom_apply, revHom_apply, reversed_destroy hκ, reversed_create hκ, map_mul, real_kappa hκ, real_kappa hκ,
    ← neg_add, smul_neg]

theorem reversed_oscQ {n : ℕ} (Z p : ℝ) : reversed (starRingEnd ℂ) id (parity n) (oscQ n Z p) = oscQ n Z p ∧ reversed (RingHom.id ℂ) id (parity n) (oscQ n Z p) = -oscQ n Z p := by
  have key : ∀ κ : ℂ →+* ℂ, (κ = RingHom.id ℂ ∨ κ = starRingEnd ℂ) → reversed κ id (parity n) (create n - destroy n) = -(create n - destroy n) := fun κ hκ => by
    rw [← revHom_apply κ id _ (parity_involution n), map_sub, revHom_apply, revHom_apply, reversed_destroy hκ, reversed_create hκ]
    abel
  unfold oscQ
  constructor
  · rw [reversed_smul, key _ (Or.inr rfl), map_mul, map_mul, conj_I, conj_ofReal, conj_ofReal, smul_neg, ← neg_smul]
    congr 1
    ring
  · rw [reversed_smul, key _ (Or.inl rfl), smul_neg]
    rfl

/-- **C107** In the oscillator basis both reversals exist, whatever eigenvectors the diagonaliser returns. -/
theorem C107_oscillator (n : ℕ) (Z pq pp a phi0 b e hbar : ℝ) (E : Fin n → ℝ) (V : Op n) (E' : Fin n → ℝ) (V' : Op n) (h1 : IsEigh (oscPp n Z pp a phi0 hbar) E V)
    (h2 : IsEigh (oscQp n Z pq b e hbar) E' V') :
    TimeReversible (oscillatorBasis n Z pq pp E V E' V') ∧ ChargeReversible (oscillatorBasis n Z pq pp E V E' V') := by
  have hi := parity_involution n
  have p1 : ∀ κ : ℂ →+* ℂ, (κ = RingHom.id ℂ ∨ κ = starRingEnd ℂ) → reversed κ id (parity n) (oscPp n Z pp a phi0 hbar) = -oscPp n Z pp a phi0 hbar := fun κ hκ => by
    unfold oscPp
    rw [reversed_smul, reversed_oscP hκ, real_kappa hκ, smul_neg]
  have q1 : reversed (starRingEnd ℂ) id (parity n) (oscQp n Z pq b e hbar) = oscQp n Z pq b e hbar := by
    unfold oscQp
    rw [reversed_smul, (reversed_oscQ Z pq).1, conj_ofReal]
  have q2 : reversed (RingHom.id ℂ) id (parity n) (oscQp n Z pq b e hbar) = -oscQp n Z pq b e hbar := by
    unfold oscQp
    rw [reversed_smul, (reversed_oscQ Z pq).2, smul_neg]
    rfl
  have d1 := disp_time_odd hi h1 (p1 _ (Or.inr rfl))
  have d2 := disp_charge_odd hi h1 (p1 _ (Or.inl rfl))
  have s1 := disp_time_even hi h2 q1
  have s2 := disp_charge_odd hi h2 q2
  refine ⟨⟨id, parity n, hi, (reversed_oscQ Z pq).1, reversed_oscP (Or.inr rfl) Z pp, d1, ?_, s1, ?_⟩,
    ⟨id, parity n, hi, (reversed_oscQ Z pq).2, reversed_oscP (Or.inl rfl) Z pp, d2, ?_, s2, ?_⟩⟩
  · show reversed _ _ _ (oscDisp E V)ᴴ = (oscDisp E V)ᴴ
    rw [reversed_adjoint (Or.inr rfl), d1]
  · show reversed _ _ _ (oscDisp E' V')ᴴ = oscDisp E' V'
    rw [reversed_adjoint (Or.inr rfl), s1, conjTranspose_conjTranspose]
  · show reversed _ _ _ (oscDisp E V)ᴴ = oscDisp E V
    rw [reversed_adjoint (Or.inl rfl), d2, conjTranspose_conjTranspose]
  · show reversed _ _ _ (oscDisp E' V')ᴴ = oscDisp E' V'
    rw [reversed_adjoint (Or.inl rfl), s2, conjTranspose_conjTranspose]

/-- The elements of the flux operator of the charge basis. -/
theorem fourierOp_elements (t : ℕ) (s : Fin (2 * t + 1) → Fin (2 * t + 1) → ℂ) (u : ℂ) (hu : u * star u = 1)
    (hs : ∀ j, s j = Pi.single (Fin.rev j) u) (a b : Fin (2 * t + 1)) :
    fourierOp t s a b = ∑ i : Fin (2 * t + 1), (((i : ℕ) - t : ℂ) / (2 * t + 1)) *
      (((Real.sqrt (1 / (2 * t + 1)) : ℝ) : ℂ) * ((Real.sqrt (1 / (2 * t + 1)) : ℝ) : ℂ) *
        exp (2 * I * Real.pi * ((i : ℕ) - t : ℂ) * (((b : ℕ) : ℂ) - (a : ℕ)) / (2 * t + 1))) := by
  have hrev : ∀ a : Fin (2 * t + 1), (((Fin.rev a : Fin (2 * t + 1)) : ℕ) : ℂ) = 2 * t - (a : ℕ) := fun a => by
    have h1 : ((Fin.rev a : Fin (2 * t + 1)) : ℕ) + (a : ℕ) = 2 * t := by rw [Fin.val_rev]; omega
    have h2 := congrArg (Nat.cast : ℕ → ℂ) h1
    push_cast at h2
    linear_combination h2
  have hst : ∀ i a, fourierState t s i a = ((Real.sqrt (1 / (2 * t + 1)) : ℝ) : ℂ) * exp (2 * I * Real.pi * ((i : ℕ) - t : ℂ) * ((t : ℂ) - (a : ℕ)) / (2 * t + 1)) * u := by
    intro i a
    unfold fourierState
    rw [Finset.sum_apply, Finset.sum_eq_single (Fin.rev a)]
    · rw [Pi.smul_apply, hs, Fin.rev_rev, Pi.single_eq_same, smul_eq_mul, hrev]
      congr 4
      ring
    · intro j _ hj
      rw [Pi.smul_apply, hs, Pi.single_eq_of_ne (fun h => hj (by rw [h, Fin.rev_rev])), smul_zero]
    · intro h; exact absurd (Finset.mem_univ _) h
  unfold fourierOp
  rw [Matrix.sum_apply]
  refine Finset.sum_congr rfl fun i _ => ?_
  rw [Matrix.smul_apply, vecMulVec_apply, Pi.star_apply, hst, hst, smul_eq_mul, star_mul', star_mul', RCLike.star_def, conj_ofReal, ← Complex.exp_conj]
  rw [RCLike.star_def] at hu
  congr 1
  have h3 : exp (2 * I * Real.pi * ((i : ℕ) - t : ℂ) * (((b : ℕ) : ℂ) - (a : ℕ)) / (2 * t + 1)) =
      exp (2 * I * Real.pi * ((i : ℕ) - t : ℂ) * ((t : ℂ) - (a : ℕ)) / (2 * t + 1)) *
      exp ((starRingEnd ℂ) (2 * I * Real.pi * ((i : ℕ) - t : ℂ) * ((t : ℂ) - (b : ℕ)) / (2 * t + 1))) := by
    rw [← Complex.exp_add]
    congr 1
    simp [Complex.conj_ofNat]
    ring
  rw [h3]
  linear_combination (((Real.sqrt (1 / (2 * t + 1)) : ℝ) : ℂ) * ((Real.sqrt (1 / (2 * t + 1)) : ℝ) : ℂ) *
    exp (2 * I * Real.pi * ((i : ℕ) - t : ℂ) * ((t : ℂ) - (a : ℕ)) / (2 * t + 1)) *
      exp ((starRingEnd ℂ) (2 * I * Real.pi * ((i : ℕ) - t : ℂ) * ((t : ℂ) - (b : ℕ)) / (2 * t + 1)))) * hu

theorem fourierOp_swap (t : ℕ) (s : Fin (2 * t + 1) → Fin (2 * t + 1) → ℂ) (u : ℂ) (hu : u * star u = 1) (hs : ∀ j, s j = Pi.single (Fin.rev j) u) (a b : Fin (2 * t + 1)) :
    fourierOp t s b a = -fourierOp t s a b := by
  rw [fourierOp_elements t s u hu hs, fourierOp_elements t s u hu hs, ← Finset.sum_neg_distrib, ← Equiv.sum_comp Fin.revPerm]
  refine Finset.sum_congr rfl fun i _ => ?_
  have hrev : (((Fin.revPerm i : Fin (2 * t + 1)) : ℕ) : ℂ) = 2 * t - (i : ℕ) := by
    have h1 : ((Fin.rev i : Fin (2 * t + 1)) : ℕ) + (i : ℕ) = 2 * t := by rw [Fin.val_rev]; omega
    have h2 := congrArg (Nat.cast : ℕ → ℂ) h1
    push_cast at h2
    rw [Fin.revPerm_apply]
    linear_combination h2
  rw [hrev, show (2 * I * Real.pi * (2 * t - (i : ℕ) - t : ℂ) * (((a : ℕ) : ℂ) - (b : ℕ)) / (2 * t + 1)) =
    2 * I * Real.pi * ((i : ℕ) - t : ℂ) * (((b : ℕ) : ℂ) - (a : ℕ)) / (2 * t + 1) by ring]
  ring

/-- **C107** In the charge basis both reversals exist, if the eigenvectors of the number operator come with equal phases. -/
theorem C107_charge_basis (t : ℕ) (q : Fin (2 * t + 1) → ℝ) (s : Fin (2 * t + 1) → Fin (2 * t + 1) → ℂ) (E : Fin (2 * t + 1) → ℝ) (V : Op (2 * t + 1))
    (hs : IsEigenstates (-(numOp (2 * t + 1) t)) q s) (hphase : ∀ i j, s i (Fin.rev i) = s j (Fin.rev j)) (hE : IsEigh (fourierOp t s) E V) :
    TimeReversible (chargeBasis t q s E V) ∧ ChargeReversible (chargeBasis t q s E V) := by
  obtain ⟨u, hu, hsu, -, hQ, hS⟩ := C37_any_phases t q s E V hs hE
  obtain ⟨-, hD, hDd, -⟩ := C37_charge_basis_partial t q s E V hs hphase hE
  have hu0 : ∀ m, u m = u 0 := fun m => by
    have h1 := hphase (Fin.rev m) (Fin.rev 0)
    rwa [hsu, hsu, Fin.rev_rev, Fin.rev_rev, Pi.single_eq_same, Pi.single_eq_same] at h1
  have huu : u 0 * star (u 0) = 1 := by
    rw [RCLike.star_def, Complex.mul_conj, Complex.normSq_eq_norm_sq, hu]
    simp
  have hs' : ∀ j, s j = Pi.single (Fin.rev j) (u 0) := fun j => by rw [hsu, hu0]
  have hP := fourierOp_swap t s (u 0) huu hs'
  have hPh : ∀ a b, (starRingEnd ℂ) (fourierOp t s a b) = fourierOp t s b a := fun a b => by
    have := congrFun (congrFun (fourierOp_hermitian t s) b) a
    rwa [conjTranspose_apply] at this
  have hSd : (chargeBasis t q s E V).Sdag = 1 := by
    show ((chargeBasis t q s E V).S)ᴴ = 1
    rw [hS, conjTranspose_one]
  have i1 : Involution (id : Fin (2 * t + 1) → Fin (2 * t + 1)) (fun _ => 1) := ⟨fun _ => rfl, fun _ => by norm_num⟩
  have i2 : Involution (Fin.rev : Fin (2 * t + 1) → Fin (2 * t + 1)) (fun _ => 1) := ⟨Fin.rev_rev, fun _ => by norm_num⟩
  have d1 : reversed (starRingEnd ℂ) id (fun _ => 1) (chargeBasis t q s E V).D = (chargeBasis t q s E V).D := by
    ext x y
    rw [reversed_apply, id, id, hD]
    split_ifs <;> simp
  have d2 : reversed (RingHom.id ℂ) Fin.rev (fun _ => 1) (chargeBasis t q s E V).D = (chargeBasis t q s E V).Ddag := by
    ext x y
    rw [hDd, conjTranspose_apply, reversed_apply, hD, hD]
    have hiff : ((Fin.rev y : Fin (2 * t + 1)) : ℕ) = (Fin.rev x : Fin (2 * t + 1)) + 1 ↔ (x : ℕ) = y + 1 := by
      rw [Fin.val_rev, Fin.val_rev]
      omega
    by_cases h1 : (x : ℕ) = y + 1
    · rw [if_pos h1, if_pos (hiff.2 h1)]; simp
    · rw [if_neg h1, if_neg (fun h2 => h1 (hiff.1 h2))]; simp
  refine ⟨⟨id, fun _ => 1, i1, ?_, ?_, d1, ?_, ?_, ?_⟩, ⟨Fin.rev, fun _ => 1, i2, ?_, ?_, d2, ?_, ?_, ?_⟩⟩
  · rw [hQ, reversed_diagonal _ i1]
    congr 1
    funext k
    simp
  · ext x y
    show reversed _ _ _ (fourierOp t s) x y = -fourierOp t s x y
    rw [reversed_apply, id, id, hPh, hP]
    simp
  · rw [hDd, reversed_adjoint (Or.inr rfl), d1]
  · rw [hS, hSd, ← revHom_apply _ _ _ i1, map_one]
  · rw [hS, hSd, ← revHom_apply _ _ _ i1, map_one]
  · ext x y
    rw [hQ, reversed_apply, Matrix.neg_apply]
    by_cases hxy : x = y
    · subst hxy
      rw [diagonal_apply_eq, diagonal_apply_eq]
      have h1 : ((Fin.rev x : Fin (2 * t + 1)) : ℕ) + (x : ℕ) = 2 * t := by rw [Fin.val_rev]; omega
      have h2 := congrArg (Nat.cast : ℕ → ℂ) h1
      push_cast at h2
      simp only [Complex.ofReal_one, one_mul, RingHom.id_apply]
      linear_combination -h2
    · rw [diagonal_apply_ne _ hxy, diagonal_apply_ne _ (fun h => hxy (Fin.rev_injective h))]
      simp
  · ext x y
    show reversed _ _ _ (fourierOp t s) x y = -fourierOp t s x y
    rw [reversed_apply, ← hP, fourierOp_elements t s (u 0) huu hs', fourierOp_elements t s (u 0) huu hs']
    have h1 : ((Fin.rev x : Fin (2 * t + 1)) : ℕ) + (x : ℕ) = 2 * t := by rw [Fin.val_rev]; omega
    have h2 : ((Fin.rev y : Fin (2 * t + 1)) : ℕ) + (y : ℕ) = 2 * t := by rw [Fin.val_rev]; omega
    have h3 : ((Fin.rev y : Fin (2 * t + 1)) : ℂ) - ((Fin.rev x : Fin (2 * t + 1)) : ℕ) = ((x : ℕ) : ℂ) - (y : ℕ) := by
      have h4 := congrArg (Nat.cast : ℕ → ℂ) h1
      have h5 := congrArg (Nat.cast : ℕ → ℂ) h2
      push_cast at h4 h5
      linear_combination h5 - h4
    rw [h3]
    simp
  · have := congrArg conjTranspose d2
    rw [← reversed_adjoint (Or.inl rfl), hDd, conjTranspose_conjTranspose] at this
    rw [hDd]; exact this
  · rw [hS, hSd, ← revHom_apply _ _ _ i2, map_one]
  · rw [hS, hSd, ← revHom_apply _ _ _ i2, map_one]

theorem eigh_spectral {n : ℕ} {M : Op n} (hH : M.IsHermitian) : ∃ E V, IsEigh M E V :=
  ⟨hH.eigenvalues, hH.eigenvectorUnitary, hH.eigenvectorUnitary.2, by
    have := hH.spectral_theorem
    simpa [Function.comp_def, Matrix.star_eq_conjTranspose] using this⟩

/-- Operators with both reversals exist in the charge and oscillator bases. -/
theorem reversible_exists (c : NodeCfg) (hc : c.basis = .charge ∨ c.basis = .oscillator) : ∃ o : NodeOps c.dim, TimeReversible o ∧ ChargeReversible o := by
  obtain ⟨n, bas⟩ := c
  rcases hc with rfl | rfl
  · obtain ⟨q, E, V, h1, h2⟩ := charge_diagonalisation n (fun _ => 1) (by simp)
    exact ⟨chargeBasis n q _ E V, C107_charge_basis n q _ E V h1 (by simp) h2⟩
  · have hP : (oscPp n 1 1 1 1 1).IsHermitian := by
      unfold oscPp IsHermitian
      rw [conjTranspose_smul, (C38_hermitian n 1 1 1).2, RCLike.star_def, conj_ofReal]
    have hQ : (oscQp n 1 1 1 1 1).IsHermitian := by
      unfold oscQp IsHermitian
      rw [conjTranspose_smul, (C38_hermitian n 1 1 1).1, RCLike.star_def, conj_ofReal]
    obtain ⟨E, V, h1⟩ := eigh_spectral hP
    obtain ⟨E', V', h2⟩ := eigh_spectral hQ
    exact ⟨oscillatorBasis n 1 1 1 E V E' V', C107_oscillator n 1 1 1 1 1 1 1 1 E V E' V' h1 h2⟩

/-- The hypotheses of `C107_time` and `C107_charge` are met: the circuit with a biased inductor, a junction and a phase slip, with a flux, one node in the oscillator
and one in the charge basis. -/
example : ∃ (b : Biases) (val phi : String → ℝ)
    (pinv : Matrix (Fin (edges (run {} slipSquid)).length) (Fin (edges (run {} slipSquid)).length) ℝ →
      Matrix (Fin (edges (run {} slipSquid)).length) (Fin (edges (run {} slipSquid)).length) ℝ)
    (cfg : Fin (nodes (run {} slipSquid)).length → NodeCfg) (o : ∀ i, NodeOps (cfg i).dim) (N : Fin (nodes (run {} slipSquid)).length → BigNode cfg),
    (∀ i, TimeReversible (o i)) ∧ (∀ i, ChargeReversible (o i)) ∧ (∀ i, expandNode cfg i (o i) = some (N i)) ∧ (∀ c, phi c = 1) ∧
    ∀ (q : String → ℝ) (u : Prefs), ∃ s H, assemble (run {} slipSquid) b val phi q ⟨false, 1⟩ pinv u = .ok s ∧ hamiltonian (s.withNodes N) = some H := by
  choose pinv hp using fun M : Matrix (Fin (edges (run {} slipSquid)).length) (Fin (edges (run {} slipSquid)).length) ℝ => pinv_exists M
  have hb : ∃ b, createFluxBiases (run {} slipSquid) = .ok b := by
    cases hc : createFluxBiases (run {} slipSquid) with
    | ok b => exact ⟨b, rfl⟩
    | error e =>
      have : (match createFluxBiases (run {} slipSquid) with | .ok _ => true | .error _ => false) = true := by decide +kernel
      rw [hc] at this
      cases this
  obtain ⟨b, hb⟩ := hb
  have hL : branchesOf 'L' (branches slipSquid) = [(0, 1, "L1")] := by rw [slipSquid_branches]; decide +kernel
  let cfg : Fin (nodes (run {} slipSquid)).length → NodeCfg := fun i => if (i : ℕ) = 0 then ⟨7, .oscillator⟩ else ⟨5, .charge⟩
  have hcfg : ∀ i, (cfg i).basis = .charge ∨ (cfg i).basis = .oscillator := by
    intro i
    by_cases hi : (i : ℕ) = 0
    · right; simp [cfg, hi]
    · left; simp [cfg, hi]
  choose o ho hD using fun i => reversible_exists (cfg i) (hcfg i)
  choose N hN using fun i => expandNode_standard (cfg := cfg) (fun i => (hcfg i)) i (o i)
  obtain ⟨sgn, -, -, hop⟩ := C97_operator_partial slipSquid _ slipSquid_settled slipSquid_ok slipSquid_netlist b hb
  have hgr : GroundedBiases (fun _ => 1) slipSquid := by
    intro br hbr _
    rw [hL] at hbr
    refine ⟨1, one_ne_zero, Or.inl ?_, ?_⟩
    · rw [List.mem_singleton.1 hbr]; exact ⟨rfl, rfl⟩
    · intro b' hb' hne
      rw [hL] at hb'
      exact absurd ((List.mem_singleton.1 hb').trans (List.mem_singleton.1 hbr).symm) hne
  have ex : ∀ (val q : String → ℝ) (u : Prefs), 0 < val "C1" → 0 < val "C2" → 0 < val "L1" → ∃ s H,
      assemble (run {} slipSquid) b val (fun _ => 1) q ⟨false, 1⟩ pinv u = .ok s ∧ hamiltonian (s.withNodes N) = some H := by
    intro val q u h1 h2 h3
    obtain ⟨s, C, k1, -, -, -, k2⟩ := hop val (fun _ => 1) q (slipSquid_caps val h1.le h2.le) (slipSquid_conn val h1.ne' h2.ne')
      (by rw [hL]; simpa using h3.ne') hgr pinv hp u cfg o N hN
    exact ⟨s, _, k1, k2⟩
  exact ⟨b, fun _ => 1, fun _ => 1, pinv, cfg, o, N, ho, hD, hN, fun _ => rfl, fun q u => ex _ q u one_pos one_pos one_pos⟩

end Verif.Props
