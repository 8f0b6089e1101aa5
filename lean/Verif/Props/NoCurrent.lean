import Verif.Props.HalfQuantum

/-!
# C108: states without current and voltage
-/

namespace Verif.Props

open Verif Verif.Num Verif.Circuit Verif.Sym Verif.Spec Matrix Complex

/-- The expectation value of an operator that changes sign vanishes in a state that is the only one of its energy. -/
theorem expectation_zero {ι : Type} [Fintype ι] [DecidableEq ι] {κ : ℂ →+* ℂ} (hκ : κ = RingHom.id ℂ ∨ κ = starRingEnd ℂ) {σ : ι → ι} {θ : ι → ℝ} (hi : Involution σ θ)
    {H X : Matrix ι ι ℂ} (hH : reversed κ σ θ H = H) (hX : reversed κ σ θ X = -X) {E : ℝ} {v : ι → ℂ} (hv : H.mulVec v = (E : ℂ) • v)
    (hdeg : ∀ w : ι → ℂ, H.mulVec w = (E : ℂ) • w → ∃ c : ℂ, w = c • v) : matrixElement X v v = 0 := by
  let e : ι ≃ ι := Function.Involutive.toPerm σ hi.twice
  have he : ∀ x, e x = σ x := fun x => rfl
  have hθ : ∀ x, (θ x : ℂ) * θ x = 1 := fun x => by rw [← Complex.ofReal_mul, hi.sign, Complex.ofReal_one]
  have hre : ∀ z : ℂ, (κ z).re = z.re := by
    rcases hκ with rfl | rfl <;> intro z <;> simp
  have hst : ∀ z : ℂ, star (κ z) = κ (star z) := fun z => (star_kappa hκ z).symm
  have hr : ∀ x : ℝ, κ (x : ℂ) = x := real_kappa hκ
  let w : ι → ℂ := fun x => (θ x : ℂ) * κ (v (σ x))
  have hmul : ∀ (A : Matrix ι ι ℂ) x, (∑ y, (reversed κ σ θ A) x y * w y) = (θ x : ℂ) * κ (A.mulVec v (σ x)) := by
    intro A x
    unfold Matrix.mulVec dotProduct
    rw [map_sum, Finset.mul_sum, ← Equiv.sum_comp e]
    refine Finset.sum_congr rfl fun y _ => ?_
    rw [reversed_apply, he, hi.twice, map_mul]
    show (θ x : ℂ) * (θ (σ y) : ℂ) * κ (A (σ x) y) * ((θ (σ y) : ℂ) * κ (v (σ (σ y)))) = _
    rw [hi.twice]
    linear_combination ((θ x : ℂ) * κ (A (σ x) y) * κ (v y)) * hθ (σ y)
  have hw : H.mulVec w = (E : ℂ) • w := by
    funext x
    have h1 := hmul H x
    rw [hH, hv] at h1
    show ∑ y, H x y * w y = _
    rw [h1, Pi.smul_apply, Pi.smul_apply, smul_eq_mul, map_mul, hr]
    show _ = (E : ℂ) * ((θ x : ℂ) * κ (v (σ x)))
    ring
  obtain ⟨c, hc⟩ := hdeg w hw
  have hnorm : star w ⬝ᵥ w = κ (star v ⬝ᵥ v) := by
    unfold dotProduct
    rw [map_sum, ← Equiv.sum_comp e]
    refine Finset.sum_congr rfl fun y _ => ?_
    rw [he, Pi.star_apply, Pi.star_apply, map_mul]
    show star ((θ (σ y) : ℂ) * κ (v (σ (σ y)))) * ((θ (σ y) : ℂ) * κ (v (σ (σ y)))) = _
    rw [hi.twice, star_mul', hst, show star (θ (σ y) : ℂ) = θ (σ y) from Complex.conj_ofReal _]
    linear_combination (κ (star (v y)) * κ (v y)) * hθ (σ y)
  have hexp : star w ⬝ᵥ X.mulVec w = -κ (star v ⬝ᵥ X.mulVec v) := by
    have hx : ∀ x, X.mulVec w x = -((θ x : ℂ) * κ (X.mulVec v (σ x))) := by
      intro x
      have h1 := hmul X x
      rw [hX] at h1
      rw [← h1, ← Finset.sum_neg_distrib]
      show ∑ y, X x y * w y = _
      refine Finset.sum_congr rfl fun y _ => ?_
      rw [Matrix.neg_apply]; ring
    unfold dotProduct
    rw [map_sum, ← Equiv.sum_comp e, ← Finset.sum_neg_distrib]
    refine Finset.sum_congr rfl fun y _ => ?_
    rw [he, Pi.star_apply, Pi.star_apply, map_mul, hx, hi.twice]
    show star ((θ (σ y) : ℂ) * κ (v (σ (σ y)))) * _ = _
    rw [hi.twice, star_mul', hst, show star (θ (σ y) : ℂ) = θ (σ y) from Complex.conj_ofReal _]
    linear_combination -(κ (star (v y)) * κ (X.mulVec v y)) * hθ (σ y)
  rw [hc] at hnorm hexp
  rw [mulVec_smul, star_smul, smul_dotProduct, dotProduct_smul, smul_eq_mul, smul_eq_mul] at hexp
  rw [star_smul, smul_dotProduct, dotProduct_smul, smul_eq_mul, smul_eq_mul] at hnorm
  unfold matrixElement
  by_cases hv0 : v = 0
  · rw [hv0]; simp
  have hsq : star v ⬝ᵥ v = ((∑ i, Complex.normSq (v i) : ℝ) : ℂ) := by
    unfold dotProduct
    rw [Complex.ofReal_sum]
    exact Finset.sum_congr rfl fun i _ => (Complex.normSq_eq_conj_mul_self).symm
  have hpos : star v ⬝ᵥ v ≠ 0 := by
    intro h0
    rw [hsq, Complex.ofReal_eq_zero, Finset.sum_eq_zero_iff_of_nonneg fun i _ => Complex.normSq_nonneg _] at h0
    exact hv0 (funext fun i => Complex.normSq_eq_zero.1 (h0 i (Finset.mem_univ i)))
  have hreal : κ (star v ⬝ᵥ v) = star v ⬝ᵥ v := by rw [hsq, hr]
  have hcc : star c * c = 1 := by
    rw [hreal, ← mul_assoc] at hnorm
    exact mul_right_cancel₀ hpos (hnorm.trans (one_mul _).symm)
  rw [← mul_assoc, hcc, one_mul] at hexp
  have h2 := congrArg Complex.re hexp
  rw [Complex.neg_re, hre] at h2
  linarith

/-! ### The operators of current and voltage -/

theorem map_current_time {A : Type} [Ring A] [Algebra ℂ A] (T : A →+* A) (hT : ∀ z, T (algebraMap ℂ A z) = algebraMap ℂ A ((starRingEnd ℂ) z)) {n b : ℕ} (s : Sys A n b)
    (hF : ∀ j, T (s.flux j) = -s.flux j) (hD : ∀ j, T (s.D j) = s.D j) (hDd : ∀ j, T (s.Ddag j) = s.Ddag j) (k : Fin b)
    (hexp : expTau A (-(s.Pb k)) = expTau A (s.Pb k)) (hTe : T (expTau A (s.Pb k)) = expTau A (s.Pb k)) {X : A} (hX : currentOperator s k = .ok X) : T X = -X := by
  have hn : ∀ x : ℝ, T (num A x) = num A x := fun x => by
    show T (algebraMap ℂ A (x : ℂ)) = algebraMap ℂ A (x : ℂ)
    rw [hT, Complex.conj_ofReal]
  unfold currentOperator at hX
  cases hk : s.kind k with
  | other => rw [hk] at hX; cases hX
  | «inductive» =>
    simp only [hk] at hX
    split_ifs at hX
    rw [← Except.ok.inj hX, map_mul, map_mul, hn, hn, map_list_sum, List.map_map]
    have : ∀ ts : List (ℝ × ℕ), (ts.map (T ∘ fun p => num A p.1 * s.flux p.2)).sum = -(ts.map fun p => num A p.1 * s.flux p.2).sum := by
      intro ts
      induction ts with
      | nil => simp
      | cons p ts ih => simp only [List.map_cons, List.sum_cons, ih, Function.comp_apply, map_mul, hn, hF]; rw [mul_neg]; abel
    rw [this, mul_neg, neg_mul]
  | josephson =>
    simp only [hk] at hX
    split_ifs at hX
    have hc : (starRingEnd ℂ) (1 / 2 * I) = -(1 / 2 * I) := by simp [Complex.conj_ofNat]
    rw [← Except.ok.inj hX, hexp, map_mul, map_mul, map_mul, hn, hn, hT, hc, map_neg, map_sub, map_disp T hD hDd, map_disp T hD hDd, hTe, neg_mul, neg_mul, neg_mul]

theorem map_current_charge {A : Type} [Ring A] [Algebra ℂ A] (T : A →+* A) (hT : ∀ z, T (algebraMap ℂ A z) = algebraMap ℂ A z) {n b : ℕ} (s : Sys A n b)
    (hF : ∀ j, T (s.flux j) = -s.flux j) (hD : ∀ j, T (s.D j) = s.Ddag j) (hDd : ∀ j, T (s.Ddag j) = s.D j) (k : Fin b) (hts : ∀ p ∈ s.terms k, p.1 ≠ 0)
    (hexp : expTau A (-(s.Pb k)) = expTau A (s.Pb k)) {X : A} (hX : currentOperator s k = .ok X) : T X = -X := by
  have hn : ∀ x : ℝ, T (num A x) = num A x := fun x => hT (x : ℂ)
  unfold currentOperator at hX
  cases hk : s.kind k with
  | other => rw [hk] at hX; cases hX
  | «inductive» =>
    simp only [hk] at hX
    split_ifs at hX
    rw [← Except.ok.inj hX, map_mul, map_mul, hn, hn, map_list_sum, List.map_map]
    have : ∀ ts : List (ℝ × ℕ), (ts.map (T ∘ fun p => num A p.1 * s.flux p.2)).sum = -(ts.map fun p => num A p.1 * s.flux p.2).sum := by
      intro ts
      induction ts with
      | nil => simp
      | cons p ts ih => simp only [List.map_cons, List.sum_cons, ih, Function.comp_apply, map_mul, hn, hF]; rw [mul_neg]; abel
    rw [this, mul_neg, neg_mul]
  | josephson =>
    simp only [hk] at hX
    split_ifs at hX
    have hTe : T (expTau A (s.Pb k)) = expTau A (s.Pb k) := hT _
    rw [← Except.ok.inj hX, hexp, map_mul, map_mul, map_mul, hn, hn, hT, map_sub, map_disp T hD hDd, map_disp T hD hDd, hTe, disp_swap s.D s.Ddag false _ hts,
      disp_swap s.D s.Ddag true _ hts, ← mul_neg, neg_sub]
    rfl

theorem expTau_quanta {A : Type} [Ring A] [Algebra ℂ A] (x : ℝ) (m : ℤ) : expTau A (x + m) = expTau A x := by
  rw [expTau_eq, expTau_eq]
  congr 1
  rw [Complex.exp_eq_exp_iff_exists_int]
  refine ⟨m, ?_⟩
  push_cast
  ring

theorem map_voltage_charge {A : Type} [Ring A] [Algebra ℂ A] (T : A →+* A) (hT : ∀ x, T (num A x) = num A x) {n b : ℕ} (s : Sys A n b)
    (i : Fin n) (hQ : T (s.Q i) = -s.Q i) (hq : s.Qb i = 0) : T (voltageOperator (num A) s i) = -voltageOperator (num A) s i := by
  unfold voltageOperator
  rw [hq, map_mul, map_mul, hT, hT, map_add, hQ, map_zero, map_zero, add_zero, add_zero, mul_neg, neg_mul]

theorem half_quanta {g : CG} {b : Biases} {val phi q : String → ℝ} {t : Transform ℝ (nodes g).length}
    {pinv : Matrix (Fin (edges g).length) (Fin (edges g).length) ℝ → Matrix (Fin (edges g).length) (Fin (edges g).length) ℝ} {u : Prefs}
    {s s₁ : Sys PUnit (nodes g).length (edges g).length} (m : String → ℤ) (hphi : ∀ c, phi c + phi c = m c)
    (hm : ∀ e ∈ edges g, isEdgeOf g 'L' e = .ok true → ∀ c, b.flux.get? e = some (some c) → m c = 0)
    (h1 : assemble g b val phi q t pinv u = .ok s) (h2 : assemble g b val (fun c => -phi c) q t pinv u = .ok s₁) :
    s = { s₁ with Pb := fun k => s₁.Pb k + (fluxBiasVector m g b k : ℤ) } := by
  have h3 := assemble_quanta m hm h2
  have h4 : (fun c => -phi c + (m c : ℝ)) = phi := funext fun c => by rw [← hphi]; ring
  rw [h4, h1] at h3
  exact Except.ok.inj h3

/-- **C108** (current) No current flows in a state that is the only one of its energy when every flux bias is a multiple of half a flux quantum (zero on the inductors), whatever the charge
biases: the expectation value of the current operator of every branch is zero. -/
theorem C108_current (g : CG) (b : Biases) (val phi q : String → ℝ) (t : Transform ℝ (nodes g).length)
    (pinv : Matrix (Fin (edges g).length) (Fin (edges g).length) ℝ → Matrix (Fin (edges g).length) (Fin (edges g).length) ℝ) (u : Prefs)
    (cfg : Fin (nodes g).length → NodeCfg) (o : ∀ i, NodeOps (cfg i).dim) (ho : ∀ i, TimeReversible (o i)) (N : Fin (nodes g).length → BigNode cfg)
    (hN : ∀ i, expandNode cfg i (o i) = some (N i)) (m : String → ℤ) (hphi : ∀ c, phi c + phi c = m c)
    (hm : ∀ e ∈ edges g, isEdgeOf g 'L' e = .ok true → ∀ c, b.flux.get? e = some (some c) → m c = 0)
    (s : Sys PUnit (nodes g).length (edges g).length) (H : BigOp cfg)
    (h1 : assemble g b val phi q t pinv u = .ok s) (h2 : hamiltonian (s.withNodes N) = some H) (k : Fin (edges g).length) (X : BigOp cfg)
    (hX : currentOperator (s.withNodes N) k = .ok X) (E : ℝ) (v : (∀ i, Fin (cfg i).dim) → ℂ) (hv : H.mulVec v = (E : ℂ) • v)
    (hdeg : ∀ w, H.mulVec w = (E : ℂ) • w → ∃ c : ℂ, w = c • v) : matrixElement X v v = 0 := by
  choose σ θ hi hQ hP hD hDd hS hSd using ho
  obtain ⟨a1, -, a3⟩ := assemble_reversed h1
  have ex := fun i => expandNode_some (hN i)
  have hs := half_quanta m hphi hm h1 a1
  obtain ⟨H', h2'⟩ := (hamiltonian_exists (Sys.withNodes { s with Pb := fun k => -s.Pb k, Pbi := fun i => -s.Pbi i } N)).2 ((hamiltonian_exists (s.withNodes N)).1 ⟨H, h2⟩)
  have hHH : H' = H := by
    have h5 := C71_periodic (Sys.withNodes { s with Pb := fun k => -s.Pb k, Pbi := fun i => -s.Pbi i } N) (fun k => fluxBiasVector m g b k) 0
    have h6 : hamiltonian (s.withNodes N) = hamiltonian (Sys.withNodes { s with Pb := fun k => -s.Pb k, Pbi := fun i => -s.Pbi i } N) := by
      conv_lhs => rw [hs]
      simpa [Sys.withNodes] using h5
    exact Option.some.inj (h2'.symm.trans (h6.symm.trans h2))
  have d1 : ∀ j, revHom (starRingEnd ℂ) _ _ (involution_all hi) ((s.withNodes N).D j) = (s.withNodes N).D j := fun j => by
    by_cases hj : j < (nodes g).length
    · rw [show (s.withNodes N).D j = (N ⟨j, hj⟩).D from dif_pos hj]
      exact expand_reversed hi _ (ex ⟨j, hj⟩).2.2.1 (ex ⟨j, hj⟩).2.2.1 (hD _)
    · rw [show (s.withNodes N).D j = 0 from dif_neg hj, map_zero]
  have d2 : ∀ j, revHom (starRingEnd ℂ) _ _ (involution_all hi) ((s.withNodes N).Ddag j) = (s.withNodes N).Ddag j := fun j => by
    by_cases hj : j < (nodes g).length
    · rw [show (s.withNodes N).Ddag j = (N ⟨j, hj⟩).Ddag from dif_pos hj]
      exact expand_reversed hi _ (ex ⟨j, hj⟩).2.2.2.1 (ex ⟨j, hj⟩).2.2.2.1 (hDd _)
    · rw [show (s.withNodes N).Ddag j = 0 from dif_neg hj, map_zero]
  have d3 : ∀ j, revHom (starRingEnd ℂ) _ _ (involution_all hi) ((s.withNodes N).flux j) = -(s.withNodes N).flux j := fun j => by
    by_cases hj : j < (nodes g).length
    · rw [show (s.withNodes N).flux j = (N ⟨j, hj⟩).P from dif_pos hj]
      exact expand_reversed_neg hi _ (ex ⟨j, hj⟩).2.1 (hP _)
    · rw [show (s.withNodes N).flux j = 0 from dif_neg hj, map_zero, neg_zero]
  have hT := map_hamiltonian_time (revHom (starRingEnd ℂ) _ _ (involution_all hi)) (num_reversed (Or.inr rfl) _ _ _) (expTau_time _ _ _) (s.withNodes N) a3
    (fun i => expand_reversed hi _ (ex i).1 (ex i).1 (hQ i)) (fun i => expand_reversed_neg hi _ (ex i).2.1 (hP i)) d1 d2 (fun j => ?_) (fun j => ?_) h2 h2'
  · rw [hHH] at hT
    have he : expTau (BigOp cfg) (-((s.withNodes N).Pb k)) = expTau (BigOp cfg) ((s.withNodes N).Pb k) := by
      have h7 : s.Pb k = -s.Pb k + (fluxBiasVector m g b k : ℤ) := congrFun (congrArg Sys.Pb hs) k
      show expTau (BigOp cfg) (-(s.Pb k)) = expTau (BigOp cfg) (s.Pb k)
      conv_rhs => rw [h7]
      exact (expTau_quanta _ _).symm
    exact expectation_zero (Or.inr rfl) (involution_all hi) hT
      (map_current_time (revHom (starRingEnd ℂ) _ _ (involution_all hi)) (fun z => revHom_number _ _ _ _ _) (s.withNodes N) d3 d1 d2 k he ((expTau_time _ _ _ _).trans he) hX) hv hdeg
  · by_cases hj : j < (nodes g).length
    · rw [show (s.withNodes N).S j = (N ⟨j, hj⟩).S from dif_pos hj, show (s.withNodes N).Sdag j = (N ⟨j, hj⟩).Sdag from dif_pos hj]
      exact expand_reversed hi _ (ex ⟨j, hj⟩).2.2.2.2.1 (ex ⟨j, hj⟩).2.2.2.2.2 (hS _)
    · rw [show (s.withNodes N).S j = 0 from dif_neg hj, show (s.withNodes N).Sdag j = 0 from dif_neg hj, map_zero]
  · by_cases hj : j < (nodes g).length
    · rw [show (s.withNodes N).Sdag j = (N ⟨j, hj⟩).Sdag from dif_pos hj, show (s.withNodes N).S j = (N ⟨j, hj⟩).S from dif_pos hj]
      exact expand_reversed hi _ (ex ⟨j, hj⟩).2.2.2.2.2 (ex ⟨j, hj⟩).2.2.2.2.1 (hSd _)
    · rw [show (s.withNodes N).Sdag j = 0 from dif_neg hj, show (s.withNodes N).S j = 0 from dif_neg hj, map_zero]

/-- **C108** (voltage) No node carries a voltage in a state that is the only one of its energy when there are no charge biases and every flux bias is a multiple of half a flux quantum
(zero on the inductors): the expectation value of the voltage operator of every node is zero. -/
theorem C108_voltage (g : CG) (b : Biases) (val phi q : String → ℝ) (t : Transform ℝ (nodes g).length)
    (pinv : Matrix (Fin (edges g).length) (Fin (edges g).length) ℝ → Matrix (Fin (edges g).length) (Fin (edges g).length) ℝ) (u : Prefs)
    (cfg : Fin (nodes g).length → NodeCfg) (o : ∀ i, NodeOps (cfg i).dim) (ho : ∀ i, ChargeReversible (o i)) (N : Fin (nodes g).length → BigNode cfg)
    (hN : ∀ i, expandNode cfg i (o i) = some (N i)) (m : String → ℤ) (hphi : ∀ c, phi c + phi c = m c) (hq : ∀ c, q c = 0)
    (hm : ∀ e ∈ edges g, isEdgeOf g 'L' e = .ok true → ∀ c, b.flux.get? e = some (some c) → m c = 0)
    (s : Sys PUnit (nodes g).length (edges g).length) (H : BigOp cfg)
    (h1 : assemble g b val phi q t pinv u = .ok s) (h2 : hamiltonian (s.withNodes N) = some H) (i : Fin (nodes g).length)
    (E : ℝ) (v : (∀ i, Fin (cfg i).dim) → ℂ) (hv : H.mulVec v = (E : ℂ) • v)
    (hdeg : ∀ w, H.mulVec w = (E : ℂ) • w → ∃ c : ℂ, w = c • v) : matrixElement (voltageOperator (num (BigOp cfg)) (s.withNodes N) i) v v = 0 := by
  choose σ θ hi hQ hP hD hDd hS hSd using ho
  obtain ⟨-, a1, a3⟩ := assemble_reversed h1
  rw [show (fun c => -q c) = q from funext fun c => by rw [hq, neg_zero]] at a1
  have ex := fun i => expandNode_some (hN i)
  have hs := half_quanta m hphi hm h1 a1
  obtain ⟨H', h2'⟩ := (hamiltonian_exists (Sys.withNodes { s with Pb := fun k => -s.Pb k, Pbi := fun i => -s.Pbi i, Qb := fun i => -s.Qb i, Qbt := fun k => -s.Qbt k } N)).2 ((hamiltonian_exists (s.withNodes N)).1 ⟨H, h2⟩)
  have hHH : H' = H := by
    have h5 := C71_periodic (Sys.withNodes { s with Pb := fun k => -s.Pb k, Pbi := fun i => -s.Pbi i, Qb := fun i => -s.Qb i, Qbt := fun k => -s.Qbt k } N) (fun k => fluxBiasVector m g b k) 0
    have h6 : hamiltonian (s.withNodes N) = hamiltonian (Sys.withNodes { s with Pb := fun k => -s.Pb k, Pbi := fun i => -s.Pbi i, Qb := fun i => -s.Qb i, Qbt := fun k => -s.Qbt k } N) := by
      conv_lhs => rw [hs]
      simpa [Sys.withNodes] using h5
    exact Option.some.inj (h2'.symm.trans (h6.symm.trans h2))
  have hT := map_hamiltonian_charge (revHom (RingHom.id ℂ) _ _ (involution_all hi)) (num_reversed (Or.inl rfl) _ _ _) (fun x => by unfold expTau; rw [revHom_number]; rfl) (s.withNodes N) a3
    (fun i => expand_reversed_neg hi _ (ex i).1 (hQ i)) (fun i => expand_reversed_neg hi _ (ex i).2.1 (hP i)) (fun j => ?_) (fun j => ?_) (fun j => ?_) (fun j => ?_) h2 h2'
  · rw [hHH] at hT
    have h7 : s.Qb i = -s.Qb i := congrFun (congrArg Sys.Qb hs) i
    exact expectation_zero (Or.inl rfl) (involution_all hi) hT
      (map_voltage_charge (revHom (RingHom.id ℂ) _ _ (involution_all hi)) (num_reversed (Or.inl rfl) _ _ _) (s.withNodes N) i (expand_reversed_neg hi _ (ex i).1 (hQ i))
        (show s.Qb i = 0 by linarith)) hv hdeg
  · by_cases hj : j < (nodes g).length
    · rw [show (s.withNodes N).D j = (N ⟨j, hj⟩).D from dif_pos hj, show (s.withNodes N).Ddag j = (N ⟨j, hj⟩).Ddag from dif_pos hj]
      exact expand_reversed hi _ (ex ⟨j, hj⟩).2.2.1 (ex ⟨j, hj⟩).2.2.2.1 (hD _)
    · rw [show (s.withNodes N).D j = 0 from dif_neg hj, show (s.withNodes N).Ddag j = 0 from dif_neg hj, map_zero]
  · by_cases hj : j < (nodes g).length
    · rw [show (s.withNodes N).Ddag j = (N ⟨j, hj⟩).Ddag from dif_pos hj, show (s.withNodes N).D j = (N ⟨j, hj⟩).D from dif_pos hj]
      exact expand_reversed hi _ (ex ⟨j, hj⟩).2.2.2.1 (ex ⟨j, hj⟩).2.2.1 (hDd _)
    · rw [show (s.withNodes N).Ddag j = 0 from dif_neg hj, show (s.withNodes N).D j = 0 from dif_neg hj, map_zero]
  · by_cases hj : j < (nodes g).length
    · rw [show (s.withNodes N).S j = (N ⟨j, hj⟩).S from dif_pos hj, show (s.withNodes N).Sdag j = (N ⟨j, hj⟩).Sdag from dif_pos hj]
      exact expand_reversed hi _ (ex ⟨j, hj⟩).2.2.2.2.1 (ex ⟨j, hj⟩).2.2.2.2.2 (hS _)
    · rw [show (s.withNodes N).S j = 0 from dif_neg hj, show (s.withNodes N).Sdag j = 0 from dif_neg hj, map_zero]
  · by_cases hj : j < (nodes g).length
    · rw [show (s.withNodes N).Sdag j = (N ⟨j, hj⟩).Sdag from dif_pos hj, show (s.withNodes N).S j = (N ⟨j, hj⟩).S from dif_pos hj]
      exact expand_reversed hi _ (ex ⟨j, hj⟩).2.2.2.2.2 (ex ⟨j, hj⟩).2.2.2.2.1 (hSd _)
    · rw [show (s.withNodes N).Sdag j = 0 from dif_neg hj, show (s.withNodes N).S j = 0 from dif_neg hj, map_zero]

/-- **C108** (current, without charge biases) The same follows from charge reversal, which also exists in the flux bases: no current flows in a state that is the only one of its energy when
there are no charge biases and every flux bias is a multiple of half a flux quantum (zero on the inductors). -/
theorem C108_current_neutral (g : CG) (b : Biases) (val phi q : String → ℝ) (t : Transform ℝ (nodes g).length)
    (pinv : Matrix (Fin (edges g).length) (Fin (edges g).length) ℝ → Matrix (Fin (edges g).length) (Fin (edges g).length) ℝ) (u : Prefs)
    (cfg : Fin (nodes g).length → NodeCfg) (o : ∀ i, NodeOps (cfg i).dim) (ho : ∀ i, ChargeReversible (o i)) (N : Fin (nodes g).length → BigNode cfg)
    (hN : ∀ i, expandNode cfg i (o i) = some (N i)) (m : String → ℤ) (hphi : ∀ c, phi c + phi c = m c) (hq : ∀ c, q c = 0)
    (hm : ∀ e ∈ edges g, isEdgeOf g 'L' e = .ok true → ∀ c, b.flux.get? e = some (some c) → m c = 0)
    (s : Sys PUnit (nodes g).length (edges g).length) (H : BigOp cfg)
    (h1 : assemble g b val phi q t pinv u = .ok s) (h2 : hamiltonian (s.withNodes N) = some H) (k : Fin (edges g).length) (X : BigOp cfg)
    (hX : currentOperator (s.withNodes N) k = .ok X) (E : ℝ) (v : (∀ i, Fin (cfg i).dim) → ℂ) (hv : H.mulVec v = (E : ℂ) • v)
    (hdeg : ∀ w, H.mulVec w = (E : ℂ) • w → ∃ c : ℂ, w = c • v) : matrixElement X v v = 0 := by
  choose σ θ hi hQ hP hD hDd hS hSd using ho
  obtain ⟨-, a1, a3⟩ := assemble_reversed h1
  rw [show (fun c => -q c) = q from funext fun c => by rw [hq, neg_zero]] at a1
  have ex := fun i => expandNode_some (hN i)
  have hs := half_quanta m hphi hm h1 a1
  obtain ⟨H', h2'⟩ := (hamiltonian_exists (Sys.withNodes { s with Pb := fun k => -s.Pb k, Pbi := fun i => -s.Pbi i, Qb := fun i => -s.Qb i, Qbt := fun k => -s.Qbt k } N)).2 ((hamiltonian_exists (s.withNodes N)).1 ⟨H, h2⟩)
  have hHH : H' = H := by
    have h5 := C71_periodic (Sys.withNodes { s with Pb := fun k => -s.Pb k, Pbi := fun i => -s.Pbi i, Qb := fun i => -s.Qb i, Qbt := fun k => -s.Qbt k } N) (fun k => fluxBiasVector m g b k) 0
    have h6 : hamiltonian (s.withNodes N) = hamiltonian (Sys.withNodes { s with Pb := fun k => -s.Pb k, Pbi := fun i => -s.Pbi i, Qb := fun i => -s.Qb i, Qbt := fun k => -s.Qbt k } N) := by
      conv_lhs => rw [hs]
      simpa [Sys.withNodes] using h5
    exact Option.some.inj (h2'.symm.trans (h6.symm.trans h2))
  have d1 : ∀ j, revHom (RingHom.id ℂ) _ _ (involution_all hi) ((s.withNodes N).D j) = (s.withNodes N).Ddag j := fun j => by
    by_cases hj : j < (nodes g).length
    · rw [show (s.withNodes N).D j = (N ⟨j, hj⟩).D from dif_pos hj, show (s.withNodes N).Ddag j = (N ⟨j, hj⟩).Ddag from dif_pos hj]
      exact expand_reversed hi _ (ex ⟨j, hj⟩).2.2.1 (ex ⟨j, hj⟩).2.2.2.1 (hD _)
    · rw [show (s.withNodes N).D j = 0 from dif_neg hj, show (s.withNodes N).Ddag j = 0 from dif_neg hj, map_zero]
  have d2 : ∀ j, revHom (RingHom.id ℂ) _ _ (involution_all hi) ((s.withNodes N).Ddag j) = (s.withNodes N).D j := fun j => by
    by_cases hj : j < (nodes g).length
    · rw [show (s.withNodes N).Ddag j = (N ⟨j, hj⟩).Ddag from dif_pos hj, show (s.withNodes N).D j = (N ⟨j, hj⟩).D from dif_pos hj]
      exact expand_reversed hi _ (ex ⟨j, hj⟩).2.2.2.1 (ex ⟨j, hj⟩).2.2.1 (hDd _)
    · rw [show (s.withNodes N).Ddag j = 0 from dif_neg hj, show (s.withNodes N).D j = 0 from dif_neg hj, map_zero]
  have d3 : ∀ j, revHom (RingHom.id ℂ) _ _ (involution_all hi) ((s.withNodes N).flux j) = -(s.withNodes N).flux j := fun j => by
    by_cases hj : j < (nodes g).length
    · rw [show (s.withNodes N).flux j = (N ⟨j, hj⟩).P from dif_pos hj]
      exact expand_reversed_neg hi _ (ex ⟨j, hj⟩).2.1 (hP _)
    · rw [show (s.withNodes N).flux j = 0 from dif_neg hj, map_zero, neg_zero]
  have hT := map_hamiltonian_charge (revHom (RingHom.id ℂ) _ _ (involution_all hi)) (num_reversed (Or.inl rfl) _ _ _) (fun x => by unfold expTau; rw [revHom_number]; rfl) (s.withNodes N) a3
    (fun i => expand_reversed_neg hi _ (ex i).1 (hQ i)) (fun i => expand_reversed_neg hi _ (ex i).2.1 (hP i)) d1 d2 (fun j => ?_) (fun j => ?_) h2 h2'
  · rw [hHH] at hT
    have he : expTau (BigOp cfg) (-((s.withNodes N).Pb k)) = expTau (BigOp cfg) ((s.withNodes N).Pb k) := by
      have h7 : s.Pb k = -s.Pb k + (fluxBiasVector m g b k : ℤ) := congrFun (congrArg Sys.Pb hs) k
      show expTau (BigOp cfg) (-(s.Pb k)) = expTau (BigOp cfg) (s.Pb k)
      conv_rhs => rw [h7]
      exact (expTau_quanta _ _).symm
    exact expectation_zero (Or.inl rfl) (involution_all hi) hT
      (map_current_charge (revHom (RingHom.id ℂ) _ _ (involution_all hi)) (fun z => revHom_number _ _ _ _ _) (s.withNodes N) d3 d1 d2 k (a3 k) he hX) hv hdeg
  · by_cases hj : j < (nodes g).length
    · rw [show (s.withNodes N).S j = (N ⟨j, hj⟩).S from dif_pos hj, show (s.withNodes N).Sdag j = (N ⟨j, hj⟩).Sdag from dif_pos hj]
      exact expand_reversed hi _ (ex ⟨j, hj⟩).2.2.2.2.1 (ex ⟨j, hj⟩).2.2.2.2.2 (hS _)
    · rw [show (s.withNodes N).S j = 0 from dif_neg hj, show (s.withNodes N).Sdag j = 0 from dif_neg hj, map_zero]
  · by_cases hj : j < (nodes g).length
    · rw [show (s.withNodes N).Sdag j = (N ⟨j, hj⟩).Sdag from dif_pos hj, show (s.withNodes N).S j = (N ⟨j, hj⟩).S from dif_pos hj]
      exact expand_reversed hi _ (ex ⟨j, hj⟩).2.2.2.2.2 (ex ⟨j, hj⟩).2.2.2.2.1 (hSd _)
    · rw [show (s.withNodes N).Sdag j = 0 from dif_neg hj, show (s.withNodes N).S j = 0 from dif_neg hj, map_zero]

theorem count_entry (a c : Fin (2 * 5 + 1)) : countOp 5 a c = if a = c then (5 : ℂ) - (a.val : ℂ) else 0 := by
  rw [countOp_eq, diagonal_apply]
  push_cast
  rfl

theorem assemble_kind {g : CG} {b : Biases} {val phi q : String → ℝ} {t : Transform ℝ (nodes g).length}
    {pinv : Matrix (Fin (edges g).length) (Fin (edges g).length) ℝ → Matrix (Fin (edges g).length) (Fin (edges g).length) ℝ} {u : Prefs}
    {s : Sys PUnit (nodes g).length (edges g).length} (h1 : assemble g b val phi q t pinv u = .ok s) (k : Fin (edges g).length) : s.kind k = kindOf g ((edges g).get k) ∧ s.J k = josephsonVector val g k := by
  unfold assemble at h1
  split at h1
  · cases h1
  split at h1
  · cases h1
  split at h1
  · cases h1
  · rw [← Except.ok.inj h1]
    exact ⟨rfl, rfl⟩

/-- The hypotheses of `C108_current`, `C108_current_neutral` and `C108_voltage` are met: the SQUID with equal junctions at half a flux quantum, whose junctions cancel, in a charge basis.  The state without
Cooper pairs is the only one of energy 0, and every branch of the graph has a current operator. -/
example : ∃ (b : Biases) (pinv : Matrix (Fin (edges (run {} biasedSquid)).length) (Fin (edges (run {} biasedSquid)).length) ℝ →
      Matrix (Fin (edges (run {} biasedSquid)).length) (Fin (edges (run {} biasedSquid)).length) ℝ)
    (cfg : Fin (nodes (run {} biasedSquid)).length → NodeCfg) (o : ∀ i, NodeOps (cfg i).dim) (N : Fin (nodes (run {} biasedSquid)).length → BigNode cfg),
    createFluxBiases (run {} biasedSquid) = .ok b ∧ (∀ i, TimeReversible (o i) ∧ ChargeReversible (o i)) ∧ (∀ i, expandNode cfg i (o i) = some (N i)) ∧
    (∀ (m : String → ℤ), ∀ e ∈ edges (run {} biasedSquid), isEdgeOf (run {} biasedSquid) 'L' e = .ok true → ∀ c, b.flux.get? e = some (some c) → m c = 0) ∧
    ∀ (u : Prefs) (_ : u.Ec ≠ 0), ∃ s H, assemble (run {} biasedSquid) b (fun _ => 1) (fun _ => 1 / 2) (fun _ => 0) ⟨false, 1⟩ pinv u = .ok s ∧ hamiltonian (s.withNodes N) = some H ∧
      (∀ k, ∃ X, currentOperator (s.withNodes N) k = .ok X) ∧
      ∃ v : (∀ i, Fin (cfg i).dim) → ℂ, v ≠ 0 ∧ H.mulVec v = ((0 : ℝ) : ℂ) • v ∧ ∀ w, H.mulVec w = ((0 : ℝ) : ℂ) • w → ∃ c : ℂ, w = c • v := by
  choose pinv hp using fun M : Matrix (Fin (edges (run {} biasedSquid)).length) (Fin (edges (run {} biasedSquid)).length) ℝ => pinv_exists M
  have hb : createFluxBiases (run {} biasedSquid) = .ok ⟨[((0, 1, 1), none), ((1, 0, 2), some "z")], [((0, 1, 1), none), ((1, 0, 2), some "z")]⟩ := by decide +kernel
  have hbr : branches biasedSquid = [(0, 1, "C1"), (0, 1, "I1"), (0, 1, "I2")] := by decide +kernel
  have hL : branchesOf 'L' (branches biasedSquid) = [] := by rw [hbr]; decide +kernel
  have hn : CircuitNetlist biasedSquid := by
    refine ⟨by simp [biasedSquid], ?_, ?_⟩
    · rw [hbr]; decide +kernel
    · rw [hbr]; decide +kernel
  have hI : branchesOf 'I' (branches biasedSquid) = [(0, 1, "I1"), (0, 1, "I2")] := by rw [hbr]; decide +kernel
  have hV : branchesOf 'V' (branches biasedSquid) = [] := by rw [hbr]; decide +kernel
  have hlen : (nodes (run {} biasedSquid)).length = 1 := by decide +kernel
  have hsub : Subsingleton (Fin (nodes (run {} biasedSquid)).length) := ⟨fun i j => Fin.ext (by have := i.2; have := j.2; omega)⟩
  let i0 : Fin (nodes (run {} biasedSquid)).length := ⟨0, by omega⟩
  let cfg : Fin (nodes (run {} biasedSquid)).length → NodeCfg := fun _ => ⟨5, .charge⟩
  obtain ⟨q, E, V, e1, e2⟩ := charge_diagonalisation 5 (fun _ => 1) (by simp)
  let o : ∀ i, NodeOps (cfg i).dim := fun _ => chargeBasis 5 q (fun j => Pi.single (Fin.rev j) 1) E V
  have ho : ∀ i, TimeReversible (o i) ∧ ChargeReversible (o i) := fun _ => C107_charge_basis 5 q _ E V e1 (by simp) e2
  choose N hN using fun i => expandNode_standard (cfg := cfg) (fun _ => Or.inl rfl) i (o i)
  obtain ⟨sgn, hsgn, -, hop⟩ := C97_operator_partial biasedSquid _ biasedSquid_settled biasedSquid_ok hn _ hb
  have hcaps : NonnegCaps (fun _ => 1) biasedSquid := by
    refine ⟨fun _ _ => zero_le_one, fun n _ => ?_⟩
    unfold Spec.gateCap biasedSquid
    by_cases hn : 1 = n <;> simp [hn]
  have hconn : ∀ n ∈ nodesOf (branches biasedSquid), Conn (capacitiveNet (fun _ => 1) biasedSquid) n 0 := by
    intro n hn
    rw [hbr] at hn
    have hn' : n = 0 ∨ n = 1 := by
      revert hn; revert n; decide +kernel
    rcases hn' with rfl | rfl
    · exact Conn.refl _ _
    · refine Conn.symm (Conn.edge (e := (0, 1, 0)) ?_)
      unfold capacitiveNet
      rw [hbr]
      simp [branchesOf, wires]
      decide
  have hQ : (N i0).Q = diagonal fun x : (∀ i, Fin (cfg i).dim) => (5 : ℂ) - ((x i0).val : ℂ) := by
    rw [expandOp_some (expandNode_some (hN i0)).1]
    ext x y
    have hxy : (∀ j, j ≠ i0 → x j = y j) := fun j hj => absurd (Subsingleton.elim j i0) hj
    rw [show actsOn cfg i0 (o i0).Q x y = (o i0).Q (x i0) (y i0) from if_pos hxy]
    show countOp 5 (x i0) (y i0) = _
    by_cases h0 : x i0 = y i0
    · have : x = y := funext fun j => by rw [Subsingleton.elim j i0]; exact h0
      subst this
      rw [diagonal_apply_eq]
      exact (count_entry _ _).trans (if_pos rfl)
    · rw [diagonal_apply_ne _ fun h => h0 (congrFun h i0)]
      exact (count_entry _ _).trans (if_neg h0)
  refine ⟨_, pinv, cfg, o, N, hb, ho, hN, ?_, ?_⟩
  · intro m e he hl
    exfalso
    revert hl
    revert he
    revert e
    decide +kernel
  · intro u hu
    obtain ⟨s, C, k1, -, kdet, -, k2⟩ := hop (fun _ => 1) (fun _ => 1 / 2) (fun _ => 0) hcaps hconn (by rw [hL]; simp) (by intro br hbr'; rw [hL] at hbr'; simp at hbr') pinv hp u cfg o N hN
    refine ⟨s, _, k1, k2, ?_, ?_⟩
    · intro k
      have hk : (s.withNodes N).kind k = .josephson := by
        refine (assemble_kind k1 k).1.trans ?_
        revert k
        decide +kernel
      have hterm := (hamiltonian_exists (s.withNodes N)).1 ⟨_, k2⟩
      unfold currentOperator
      simp only [hk]
      have hJ : s.J k ≠ 0 := by
        have h9 : ∀ k : Fin (edges (run {} biasedSquid)).length, josephsonVector (fun _ => (1 : ℕ)) (run {} biasedSquid) k = 1 := by decide +kernel
        have h10 : josephsonVector (fun _ => (1 : ℝ)) (run {} biasedSquid) k = ((josephsonVector (fun _ => (1 : ℕ)) (run {} biasedSquid) k : ℕ) : ℝ) := by
          unfold josephsonVector
          split
          · split
            · split_ifs <;> simp
            · simp
          · simp
        rw [(assemble_kind k1 k).2, h10, h9]
        simp
      have hne : (s.withNodes N).terms k ≠ [] := hterm.1 k (by
        unfold josBranches
        exact List.mem_filter.2 ⟨List.mem_finRange k, by simpa using (show (s.withNodes N).J k ≠ 0 from hJ)⟩)
      rw [if_neg (by simpa using hne)]
      exact ⟨_, rfl⟩
    have hc : ((u.Ec / 2 * C⁻¹ i0 i0 : ℝ) : ℂ) ≠ 0 := by
      have h3 : (C⁻¹).det ≠ 0 := by
        rw [Matrix.det_nonsing_inv, Ring.inverse_eq_inv']
        exact inv_ne_zero kdet
      rw [Matrix.det_eq_elem_of_subsingleton _ i0] at h3
      exact Complex.ofReal_ne_zero.2 (mul_ne_zero (div_ne_zero hu two_ne_zero) h3)
    have hexp : ∀ c : ℝ, c = 1 ∨ c = -1 → exp (2 * Real.pi * ((c * (1 / 2) : ℝ) : ℂ) * I) = -1 ∧ exp (-(2 * Real.pi * ((c * (1 / 2) : ℝ) : ℂ) * I)) = -1 := by
      rintro c (rfl | rfl)
      · constructor
        · rw [show 2 * Real.pi * (((1 : ℝ) * (1 / 2) : ℝ) : ℂ) * I = Real.pi * I by push_cast; ring, Complex.exp_pi_mul_I]
        · rw [show -(2 * Real.pi * (((1 : ℝ) * (1 / 2) : ℝ) : ℂ) * I) = -(Real.pi * I) by push_cast; ring, Complex.exp_neg, Complex.exp_pi_mul_I]; norm_num
      · constructor
        · rw [show 2 * Real.pi * (((-1 : ℝ) * (1 / 2) : ℝ) : ℂ) * I = -(Real.pi * I) by push_cast; ring, Complex.exp_neg, Complex.exp_pi_mul_I]; norm_num
        · rw [show -(2 * Real.pi * (((-1 : ℝ) * (1 / 2) : ℝ) : ℂ) * I) = Real.pi * I by push_cast; ring, Complex.exp_pi_mul_I]
    have f1 : fluxOn (fun _ => 1 / 2) biasedSquid "I1" = 0 := by simp [fluxOn, biasedSquid]
    have f2 : fluxOn (fun _ => 1 / 2) biasedSquid "I2" = 1 / 2 := by simp [fluxOn, biasedSquid]
    have hng : ∀ n, gateCharge (fun _ => 0) biasedSquid n = 0 := by
      intro n
      unfold gateCharge biasedSquid
      by_cases hn : 1 = n <;> simp [hn]
    have hH : netlistOperator (nodes (run {} biasedSquid)) biasedSquid u.Ec u.El u.Ej u.Ep C (fun _ => 1) (gateCharge (fun _ => 0) biasedSquid)
        (fun c => sgn c * fluxOn (fun _ => 1 / 2) biasedSquid c) (nodeOperators N) =
        diagonal fun x : (∀ i, Fin (cfg i).dim) => ((u.Ec / 2 * C⁻¹ i0 i0 : ℝ) : ℂ) * ((5 : ℂ) - ((x i0).val : ℂ)) ^ 2 := by
      unfold netlistOperator
      rw [hL, hI, hV]
      simp only [List.map_cons, List.map_nil, List.sum_cons, List.sum_nil, f1, f2, (hexp _ (hsgn "I2")).1, (hexp _ (hsgn "I2")).2, hng]
      rw [Fintype.sum_subsingleton _ i0, Fintype.sum_subsingleton _ i0]
      simp only [Complex.ofReal_zero, zero_smul, mul_zero, zero_mul, neg_zero, Complex.exp_zero, one_smul, neg_smul, add_zero, sub_zero]
      rw [← smul_add, ← neg_add, add_neg_cancel, smul_zero, sub_zero]
      rw [show (nodeOperators N).Q i0 = (N i0).Q from rfl, hQ, diagonal_mul_diagonal, smul_smul]
      ext x y
      rw [Matrix.smul_apply, diagonal_apply, diagonal_apply, smul_eq_mul]
      split_ifs
      · push_cast; ring
      · rw [mul_zero]
    rw [hH]
    let x0 : ∀ i, Fin (cfg i).dim := fun _ => (5 : Fin 11)
    refine ⟨Pi.single x0 1, ?_, ?_, ?_⟩
    · intro h0
      have := congrFun h0 x0
      simp at this
    · funext x
      rw [mulVec_diagonal]
      by_cases hx : x = x0
      · subst hx
        have : ((x0 i0).val : ℂ) = 5 := by show (((5 : Fin 11) : ℕ) : ℂ) = 5; norm_num
        rw [this]; simp
      · simp [hx]
    · intro w hw
      refine ⟨w x0, funext fun x => ?_⟩
      by_cases hx : x = x0
      · subst hx; simp
      · have h4 := congrFun hw x
        rw [mulVec_diagonal, Complex.ofReal_zero, zero_smul, Pi.zero_apply] at h4
        have h5 : (5 : ℂ) - ((x i0).val : ℂ) ≠ 0 := by
          intro h6
          have h7 : (x i0).val = 5 := by exact_mod_cast (sub_eq_zero.1 h6).symm
          exact hx (funext fun j => by rw [Subsingleton.elim j i0]; exact Fin.ext h7)
        rcases mul_eq_zero.1 h4 with h8 | h8
        · exact absurd h8 (mul_ne_zero hc (pow_ne_zero 2 h5))
        · rw [h8]; simp [hx]

end Verif.Props
