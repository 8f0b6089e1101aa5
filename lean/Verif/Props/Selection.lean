import Verif.Props.NoCurrent

/-!
# C108: selection rules
-/

namespace Verif.Props

open Verif Verif.Num Verif.Circuit Verif.Sym Verif.Spec Matrix Complex

/-- Matrix elements after charge reversal of an operator that changes sign. -/
theorem element_reversed {ι : Type} [Fintype ι] [DecidableEq ι] {σ : ι → ι} {θ : ι → ℝ} (hi : Involution σ θ) {X : Matrix ι ι ℂ} (hX : reversed (RingHom.id ℂ) σ θ X = -X) (v v' : ι → ℂ) :
    star (fun x => (θ x : ℂ) * v (σ x)) ⬝ᵥ X.mulVec (fun x => (θ x : ℂ) * v' (σ x)) = -(star v ⬝ᵥ X.mulVec v') := by
  let e : ι ≃ ι := Function.Involutive.toPerm σ hi.twice
  have he : ∀ x, e x = σ x := fun x => rfl
  have hθ : ∀ x, (θ x : ℂ) * θ x = 1 := fun x => by rw [← Complex.ofReal_mul, hi.sign, Complex.ofReal_one]
  have hXx : ∀ x y, X x y = -((θ x : ℂ) * θ y * X (σ x) (σ y)) := fun x y => by
    have h1 := congrFun (congrFun hX x) y
    rw [reversed_apply, Matrix.neg_apply] at h1
    rw [← neg_eq_iff_eq_neg, ← h1]; rfl
  have hin : ∀ x, X.mulVec (fun x => (θ x : ℂ) * v' (σ x)) (σ x) = -((θ (σ x) : ℂ) * X.mulVec v' x) := by
    intro x
    show ∑ y, X (σ x) y * ((θ y : ℂ) * v' (σ y)) = -((θ (σ x) : ℂ) * ∑ y, X x y * v' y)
    rw [← Equiv.sum_comp e, Finset.mul_sum, ← Finset.sum_neg_distrib]
    refine Finset.sum_congr rfl fun y _ => ?_
    rw [he, hXx (σ x) (σ y), hi.twice, hi.twice]
    linear_combination (-((θ (σ x) : ℂ) * X x y * v' y)) * hθ (σ y)
  show ∑ x, star ((θ x : ℂ) * v (σ x)) * X.mulVec (fun x => (θ x : ℂ) * v' (σ x)) x = -∑ x, star (v x) * X.mulVec v' x
  rw [← Equiv.sum_comp e, ← Finset.sum_neg_distrib]
  refine Finset.sum_congr rfl fun x _ => ?_
  rw [he, hin, hi.twice, star_mul', show star (θ (σ x) : ℂ) = θ (σ x) from Complex.conj_ofReal _]
  linear_combination (-(star (v x) * X.mulVec v' x)) * hθ (σ x)

/-- A state that is the only one of its energy is multiplied by a number under charge reversal. -/
theorem state_reversed {ι : Type} [Fintype ι] [DecidableEq ι] {σ : ι → ι} {θ : ι → ℝ} (hi : Involution σ θ) {H : Matrix ι ι ℂ} (hH : reversed (RingHom.id ℂ) σ θ H = H) {E : ℝ} {v : ι → ℂ}
    (hv : H.mulVec v = (E : ℂ) • v) (hdeg : ∀ w : ι → ℂ, H.mulVec w = (E : ℂ) • w → ∃ c : ℂ, w = c • v) (hv0 : v ≠ 0) :
    ∃ c : ℂ, star c * c = 1 ∧ (fun x => (θ x : ℂ) * v (σ x)) = c • v := by
  let e : ι ≃ ι := Function.Involutive.toPerm σ hi.twice
  have he : ∀ x, e x = σ x := fun x => rfl
  have hθ : ∀ x, (θ x : ℂ) * θ x = 1 := fun x => by rw [← Complex.ofReal_mul, hi.sign, Complex.ofReal_one]
  have hHx : ∀ x y, H x y = (θ x : ℂ) * θ y * H (σ x) (σ y) := fun x y => by
    have h1 := congrFun (congrFun hH x) y
    rw [reversed_apply] at h1
    rw [← h1]; rfl
  obtain ⟨c, hc⟩ := hdeg (fun x => (θ x : ℂ) * v (σ x)) (by
    funext x
    have h2 : ∑ y, H (σ x) y * v y = (E : ℂ) * v (σ x) := congrFun hv (σ x)
    rw [Pi.smul_apply, smul_eq_mul]
    show ∑ y, H x y * ((θ y : ℂ) * v (σ y)) = _
    rw [show (E : ℂ) * ((θ x : ℂ) * v (σ x)) = (θ x : ℂ) * ((E : ℂ) * v (σ x)) by ring, ← h2, Finset.mul_sum, ← Equiv.sum_comp e]
    refine Finset.sum_congr rfl fun y _ => ?_
    rw [he, hHx x (σ y), hi.twice]
    linear_combination ((θ x : ℂ) * H (σ x) y * v y) * hθ (σ y))
  refine ⟨c, ?_, hc⟩
  have hsq : star v ⬝ᵥ v = ((∑ i, Complex.normSq (v i) : ℝ) : ℂ) := by
    unfold dotProduct
    rw [Complex.ofReal_sum]
    exact Finset.sum_congr rfl fun i _ => (Complex.normSq_eq_conj_mul_self).symm
  have hpos : star v ⬝ᵥ v ≠ 0 := by
    intro h0
    rw [hsq, Complex.ofReal_eq_zero, Finset.sum_eq_zero_iff_of_nonneg fun i _ => Complex.normSq_nonneg _] at h0
    exact hv0 (funext fun i => Complex.normSq_eq_zero.1 (h0 i (Finset.mem_univ i)))
  have hnorm : star (c • v) ⬝ᵥ (c • v) = star v ⬝ᵥ v := by
    rw [← hc]
    show ∑ y, star ((θ y : ℂ) * v (σ y)) * ((θ y : ℂ) * v (σ y)) = ∑ y, star (v y) * v y
    rw [← Equiv.sum_comp e]
    refine Finset.sum_congr rfl fun y _ => ?_
    rw [he, hi.twice, star_mul', show star (θ (σ y) : ℂ) = θ (σ y) from Complex.conj_ofReal _]
    linear_combination (star (v y) * v y) * hθ (σ y)
  rw [star_smul, smul_dotProduct, dotProduct_smul, smul_eq_mul, smul_eq_mul, ← mul_assoc] at hnorm
  exact mul_right_cancel₀ hpos (hnorm.trans (one_mul _).symm)

/-- Of three transitions that form a loop, an operator that changes sign drives at most two. -/
theorem no_loop {ι : Type} [Fintype ι] [DecidableEq ι] {σ : ι → ι} {θ : ι → ℝ} (hi : Involution σ θ) {H : Matrix ι ι ℂ} (hH : reversed (RingHom.id ℂ) σ θ H = H) (E : Fin 3 → ℝ) (v : Fin 3 → ι → ℂ)
    (hv : ∀ a, H.mulVec (v a) = (E a : ℂ) • v a) (hdeg : ∀ a (w : ι → ℂ), H.mulVec w = (E a : ℂ) • w → ∃ c : ℂ, w = c • v a) (X : Fin 3 → Matrix ι ι ℂ)
    (hX : ∀ a, reversed (RingHom.id ℂ) σ θ (X a) = -X a) : matrixElement (X 0) (v 0) (v 1) = 0 ∨ matrixElement (X 1) (v 1) (v 2) = 0 ∨ matrixElement (X 2) (v 0) (v 2) = 0 := by
  by_cases hz : ∃ a, v a = 0
  · obtain ⟨a, ha⟩ := hz
    unfold matrixElement
    fin_cases a
    · left; simp only [Fin.zero_eta] at ha; rw [ha]; simp
    · left; simp only [Fin.mk_one] at ha; rw [ha]; simp
    · right; left; simp only [Fin.reduceFinMk] at ha; rw [ha]; simp
  push Not at hz
  choose c hc hcv using fun a => state_reversed hi hH (hv a) (hdeg a) (hz a)
  have key : ∀ a a' k, matrixElement (X k) (v a) (v a') ≠ 0 → c a' = -c a := by
    intro a a' k hne
    have h1 := element_reversed hi (hX k) (v a) (v a')
    rw [hcv, hcv, mulVec_smul, star_smul, smul_dotProduct, dotProduct_smul, smul_eq_mul, smul_eq_mul, ← mul_assoc, ← neg_one_mul] at h1
    have h2 : star (v a) ⬝ᵥ (X k).mulVec (v a') ≠ 0 := fun h0 => hne (by unfold matrixElement; rw [h0]; rfl)
    have h3 := mul_right_cancel₀ h2 h1
    linear_combination (c a) * h3 - (c a') * hc a
  by_contra hcon
  push Not at hcon
  have h1 := key 0 1 0 hcon.1
  have h2 := key 1 2 1 hcon.2.1
  have h3 := key 0 2 2 hcon.2.2
  have h4 : c 0 = 0 := by
    have : (2 : ℂ) * c 0 = 0 := by linear_combination h3 - h2 + h1
    simpa using this
  have h5 := hc 0
  rw [h4] at h5
  simp at h5

/-- Charge reversal keeps the Hamiltonian and changes the sign of every current and voltage. -/
theorem neutral_reversal {g : CG} {b : Biases} {val phi q : String → ℝ} {t : Transform ℝ (nodes g).length}
    {pinv : Matrix (Fin (edges g).length) (Fin (edges g).length) ℝ → Matrix (Fin (edges g).length) (Fin (edges g).length) ℝ} {u : Prefs}
    {cfg : Fin (nodes g).length → NodeCfg} {o : ∀ i, NodeOps (cfg i).dim} (ho : ∀ i, ChargeReversible (o i)) {N : Fin (nodes g).length → BigNode cfg}
    (hN : ∀ i, expandNode cfg i (o i) = some (N i)) (m : String → ℤ) (hphi : ∀ c, phi c + phi c = m c) (hq : ∀ c, q c = 0)
    (hm : ∀ e ∈ edges g, isEdgeOf g 'L' e = .ok true → ∀ c, b.flux.get? e = some (some c) → m c = 0)
    {s : Sys PUnit (nodes g).length (edges g).length} {H : BigOp cfg}
    (h1 : assemble g b val phi q t pinv u = .ok s) (h2 : hamiltonian (s.withNodes N) = some H) :
    ∃ (σ : (∀ i, Fin (cfg i).dim) → ∀ i, Fin (cfg i).dim) (θ : (∀ i, Fin (cfg i).dim) → ℝ), Involution σ θ ∧ reversed (RingHom.id ℂ) σ θ H = H ∧
      (∀ k X, currentOperator (s.withNodes N) k = .ok X → reversed (RingHom.id ℂ) σ θ X = -X) ∧
      ∀ i, reversed (RingHom.id ℂ) σ θ (voltageOperator (num (BigOp cfg)) (s.withNodes N) i) = -voltageOperator (num (BigOp cfg)) (s.withNodes N) i := by
  choose σ θ hi hQ hP hD hDd hS hSd using ho
  obtain ⟨-, a1, a3⟩ := assemble_reversed h1
  rw [show (fun c => -q c) = q from funext fun c => by rw [hq, neg_zero]] at a1
  have ex := fun i => expandNode_some (hN i)
  have hs := half_quanta m hphi hm h1 a1
  obtain ⟨H', h2'⟩ := (hamiltonian_exists (Sys.withNodes { s with Pb := fun k => -s.Pb k, Pbi := fun i => -s.Pbi i, Qb := fun i => -s.Qb i, Qbt := fun k => -s.Qbt k } N)).2 ((hamiltonian_exists (s.withNodes N)).1 ⟨H, h2⟩)
  have hHH : H' = H := by
    have h5 := C71_periodic (Sys.withNodes { s with Pb := fun k => -s.Pb k, Pbi := fun i => -s.Pbi i, Qb := fun i => -s.Qb i, Qbt := fun k => -s.Qbt k } N) (fun k => fluxBiasVector m g b k) 0
    have h6 : hamiltonian (s.withNodes N) = hamiltonian (Sys.withNodes { s with Pb := fun k => -s.Pb k, Pbi := fun i => -s.Pbi i, Qb := fun i => -s.Qb i, Qbt := fun k => -s.Qbt k } N) := by
      conv_lhs => rw [hs]
      simpa [Sys.withNodes] using h5
    exact Option.some.inj (h2'.symm.trans (h6.symm.trans h2))
  have d1 : ∀ j, revHom (RingHom.id ℂ) _ _ (involution_all hi) ((s.withNodes N).D j) = (s.withNodes N).Ddag j := fun j => by
    by_cases hj : j < (nodes g).length
    · rw [show (s.withNodes N).D j = (N ⟨j, hj⟩).D from dif_pos hj, show (s.withNodes N).Ddag j = (N ⟨j, hj⟩).Ddag from dif_pos hj]
      exact expand_reversed hi _ (ex ⟨j, hj⟩).2.2.1 (ex ⟨j, hj⟩).2.2.2.1 (hD _)
    · rw [show (s.withNodes N).D j = 0 from dif_neg hj, show (s.withNodes N).Ddag j = 0 from dif_neg hj, map_zero]
  have d2 : ∀ j, revHom (RingHom.id ℂ) _ _ (involution_all hi) ((s.withNodes N).Ddag j) = (s.withNodes N).D j := fun j => by
    by_cases hj : j < (nodes g).length
    · rw [show (s.withNodes N).Ddag j = (N ⟨j, hj⟩).Ddag from dif_pos hj, show (s.withNodes N).D j = (N ⟨j, hj⟩).D from dif_pos hj]
      exact expand_reversed hi _ (ex ⟨j, hj⟩).2.2.2.1 (ex ⟨j, hj⟩).2.2.1 (hDd _)
    · rw [show (s.withNodes N).Ddag j = 0 from dif_neg hj, show (s.withNodes N).D j = 0 from dif_neg hj, map_zero]
  have d3 : ∀ j, revHom (RingHom.id ℂ) _ _ (involution_all hi) ((s.withNodes N).flux j) = -(s.withNodes N).flux j := fun j => by
    by_cases hj : j < (nodes g).length
    · rw [show (s.withNodes N).flux j = (N ⟨j, hj⟩).P from dif_pos hj]
      exact expand_reversed_neg hi _ (ex ⟨j, hj⟩).2.1 (hP _)
    · rw [show (s.withNodes N).flux j = 0 from dif_neg hj, map_zero, neg_zero]
  have hT := map_hamiltonian_charge (revHom (RingHom.id ℂ) _ _ (involution_all hi)) (num_reversed (Or.inl rfl) _ _ _) (fun x => by unfold expTau; rw [revHom_number]; rfl) (s.withNodes N) a3
    (fun i => expand_reversed_neg hi _ (ex i).1 (hQ i)) (fun i => expand_reversed_neg hi _ (ex i).2.1 (hP i)) d1 d2 (fun j => ?_) (fun j => ?_) h2 h2'
  · rw [hHH] at hT
    refine ⟨_, _, involution_all hi, hT, fun k X hX => ?_, fun i => ?_⟩
    · have he : expTau (BigOp cfg) (-((s.withNodes N).Pb k)) = expTau (BigOp cfg) ((s.withNodes N).Pb k) := by
        have h7 : s.Pb k = -s.Pb k + (fluxBiasVector m g b k : ℤ) := congrFun (congrArg Sys.Pb hs) k
        show expTau (BigOp cfg) (-(s.Pb k)) = expTau (BigOp cfg) (s.Pb k)
        conv_rhs => rw [h7]
        exact (expTau_quanta _ _).symm
      exact map_current_charge (revHom (RingHom.id ℂ) _ _ (involution_all hi)) (fun z => revHom_number _ _ _ _ _) (s.withNodes N) d3 d1 d2 k (a3 k) he hX
    · have h7 : s.Qb i = -s.Qb i := congrFun (congrArg Sys.Qb hs) i
      exact map_voltage_charge (revHom (RingHom.id ℂ) _ _ (involution_all hi)) (num_reversed (Or.inl rfl) _ _ _) (s.withNodes N) i (expand_reversed_neg hi _ (ex i).1 (hQ i))
        (show s.Qb i = 0 by linarith)
  · by_cases hj : j < (nodes g).length
    · rw [show (s.withNodes N).S j = (N ⟨j, hj⟩).S from dif_pos hj, show (s.withNodes N).Sdag j = (N ⟨j, hj⟩).Sdag from dif_pos hj]
      exact expand_reversed hi _ (ex ⟨j, hj⟩).2.2.2.2.1 (ex ⟨j, hj⟩).2.2.2.2.2 (hS _)
    · rw [show (s.withNodes N).S j = 0 from dif_neg hj, show (s.withNodes N).Sdag j = 0 from dif_neg hj, map_zero]
  · by_cases hj : j < (nodes g).length
    · rw [show (s.withNodes N).Sdag j = (N ⟨j, hj⟩).Sdag from dif_pos hj, show (s.withNodes N).S j = (N ⟨j, hj⟩).S from dif_pos hj]
      exact expand_reversed hi _ (ex ⟨j, hj⟩).2.2.2.2.2 (ex ⟨j, hj⟩).2.2.2.2.1 (hSd _)
    · rw [show (s.withNodes N).Sdag j = 0 from dif_neg hj, show (s.withNodes N).S j = 0 from dif_neg hj, map_zero]

/-- **C108** (selection rule) Without charge biases and with every flux bias a multiple of half a flux quantum (zero on the inductors), currents and voltages drive no loop of three transitions:
for three states, each the only one of its energy, and any three operators that are the current of a branch or the voltage of a node, one of the three matrix elements is zero. -/
theorem C108_selection (g : CG) (b : Biases) (val phi q : String → ℝ) (t : Transform ℝ (nodes g).length)
    (pinv : Matrix (Fin (edges g).length) (Fin (edges g).length) ℝ → Matrix (Fin (edges g).length) (Fin (edges g).length) ℝ) (u : Prefs)
    (cfg : Fin (nodes g).length → NodeCfg) (o : ∀ i, NodeOps (cfg i).dim) (ho : ∀ i, ChargeReversible (o i)) (N : Fin (nodes g).length → BigNode cfg)
    (hN : ∀ i, expandNode cfg i (o i) = some (N i)) (m : String → ℤ) (hphi : ∀ c, phi c + phi c = m c) (hq : ∀ c, q c = 0)
    (hm : ∀ e ∈ edges g, isEdgeOf g 'L' e = .ok true → ∀ c, b.flux.get? e = some (some c) → m c = 0)
    (s : Sys PUnit (nodes g).length (edges g).length) (H : BigOp cfg)
    (h1 : assemble g b val phi q t pinv u = .ok s) (h2 : hamiltonian (s.withNodes N) = some H) (X : Fin 3 → BigOp cfg)
    (hX : ∀ a, (∃ k, currentOperator (s.withNodes N) k = .ok (X a)) ∨ ∃ i, voltageOperator (num (BigOp cfg)) (s.withNodes N) i = X a)
    (E : Fin 3 → ℝ) (v : Fin 3 → (∀ i, Fin (cfg i).dim) → ℂ) (hv : ∀ a, H.mulVec (v a) = (E a : ℂ) • v a)
    (hdeg : ∀ a w, H.mulVec w = (E a : ℂ) • w → ∃ c : ℂ, w = c • v a) :
    matrixElement (X 0) (v 0) (v 1) = 0 ∨ matrixElement (X 1) (v 1) (v 2) = 0 ∨ matrixElement (X 2) (v 0) (v 2) = 0 := by
  obtain ⟨σ, θ, hi, hH, hc, hvo⟩ := neutral_reversal ho hN m hphi hq hm h1 h2
  refine no_loop hi hH E v hv hdeg X fun a => ?_
  rcases hX a with ⟨k, hk⟩ | ⟨i, hk⟩
  · exact hc k _ hk
  · rw [← hk]
    exact hvo i

/-- A Hermitian matrix with nonzero elements beside the diagonal and none further out has only simple levels. -/
theorem simple_spectrum {ι : Type} [Fintype ι] [DecidableEq ι] {A : Matrix ι ι ℂ} (hA : A.IsHermitian) (r : ι → ℕ) (hr : Function.Injective r) (hfar : ∀ x y, r x + 1 < r y → A x y = 0)
    (hnext : ∀ x y, r y = r x + 1 → A x y ≠ 0) (hpred : ∀ y, r y ≠ 0 → ∃ x, r y = r x + 1) (hcard : ∃ f : Fin 3 → ι, Function.Injective f) :
    ∃ (E : Fin 3 → ℝ) (v : Fin 3 → ι → ℂ), Function.Injective E ∧ (∀ a, v a ≠ 0) ∧ (∀ a, A.mulVec (v a) = (E a : ℂ) • v a) ∧
      ∀ a w, A.mulVec w = (E a : ℂ) • w → ∃ c : ℂ, w = c • v a := by
  have hzero : ∀ (E : ℂ) (w : ι → ℂ), A.mulVec w = E • w → (∀ y, r y = 0 → w y = 0) → w = 0 := by
    intro E w hw h0
    have : ∀ k y, r y = k → w y = 0 := by
      intro k
      induction k using Nat.strong_induction_on with
      | _ k ih =>
        intro y hy
        by_cases hk : r y = 0
        · exact h0 y hk
        obtain ⟨x, hx⟩ := hpred y hk
        have h1 : ∑ z, A x z * w z = E * w x := congrFun hw x
        rw [ih (r x) (by omega) x rfl, mul_zero, Finset.sum_eq_single y] at h1
        · exact (mul_eq_zero.1 h1).resolve_left (hnext x y hx)
        · intro z _ hz
          rcases lt_trichotomy (r z) (r y) with h2 | h2 | h2
          · rw [ih (r z) (by omega) z rfl, mul_zero]
          · exact absurd (hr h2) hz
          · rw [hfar x z (by omega), zero_mul]
        · exact fun h => absurd (Finset.mem_univ y) h
    exact funext fun y => this _ y rfl
  have hdeg : ∀ (E : ℂ) (v w : ι → ℂ), v ≠ 0 → A.mulVec v = E • v → A.mulVec w = E • w → ∃ c : ℂ, w = c • v := by
    intro E v w hv0 hv hw
    obtain ⟨y, hy, hvy⟩ : ∃ y, r y = 0 ∧ v y ≠ 0 := by
      by_contra hcon
      push Not at hcon
      exact hv0 (hzero E v hv hcon)
    refine ⟨w y / v y, ?_⟩
    have h1 := hzero E (w - (w y / v y) • v) (by rw [mulVec_sub, mulVec_smul, hv, hw, smul_sub, smul_comm]) (fun z hz => by
      rw [hr (hz.trans hy.symm), Pi.sub_apply, Pi.smul_apply, smul_eq_mul, div_mul_cancel₀ _ hvy, sub_self])
    exact sub_eq_zero.1 h1
  obtain ⟨f, hf⟩ := hcard
  have heig : ∀ j, A.mulVec (hA.eigenvectorBasis j).ofLp = (hA.eigenvalues j : ℂ) • (hA.eigenvectorBasis j).ofLp := fun j => hA.mulVec_eigenvectorBasis j
  have hne : ∀ j, (hA.eigenvectorBasis j).ofLp ≠ 0 := by
    intro j h0
    have h1 : hA.eigenvectorBasis j = 0 := (WithLp.ofLp_eq_zero 2).1 h0
    have h2 := hA.eigenvectorBasis.orthonormal.1 j
    rw [h1, norm_zero] at h2
    exact zero_ne_one h2
  refine ⟨fun a => hA.eigenvalues (f a), fun a => (hA.eigenvectorBasis (f a)).ofLp, ?_, fun a => hne _, fun a => heig _, fun a w hw => hdeg _ _ w (hne _) (heig _) hw⟩
  intro a a' haa
  dsimp only at haa
  by_contra hcon
  obtain ⟨c, hc⟩ := hdeg _ _ _ (hne (f a)) (heig (f a)) (by rw [haa]; exact heig (f a'))
  have h1 : hA.eigenvectorBasis (f a') = c • hA.eigenvectorBasis (f a) := by
    apply WithLp.ofLp_injective
    exact hc
  have h2 : inner ℂ (hA.eigenvectorBasis (f a)) (hA.eigenvectorBasis (f a')) = 0 := hA.eigenvectorBasis.orthonormal.2 (fun h => hcon (hf h) : f a ≠ f a')
  rw [h1, inner_smul_right, inner_self_eq_norm_sq_to_K, hA.eigenvectorBasis.orthonormal.1] at h2
  have h3 : c = 0 := by simpa using h2
  rw [h3, zero_smul] at hc
  exact hne _ hc

/-- The hypotheses of `C108_selection` are met: the SQUID at zero flux in a charge basis.  Its Hamiltonian has one nonzero element beside the diagonal, so each of its states is the only one of its
energy; three of them, with different energies. -/
example : ∃ (b : Biases) (pinv : Matrix (Fin (edges (run {} biasedSquid)).length) (Fin (edges (run {} biasedSquid)).length) ℝ →
      Matrix (Fin (edges (run {} biasedSquid)).length) (Fin (edges (run {} biasedSquid)).length) ℝ)
    (cfg : Fin (nodes (run {} biasedSquid)).length → NodeCfg) (o : ∀ i, NodeOps (cfg i).dim) (N : Fin (nodes (run {} biasedSquid)).length → BigNode cfg),
    createFluxBiases (run {} biasedSquid) = .ok b ∧ (∀ i, TimeReversible (o i) ∧ ChargeReversible (o i)) ∧ (∀ i, expandNode cfg i (o i) = some (N i)) ∧
    (∀ (m : String → ℤ), ∀ e ∈ edges (run {} biasedSquid), isEdgeOf (run {} biasedSquid) 'L' e = .ok true → ∀ c, b.flux.get? e = some (some c) → m c = 0) ∧
    ∀ (u : Prefs) (_ : u.Ej ≠ 0), ∃ s H, assemble (run {} biasedSquid) b (fun _ => 1) (fun _ => 0) (fun _ => 0) ⟨false, 1⟩ pinv u = .ok s ∧ hamiltonian (s.withNodes N) = some H ∧
      (∀ k, ∃ X, currentOperator (s.withNodes N) k = .ok X) ∧
      ∃ (E : Fin 3 → ℝ) (v : Fin 3 → (∀ i, Fin (cfg i).dim) → ℂ), Function.Injective E ∧ (∀ a, v a ≠ 0) ∧ (∀ a, H.mulVec (v a) = (E a : ℂ) • v a) ∧
        ∀ a w, H.mulVec w = (E a : ℂ) • w → ∃ c : ℂ, w = c • v a := by
  choose pinv hp using fun M : Matrix (Fin (edges (run {} biasedSquid)).length) (Fin (edges (run {} biasedSquid)).length) ℝ => pinv_exists M
  have hb : createFluxBiases (run {} biasedSquid) = .ok ⟨[((0, 1, 1), none), ((1, 0, 2), some "z")], [((0, 1, 1), none), ((1, 0, 2), some "z")]⟩ := by decide +kernel
  have hbr : branches biasedSquid = [(0, 1, "C1"), (0, 1, "I1"), (0, 1, "I2")] := by decide +kernel
  have hL : branchesOf 'L' (branches biasedSquid) = [] := by rw [hbr]; decide +kernel
  have hn : CircuitNetlist biasedSquid := by
    refine ⟨by simp [biasedSquid], ?_, ?_⟩
    · rw [hbr]; decide +kernel
    · rw [hbr]; decide +kernel
  have hI : branchesOf 'I' (branches biasedSquid) = [(0, 1, "I1"), (0, 1, "I2")] := by rw [hbr]; decide +kernel
  have hV : branchesOf 'V' (branches biasedSquid) = [] := by rw [hbr]; decide +kernel
  have hlen : (nodes (run {} biasedSquid)).length = 1 := by decide +kernel
  have hsub : Subsingleton (Fin (nodes (run {} biasedSquid)).length) := ⟨fun i j => Fin.ext (by have := i.2; have := j.2; omega)⟩
  let i0 : Fin (nodes (run {} biasedSquid)).length := ⟨0, by omega⟩
  let cfg : Fin (nodes (run {} biasedSquid)).length → NodeCfg := fun _ => ⟨5, .charge⟩
  obtain ⟨q, E, V, e1, e2⟩ := charge_diagonalisation 5 (fun _ => 1) (by simp)
  let o : ∀ i, NodeOps (cfg i).dim := fun _ => chargeBasis 5 q (fun j => Pi.single (Fin.rev j) 1) E V
  have ho : ∀ i, TimeReversible (o i) ∧ ChargeReversible (o i) := fun _ => C107_charge_basis 5 q _ E V e1 (by simp) e2
  choose N hN using fun i => expandNode_standard (cfg := cfg) (fun _ => Or.inl rfl) i (o i)
  obtain ⟨sgn, hsgn, -, hop⟩ := C97_operator_partial biasedSquid _ biasedSquid_settled biasedSquid_ok hn _ hb
  have hcaps : NonnegCaps (fun _ => 1) biasedSquid := by
    refine ⟨fun _ _ => zero_le_one, fun n _ => ?_⟩
    unfold Spec.gateCap biasedSquid
    by_cases hn : 1 = n <;> simp [hn]
  have hconn : ∀ n ∈ nodesOf (branches biasedSquid), Conn (capacitiveNet (fun _ => 1) biasedSquid) n 0 := by
    intro n hn
    rw [hbr] at hn
    have hn' : n = 0 ∨ n = 1 := by
      revert hn; revert n; decide +kernel
    rcases hn' with rfl | rfl
    · exact Conn.refl _ _
    · refine Conn.symm (Conn.edge (e := (0, 1, 0)) ?_)
      unfold capacitiveNet
      rw [hbr]
      simp [branchesOf, wires]
      decide
  have hQ : (N i0).Q = diagonal fun x : (∀ i, Fin (cfg i).dim) => (5 : ℂ) - ((x i0).val : ℂ) := by
    rw [expandOp_some (expandNode_some (hN i0)).1]
    ext x y
    have hxy : (∀ j, j ≠ i0 → x j = y j) := fun j hj => absurd (Subsingleton.elim j i0) hj
    rw [show actsOn cfg i0 (o i0).Q x y = (o i0).Q (x i0) (y i0) from if_pos hxy]
    show countOp 5 (x i0) (y i0) = _
    by_cases h0 : x i0 = y i0
    · have : x = y := funext fun j => by rw [Subsingleton.elim j i0]; exact h0
      subst this
      rw [diagonal_apply_eq]
      exact (count_entry _ _).trans (if_pos rfl)
    · rw [diagonal_apply_ne _ fun h => h0 (congrFun h i0)]
      exact (count_entry _ _).trans (if_neg h0)
  obtain ⟨-, c1, c2, -⟩ := C37_charge_basis_partial 5 q (fun j => Pi.single (Fin.rev j) 1) E V e1 (by simp) e2
  have hD : ∀ x y, (N i0).D x y = if (y i0).val = (x i0).val + 1 then 1 else 0 := by
    intro x y
    rw [expandOp_some (expandNode_some (hN i0)).2.2.1]
    have hxy : (∀ j, j ≠ i0 → x j = y j) := fun j hj => absurd (Subsingleton.elim j i0) hj
    rw [show actsOn cfg i0 (o i0).D x y = (o i0).D (x i0) (y i0) from if_pos hxy]
    exact c1 _ _
  have hDd : ∀ x y, (N i0).Ddag x y = if (x i0).val = (y i0).val + 1 then 1 else 0 := by
    intro x y
    rw [expandOp_some (expandNode_some (hN i0)).2.2.2.1]
    have hxy : (∀ j, j ≠ i0 → x j = y j) := fun j hj => absurd (Subsingleton.elim j i0) hj
    rw [show actsOn cfg i0 (o i0).Ddag x y = (o i0).Ddag (x i0) (y i0) from if_pos hxy]
    have h3 : ∀ m m', (chargeBasis 5 q (fun j => Pi.single (Fin.rev j) 1) E V).Ddag m m' = if m.val = m'.val + 1 then 1 else 0 := by
      intro m m'
      rw [c2, conjTranspose_apply, c1]
      split_ifs <;> simp
    exact h3 _ _
  refine ⟨_, pinv, cfg, o, N, hb, ho, hN, ?_, ?_⟩
  · intro m e he hl
    exfalso
    revert hl
    revert he
    revert e
    decide +kernel
  · intro u hu
    obtain ⟨s, C, k1, -, kdet, -, k2⟩ := hop (fun _ => 1) (fun _ => 0) (fun _ => 0) hcaps hconn (by rw [hL]; simp) (by intro br hbr'; rw [hL] at hbr'; simp at hbr') pinv hp u cfg o N hN
    refine ⟨s, _, k1, k2, ?_, ?_⟩
    · intro k
      have hk : (s.withNodes N).kind k = .josephson := by
        refine (assemble_kind k1 k).1.trans ?_
        revert k
        decide +kernel
      have hterm := (hamiltonian_exists (s.withNodes N)).1 ⟨_, k2⟩
      unfold currentOperator
      simp only [hk]
      have hJ : s.J k ≠ 0 := by
        have h9 : ∀ k : Fin (edges (run {} biasedSquid)).length, josephsonVector (fun _ => (1 : ℕ)) (run {} biasedSquid) k = 1 := by decide +kernel
        have h10 : josephsonVector (fun _ => (1 : ℝ)) (run {} biasedSquid) k = ((josephsonVector (fun _ => (1 : ℕ)) (run {} biasedSquid) k : ℕ) : ℝ) := by
          unfold josephsonVector
          split
          · split
            · split_ifs <;> simp
            · simp
          · simp
        rw [(assemble_kind k1 k).2, h10, h9]
        simp
      have hne : (s.withNodes N).terms k ≠ [] := hterm.1 k (by
        unfold josBranches
        exact List.mem_filter.2 ⟨List.mem_finRange k, by simpa using (show (s.withNodes N).J k ≠ 0 from hJ)⟩)
      rw [if_neg (by simpa using hne)]
      exact ⟨_, rfl⟩
    have hng : ∀ n, gateCharge (fun _ => 0) biasedSquid n = 0 := by
      intro n
      unfold gateCharge biasedSquid
      by_cases hn : 1 = n <;> simp [hn]
    have hfl : ∀ c, fluxOn (fun _ => 0) biasedSquid c = 0 := by
      intro c
      unfold fluxOn biasedSquid
      by_cases hn : "I2" = c <;> simp [hn]
    have hnode : ∀ F : Fin (nodes (run {} biasedSquid)).length → BigOp cfg, atNumber (nodes (run {} biasedSquid)) F 1 1 = F i0 ∧ atNumber (nodes (run {} biasedSquid)) F 1 0 = 1 := by
      intro F
      have n1 : (nodes (run {} biasedSquid)).idxOf 1 = 0 := by decide +kernel
      have n0 : (nodes (run {} biasedSquid)).idxOf 0 = 1 := by decide +kernel
      unfold atNumber
      constructor
      · rw [dif_pos (by omega)]
        exact congrArg F (Subsingleton.elim _ _)
      · rw [dif_neg (by omega)]
    have hH : ∀ x y, netlistOperator (nodes (run {} biasedSquid)) biasedSquid u.Ec u.El u.Ej u.Ep C (fun _ => 1) (gateCharge (fun _ => 0) biasedSquid)
        (fun c => sgn c * fluxOn (fun _ => 0) biasedSquid c) (nodeOperators N) x y =
        (if x = y then ((u.Ec / 2 * C⁻¹ i0 i0 * (5 - (x i0).val) ^ 2 : ℝ) : ℂ) else 0) -
          (u.Ej : ℂ) * ((if (x i0).val = (y i0).val + 1 then 1 else 0) + if (y i0).val = (x i0).val + 1 then 1 else 0) := by
      intro x y
      unfold netlistOperator
      rw [hL, hI, hV]
      simp only [List.map_cons, List.map_nil, List.sum_cons, List.sum_nil, hfl, hng, (hnode _).1, (hnode _).2]
      rw [Fintype.sum_subsingleton _ i0, Fintype.sum_subsingleton _ i0]
      simp only [Complex.ofReal_zero, zero_smul, mul_zero, zero_mul, neg_zero, Complex.exp_zero, one_smul, add_zero, sub_zero, one_mul]
      rw [show (nodeOperators N).Q i0 = (N i0).Q from rfl, show (nodeOperators N).D i0 = (N i0).D from rfl, show (nodeOperators N).Ddag i0 = (N i0).Ddag from rfl, hQ, diagonal_mul_diagonal]
      simp only [Matrix.sub_apply, Matrix.add_apply, Matrix.smul_apply, smul_eq_mul, hD, hDd, diagonal_apply]
      split_ifs <;> push_cast <;> ring
    have hherm : (netlistOperator (nodes (run {} biasedSquid)) biasedSquid u.Ec u.El u.Ej u.Ep C (fun _ => 1) (gateCharge (fun _ => 0) biasedSquid)
        (fun c => sgn c * fluxOn (fun _ => 0) biasedSquid c) (nodeOperators N)).IsHermitian := by
      ext x y
      rw [conjTranspose_apply, hH, hH]
      by_cases hxy : x = y
      · subst hxy
        simp
      · rw [if_neg hxy, if_neg (Ne.symm hxy), add_comm]
        simp only [zero_sub, star_neg, star_mul', star_add]
        split_ifs <;> simp
    refine simple_spectrum hherm (fun x => (x i0).val) ?_ ?_ ?_ ?_ ?_
    · intro x y hxy
      exact funext fun j => by rw [Subsingleton.elim j i0]; exact Fin.ext hxy
    · intro x y hxy
      rw [hH, if_neg (by rintro rfl; omega), if_neg (by omega), if_neg (by omega)]
      simp
    · intro x y hxy
      rw [hH, if_neg (by rintro rfl; omega), if_neg (by omega), if_pos hxy]
      simpa using hu
    · intro y hy
      have h5 : (y i0).val < 11 := (y i0).2
      refine ⟨fun _ => ⟨(y i0).val - 1, by show (y i0).val - 1 < 11; omega⟩, ?_⟩
      show (y i0).val = (y i0).val - 1 + 1
      omega
    · exact ⟨fun a => fun _ => ⟨a.val, by have := a.2; show a.val < 11; omega⟩, fun a a' h => by
        have h5 := congrFun h i0
        exact Fin.ext (Fin.mk.inj h5)⟩

end Verif.Props
