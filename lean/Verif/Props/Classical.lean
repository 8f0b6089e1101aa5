import Verif.Model.Classical
import Verif.Spec.Classical
import Verif.Props.Potential
import Verif.Props.Loaded
import Mathlib.Analysis.Calculus.Deriv.Basic
import Mathlib.Analysis.Calculus.Deriv.Add
import Mathlib.Analysis.Calculus.Deriv.Mul
import Mathlib.Analysis.Calculus.Deriv.Pow
import Mathlib.Analysis.SpecialFunctions.Trigonometric.Deriv

/-!
# C76: the classical Hamiltonian is the energy stored in the components
-/

namespace Verif.Props

open Verif Verif.Circuit Verif.Sym Verif.Spec Matrix

/-- The junction terms, for reduced fluxes and biases that belong to the fluxes. -/
theorem classicalJosephson_eq {h : List Call} {g : CG} (hs : Settled h g) (b : Biases) (hred : b.red = b.flux) (val flux red : String → ℝ)
    (Phi0 : ℝ) (hr : ∀ s, red s = 2 * Real.pi / Phi0 * flux s) (φ : ℕ → ℝ) (h0 : φ 0 = 0) :
    classicalJosephson g b val red (atNodes g fun n => 2 * Real.pi / Phi0 * φ n) =
      cosineEnergy g val Phi0 (biasVal flux b.flux) φ := by
  unfold classicalJosephson cosineEnergy overBranches
  rw [show g.wc = edges g from rfl, ← Fin.sum_univ_fun_getElem]
  apply Finset.sum_congr rfl
  intro j _
  rw [show (atNodes g fun n => 2 * Real.pi / Phi0 * φ n) = fun i => (fun n => 2 * Real.pi / Phi0 * φ n) ((nodes g).get i) from rfl,
    branchFluxes_eq hs (fun n => 2 * Real.pi / Phi0 * φ n) (by simp [h0]) j]
  unfold josephsonVector redBiasVector
  obtain ⟨x, _, _, hcm⟩ := wc_branch hs (e := (edges g).get j) (List.get_mem _ _)
  have hj : (edges g)[(j : ℕ)]? = some ((edges g).get j) := List.getElem?_eq_getElem j.2
  have hedge : isEdgeOf g 'I' ((edges g).get j) = .ok true ↔ pre x.2.2 = some 'I' := by
    unfold isEdgeOf
    rw [hcm]
    simp
  rw [hj, show (edges g)[(j : ℕ)] = (edges g).get j from rfl]
  generalize (edges g).get j = e at *
  simp only [hcm]
  by_cases hI : pre x.2.2 = some 'I'
  · rw [if_pos hI, if_pos (hedge.2 hI), if_pos ((startsWith_iff _ _).2 hI), hred]
    have : biasVal red b.flux e = 2 * Real.pi / Phi0 * biasVal flux b.flux e := by
      unfold biasVal
      cases b.flux.get? e with
      | none => simp
      | some y => cases y with
        | none => simp
        | some s => exact hr s
    rw [this]
    congr 2
    ring
  · rw [if_neg hI, if_neg (fun h => hI ((startsWith_iff _ _).1 h))]
    ring

theorem addBiases_red : ∀ (l : List (Edge × Bias)) (b b' : Biases), b.red = b.flux → addBiases l b = .ok b' → b'.red = b'.flux := by
  intro l
  induction l with
  | nil => intro b b' hb h; cases h; exact hb
  | cons p l ih =>
    intro b b' hb h
    unfold addBiases at h
    split_ifs at h with hc
    exact ih _ _ (by simp only; rw [hb]) h

/-- The charge that the voltages `v` bring to the nodes: `C v` minus the bias charge. -/
noncomputable def chargeAt (g : CG) (C : Mat ℝ) (q : String → ℝ) (v : ℕ → ℝ) : Fin (nodes g).length → ℝ :=
  (C.block (nodes g).length (nodes g).length).mulVec (atNodes g v) - fun i : Fin (nodes g).length => chargeBiasVector q g i

/-- **C76 (partial)** Without transform, for every circuit of uncoupled components whose capacitors join different nodes and whose biased
inductors are as in C59: at node voltages `v` and node fluxes `φ` the classical Hamiltonian is the energy stored in the capacitors, in the
inductors and in the junctions, the value of a junction being its Josephson energy.  Missing: transforms (`C76_false_transform`), capacitors that
join a node to itself (C29), other biased inductors (C59); mutual inductances are in `C76_coupled_energy_partial`. -/
theorem C76_energy_partial (h : List Call) (g : CG) (hs : Settled h g) (hc : g.coupled = []) (b : Biases) (hb : createFluxBiases g = .ok b)
    (val : String → ℝ) (x : BiasVals) (Phi0 : ℝ) (hred : ∀ s, x.red s = 2 * Real.pi / Phi0 * x.flux s)
    (hloop : ∀ y ∈ branchesOf 'C' (branches h), y.1 ≠ y.2.1) (hval : ∀ y ∈ branchesOf 'L' (branches h), val y.2.2 ≠ 0)
    (C : Mat ℝ) (hC : capacitance val (resonatorCap val) g = .ok C) (R Cinv : Matrix (Fin (nodes g).length) (Fin (nodes g).length) ℝ)
    (hCi : inverseCapacitance ⟨false, R⟩ (C.block _ _) = some Cinv)
    (pinv : Matrix (Fin (edges g).length) (Fin (edges g).length) ℝ → Matrix (Fin (edges g).length) (Fin (edges g).length) ℝ)
    (hp : ∀ M, branchInductance val g = .ok M → IsPinv (M.block _ _) (pinv (M.block _ _)))
    (L : Matrix (Fin (nodes g).length) (Fin (nodes g).length) ℝ) (hL : inverseInductance val g pinv = .ok L)
    (hgood : ∀ e ∈ g.wc, IsInductor g e → biasVal x.flux b.flux e ≠ 0 →
      (e.1 = 0 ∧ e.2.1 ≠ 0 ∧ ∀ e' ∈ g.wc, IsInductor g e' → e' ≠ e → e'.1 ≠ e.2.1 ∧ e'.2.1 ≠ e.2.1) ∨
      (e.2.1 = 0 ∧ e.1 ≠ 0 ∧ ∀ e' ∈ g.wc, IsInductor g e' → e' ≠ e → e'.1 ≠ e.1 ∧ e'.2.1 ≠ e.1))
    (v φ : ℕ → ℝ) (hv : v 0 = 0) (hφ : φ 0 = 0) :
    classicalHamiltonian g b val x Cinv (transformInductance ⟨false, R⟩ L)
        ⟨chargeAt g C x.charge v, atNodes g φ, atNodes g fun n => 2 * Real.pi / Phi0 * φ n⟩ =
      electricEnergy h g val v + magneticEnergy g val (biasVal x.flux b.flux) φ + cosineEnergy g val Phi0 (biasVal x.flux b.flux) φ := by
  have hredb : b.red = b.flux := addBiases_red _ _ _ rfl hb
  unfold classicalHamiltonian
  rw [classicalJosephson_eq hs b hredb val x.flux x.red Phi0 hred φ hφ]
  congr 2
  · unfold inverseCapacitance at hCi
    by_cases hdet : (C.block (nodes g).length (nodes g).length).det = 0
    · rw [if_pos hdet] at hCi; cases hCi
    rw [if_neg hdet] at hCi
    simp only [Bool.false_eq_true, if_false, Option.some.injEq] at hCi
    subst hCi
    unfold quadEnergy chargeAt
    rw [sub_add_cancel, mulVec_mulVec, Matrix.nonsing_inv_mul _ (Ne.isUnit hdet), one_mulVec, dotProduct_comm,
      C29_quadratic_form_partial h g hs val C hC hloop v hv]
    unfold electricEnergy
    rw [mul_add, Finset.mul_sum]
    congr 1
    apply Finset.sum_congr rfl
    intro n _
    ring
  · unfold transformInductance
    simp only [Bool.false_eq_true, if_false]
    rw [C59_energy_partial h g hs hc val x.flux hval pinv hp L hL b φ hφ hgood]
    unfold biasedForm magneticEnergy overBranches
    rw [← List.sum_map_mul_left]
    congr 1
    apply List.map_congr_left
    intro e _
    cases g.cmap.get? e with
    | none => simp
    | some c =>
      simp only
      split_ifs <;> ring

/-- **C76** Hamilton's equation: the derivative of the Hamiltonian by the charge of a node is the voltage of the node, for every symmetric
invertible capacitance matrix (C29), with every bias. -/
theorem C76_voltage (h : List Call) (g : CG) (hs : Settled h g) (b : Biases) (val : String → ℝ) (x : BiasVals)
    (C : Mat ℝ) (hC : capacitance val (resonatorCap val) g = .ok C) (R Cinv : Matrix (Fin (nodes g).length) (Fin (nodes g).length) ℝ)
    (hCi : inverseCapacitance ⟨false, R⟩ (C.block _ _) = some Cinv) (L : Matrix (Fin (nodes g).length) (Fin (nodes g).length) ℝ)
    (v : ℕ → ℝ) (P p : Fin (nodes g).length → ℝ) (i : Fin (nodes g).length) :
    HasDerivAt (fun q => classicalHamiltonian g b val x Cinv L ⟨Function.update (chargeAt g C x.charge v) i q, P, p⟩)
      (v ((nodes g).get i)) (chargeAt g C x.charge v i) := by
  unfold inverseCapacitance at hCi
  by_cases hdet : (C.block (nodes g).length (nodes g).length).det = 0
  · rw [if_pos hdet] at hCi; cases hCi
  rw [if_neg hdet] at hCi
  simp only [Bool.false_eq_true, if_false, Option.some.injEq] at hCi
  subst hCi
  set A := (C.block (nodes g).length (nodes g).length)⁻¹ with hA
  have hAt : Aᵀ = A := by rw [hA, transpose_nonsing_inv, C29_symmetric val g C hC]
  set q0 := chargeAt g C x.charge v with hq0
  set bias : Fin (nodes g).length → ℝ := fun k => chargeBiasVector x.charge g k with hbias
  have hy : A.mulVec (q0 + bias) = atNodes g v := by
    rw [hq0]; unfold chargeAt
    rw [sub_add_cancel, mulVec_mulVec, Matrix.nonsing_inv_mul _ (Ne.isUnit hdet), one_mulVec]
  have key : ∀ q, quadEnergy A (Function.update q0 i q) bias =
      quadEnergy A q0 bias + (q - q0 i) * v ((nodes g).get i) + 1 / 2 * A i i * (q - q0 i) ^ 2 := by
    intro q
    have hu : Function.update q0 i q + bias = (q0 + bias) + (q - q0 i) • Pi.single i (1 : ℝ) := by
      funext k
      by_cases hk : k = i
      · subst hk; simp; ring
      · simp [hk]
    unfold quadEnergy
    rw [hu, mulVec_add, add_dotProduct, dotProduct_add, dotProduct_add, mulVec_smul, dotProduct_smul, smul_dotProduct, smul_dotProduct,
      dotProduct_smul, hy]
    have e1 : (q0 + bias) ⬝ᵥ A.mulVec (Pi.single i 1) = v ((nodes g).get i) := by
      rw [dotProduct_mulVec, ← mulVec_transpose, hAt, hy, dotProduct_single, mul_one]; rfl
    have e2 : Pi.single i (1 : ℝ) ⬝ᵥ atNodes g v = v ((nodes g).get i) := by
      rw [single_dotProduct, one_mul]; rfl
    have e3 : Pi.single i (1 : ℝ) ⬝ᵥ A.mulVec (Pi.single i 1) = A i i := by
      rw [single_dotProduct, one_mul, mulVec_single_one]; rfl
    rw [e1, e2, e3]
    simp only [smul_eq_mul]
    ring
  have hd : HasDerivAt (fun q : ℝ => q - q0 i) 1 (q0 i) := (hasDerivAt_id _).sub_const _
  have h1 := (((hasDerivAt_const (q0 i) (quadEnergy A q0 bias)).add (hd.mul_const (v ((nodes g).get i)))).add
    ((hd.pow 2).const_mul (1 / 2 * A i i)))
  have h2 := (h1.add_const (quadEnergy L P (fluxBiasNodes x.flux g b))).add_const (classicalJosephson g b val x.red p)
  refine (h2.congr_deriv (by simp)).congr_of_eventuallyEq (Filter.EventuallyEq.of_eq (funext fun q => ?_))
  unfold classicalHamiltonian
  simp only [Pi.add_apply, Pi.pow_apply]
  rw [← key q]

theorem overBranches_deriv (g : CG) (letter : Char) (F : ℝ → ℕ × ℕ × ℕ → String → ℝ) (F' : ℕ × ℕ × ℕ → String → ℝ) (q : ℝ)
    (hF : ∀ e c, HasDerivAt (fun y => F y e c) (F' e c) q) :
    HasDerivAt (fun y => overBranches g letter (F y)) (overBranches g letter F') q := by
  unfold overBranches
  induction g.wc with
  | nil => simpa using hasDerivAt_const q (0 : ℝ)
  | cons e l ih =>
    simp only [List.map_cons, List.sum_cons]
    refine HasDerivAt.fun_add ?_ ih
    cases g.cmap.get? e with
    | none => exact hasDerivAt_const q 0
    | some c =>
      simp only
      split_ifs
      · exact hF e c
      · exact hasDerivAt_const q 0

theorem flux_deriv (φ : ℕ → ℝ) (n : ℕ) (bias : ℕ × ℕ × ℕ → ℝ) (e : ℕ × ℕ × ℕ) (q : ℝ) :
    HasDerivAt (fun y => Function.update φ n y e.1 - Function.update φ n y e.2.1 + bias e) (incid n e) q := by
  have h1 : ∀ m, HasDerivAt (fun y => Function.update φ n y m) (if m = n then 1 else 0) q := by
    intro m
    by_cases hm : m = n
    · subst hm; simpa using hasDerivAt_id' q
    · simpa [hm] using hasDerivAt_const q (φ m)
  exact ((h1 e.1).fun_sub (h1 e.2.1)).add_const _

/-- **C76 (partial)** Hamilton's other equation: when the flux of a node moves (and its reduced flux with it), the derivative of the
Hamiltonian is the current that leaves the node through the inductors and the junctions.  Hypotheses as in `C76_energy_partial`. -/
theorem C76_current_partial (h : List Call) (g : CG) (hs : Settled h g) (hc : g.coupled = []) (b : Biases) (hb : createFluxBiases g = .ok b)
    (val : String → ℝ) (x : BiasVals) (Phi0 : ℝ) (hred : ∀ s, x.red s = 2 * Real.pi / Phi0 * x.flux s)
    (hloop : ∀ y ∈ branchesOf 'C' (branches h), y.1 ≠ y.2.1) (hval : ∀ y ∈ branchesOf 'L' (branches h), val y.2.2 ≠ 0)
    (C : Mat ℝ) (hC : capacitance val (resonatorCap val) g = .ok C) (R Cinv : Matrix (Fin (nodes g).length) (Fin (nodes g).length) ℝ)
    (hCi : inverseCapacitance ⟨false, R⟩ (C.block _ _) = some Cinv)
    (pinv : Matrix (Fin (edges g).length) (Fin (edges g).length) ℝ → Matrix (Fin (edges g).length) (Fin (edges g).length) ℝ)
    (hp : ∀ M, branchInductance val g = .ok M → IsPinv (M.block _ _) (pinv (M.block _ _)))
    (L : Matrix (Fin (nodes g).length) (Fin (nodes g).length) ℝ) (hL : inverseInductance val g pinv = .ok L)
    (hgood : ∀ e ∈ g.wc, IsInductor g e → biasVal x.flux b.flux e ≠ 0 →
      (e.1 = 0 ∧ e.2.1 ≠ 0 ∧ ∀ e' ∈ g.wc, IsInductor g e' → e' ≠ e → e'.1 ≠ e.2.1 ∧ e'.2.1 ≠ e.2.1) ∨
      (e.2.1 = 0 ∧ e.1 ≠ 0 ∧ ∀ e' ∈ g.wc, IsInductor g e' → e' ≠ e → e'.1 ≠ e.1 ∧ e'.2.1 ≠ e.1))
    (v φ : ℕ → ℝ) (hv : v 0 = 0) (hφ : φ 0 = 0) (n : ℕ) (hn : n ≠ 0) :
    HasDerivAt (fun q => classicalHamiltonian g b val x Cinv (transformInductance ⟨false, R⟩ L)
        ⟨chargeAt g C x.charge v, atNodes g (Function.update φ n q), atNodes g fun m => 2 * Real.pi / Phi0 * Function.update φ n q m⟩)
      (nodeCurrent g val Phi0 (biasVal x.flux b.flux) φ n) (φ n) := by
  have key : ∀ q, classicalHamiltonian g b val x Cinv (transformInductance ⟨false, R⟩ L)
        ⟨chargeAt g C x.charge v, atNodes g (Function.update φ n q), atNodes g fun m => 2 * Real.pi / Phi0 * Function.update φ n q m⟩ =
      electricEnergy h g val v + magneticEnergy g val (biasVal x.flux b.flux) (Function.update φ n q) +
        cosineEnergy g val Phi0 (biasVal x.flux b.flux) (Function.update φ n q) := fun q =>
    C76_energy_partial h g hs hc b hb val x Phi0 hred hloop hval C hC R Cinv hCi pinv hp L hL hgood v (Function.update φ n q) hv
      (by rw [Function.update_of_ne hn.symm]; exact hφ)
  simp only [key]
  unfold nodeCurrent
  refine HasDerivAt.fun_add (HasDerivAt.const_add _ ?_) ?_
  · unfold magneticEnergy
    apply overBranches_deriv
    intro e c
    have h1 := (((flux_deriv φ n (biasVal x.flux b.flux) e (φ n)).fun_pow 2).const_mul (1 / 2)).div_const (val c)
    refine h1.congr_deriv ?_
    simp only [Function.update_eq_self]
    push_cast
    ring
  · unfold cosineEnergy
    apply overBranches_deriv
    intro e c
    have h1 := ((flux_deriv φ n (biasVal x.flux b.flux) e (φ n)).const_mul (2 * Real.pi / Phi0)).cos.const_mul (-(val c))
    refine h1.congr_deriv ?_
    simp only [Function.update_eq_self]
    ring

theorem oneJunction_biases : createFluxBiases (run {} oneJunction) = .ok ⟨[((0, 1, 1), none)], [((0, 1, 1), none)]⟩ := by decide +kernel

/-- The Hamiltonian of one junction at charge and flux zero: only the cosine. -/
theorem oneJunction_classical (EJ : ℝ) (x : BiasVals) (C L : Matrix (Fin (nodes (run {} oneJunction)).length) (Fin (nodes (run {} oneJunction)).length) ℝ)
    (φ : ℝ) : classicalHamiltonian (run {} oneJunction) ⟨[((0, 1, 1), none)], [((0, 1, 1), none)]⟩ (fun _ => EJ) x C L ⟨0, 0, fun _ => φ⟩ =
      - EJ * Real.cos φ := by
  have hn : nodes (run {} oneJunction) = [1] := by decide +kernel
  have hwc : (run {} oneJunction).wc = [(0, 1, 1)] := by decide +kernel
  have hcm : (run {} oneJunction).cmap.get? (0, 1, 1) = some "I1" := by decide +kernel
  have hcb : (run {} oneJunction).chargeBias.get? 1 = none := by decide +kernel
  have hch : ∀ q : String → ℝ, (fun i : Fin (nodes (run {} oneJunction)).length => chargeBiasVector q (run {} oneJunction) i) = 0 := by
    intro q
    funext i
    have hi : (nodes (run {} oneJunction))[(i : ℕ)]? = some ((nodes (run {} oneJunction)).get i) := List.getElem?_eq_getElem i.2
    have hm : (nodes (run {} oneJunction)).get i = 1 := by
      have hall : ∀ y ∈ nodes (run {} oneJunction), y = 1 := by rw [hn]; simp
      exact hall _ (List.get_mem _ i)
    unfold chargeBiasVector
    rw [hi, hm]
    simp only [hcb]
    rfl
  have hfb : ∀ q : String → ℝ, fluxBiasNodes q (run {} oneJunction) ⟨[((0, 1, 1), none)], [((0, 1, 1), none)]⟩ = 0 := by
    intro q
    unfold fluxBiasNodes
    have : (fun j : Fin (edges (run {} oneJunction)).length => fluxBiasVectorInd q (run {} oneJunction) ⟨[((0, 1, 1), none)], [((0, 1, 1), none)]⟩ j) = 0 := by
      funext j
      have hm : (edges (run {} oneJunction)).get j = (0, 1, 1) := by
        have hall : ∀ y ∈ (run {} oneJunction).wc, y = (0, 1, 1) := by rw [hwc]; simp
        exact hall _ (List.get_mem _ j)
      unfold fluxBiasVectorInd
      rw [List.getElem?_eq_getElem j.2, show (edges (run {} oneJunction))[(j : ℕ)] = (edges (run {} oneJunction)).get j from rfl, hm]
      simp [biasVal, Dict.get?]
    rw [this, mulVec_zero]
  have hq : ∀ {m : ℕ} (A : Matrix (Fin m) (Fin m) ℝ), quadEnergy A 0 0 = 0 := by intro m A; simp [quadEnergy]
  have hj : ∀ (q : String → ℝ) (φ : ℝ), classicalJosephson (run {} oneJunction) ⟨[((0, 1, 1), none)], [((0, 1, 1), none)]⟩ (fun _ => EJ) q
      (fun _ => φ) = - EJ * Real.cos φ := by
    intro q φ
    have h2 : 2 * Real.pi / (2 * Real.pi) = 1 := div_self (by positivity)
    have h1 := classicalJosephson_eq oneJunction_settled ⟨[((0, 1, 1), none)], [((0, 1, 1), none)]⟩ rfl (fun _ => EJ) q q
      (2 * Real.pi) (by intro s; rw [h2, one_mul]) (fun n => if n = 0 then 0 else φ) (by simp)
    have e1 : (atNodes (run {} oneJunction) fun n => 2 * Real.pi / (2 * Real.pi) * if n = 0 then 0 else φ) = fun _ => φ := by
      funext i
      have hall : ∀ y ∈ nodes (run {} oneJunction), y ≠ 0 := by rw [hn]; simp
      unfold atNodes
      simp only [h2, one_mul]
      exact if_neg (hall _ (List.get_mem _ i))
    rw [e1] at h1
    rw [h1]
    unfold cosineEnergy overBranches
    rw [hwc, h2]
    simp only [List.map_cons, List.map_nil, List.sum_cons, List.sum_nil, hcm]
    rw [if_pos (by decide +kernel)]
    simp [biasVal, Dict.get?]
  unfold classicalHamiltonian
  simp only
  rw [hch, hfb, hq, hq, hj, zero_add, zero_add]

/-- **C76 is false with a transform**: one junction, the coordinate `2 φ`.  At the phase `π / 2` the junction has energy 0 and the
Hamiltonian without transform is 0; with the transform the same point has the coordinate `π` and the Hamiltonian is 1. -/
theorem C76_false_transform : ∃ h g b, Settled h g ∧ createFluxBiases g = .ok b ∧ nodes g = [1] ∧
    ∃ (R : Matrix (Fin (nodes g).length) (Fin (nodes g).length) ℝ) (p : Fin (nodes g).length → ℝ), R.det ≠ 0 ∧
      ∀ C C' L : Matrix (Fin (nodes g).length) (Fin (nodes g).length) ℝ, ∀ x,
        classicalHamiltonian g b (fun _ => 1) x C L ⟨0, 0, p⟩ = 0 ∧
        classicalHamiltonian g b (fun _ => 1) x C' (transformInductance ⟨true, R⟩ L) ⟨0, 0, R.mulVec p⟩ = 1 := by
  refine ⟨oneJunction, _, _, oneJunction_settled, oneJunction_biases, by decide +kernel, (2 : ℝ) • (1 : Matrix _ _ ℝ), fun _ => Real.pi / 2, ?_, ?_⟩
  · rw [Matrix.det_smul]
    simp
  · intro C C' L x
    have e2 : ((2 : ℝ) • (1 : Matrix (Fin (nodes (run {} oneJunction)).length) (Fin (nodes (run {} oneJunction)).length) ℝ)).mulVec (fun _ => Real.pi / 2) =
        fun _ => Real.pi := by
      funext i
      rw [smul_mulVec, one_mulVec, Pi.smul_apply, smul_eq_mul]
      ring
    constructor
    · rw [oneJunction_classical, Real.cos_pi_div_two, mul_zero]
    · rw [e2, oneJunction_classical, Real.cos_pi]
      norm_num

-- a circuit with capacitors, a gate, a resonator, an inductor and a junction meets the hypotheses of `C76_energy_partial` and
-- `C76_current_partial`; its biased inductor would be one that is alone at its node
example : ∃ b C Cinv L, createFluxBiases gated = .ok b ∧ gated.coupled = [] ∧ capacitance gatedReal (resonatorCap gatedReal) gated = .ok C ∧
    inverseCapacitance ⟨false, 1⟩ (C.block (nodes gated).length (nodes gated).length) = some Cinv ∧
    (∀ y ∈ branchesOf 'C' (branches gatedCalls), y.1 ≠ y.2.1) ∧ (∀ c, gatedReal c ≠ 0) ∧
    inverseInductance gatedReal gated (fun A => A.map fun x => x⁻¹) = .ok L ∧
    (∀ M, branchInductance gatedReal gated = .ok M →
      IsPinv (M.block (edges gated).length (edges gated).length) ((M.block _ _).map fun x => x⁻¹)) ∧
    ∀ e ∈ gated.wc, IsInductor gated e → e.1 = 0 ∧ e.2.1 ≠ 0 ∧
      ∀ e' ∈ gated.wc, IsInductor gated e' → e' ≠ e → e'.1 ≠ e.2.1 ∧ e'.2.1 ≠ e.2.1 := by
  have hb : ∃ b, createFluxBiases gated = .ok b := ⟨⟨[((0, 1, 1), none), ((0, 2, 0), none)], [((0, 1, 1), none), ((0, 2, 0), none)]⟩, by decide +kernel⟩
  have hC : ∃ C, capacitance gatedReal (resonatorCap gatedReal) gated = .ok C := ⟨_, rfl⟩
  have hL : ∃ L, inverseInductance gatedReal gated (fun A => A.map fun x => x⁻¹) = .ok L := ⟨_, rfl⟩
  obtain ⟨b, hb⟩ := hb
  obtain ⟨C, hC⟩ := hC
  obtain ⟨L, hL⟩ := hL
  have hcc : gated.coupled = [] := by decide +kernel
  refine ⟨b, C, (C.block (nodes gated).length (nodes gated).length)⁻¹, L, hb, hcc, hC, ?_, by decide +kernel, fun c => (gatedReal_pos c).ne', hL, ?_, ?_⟩
  · unfold inverseCapacitance
    rw [if_neg (gated_det hC)]
    rfl
  · intro M hM
    exact uncoupled_pinv _ _ gated_settled hcc _ M hM
  · unfold IsInductor
    decide +kernel

end Verif.Props
