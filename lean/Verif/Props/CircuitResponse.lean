import Verif.Lemmas.CircuitResponse
import Verif.Props.Response

/-!
# C98: How the energies of any circuit respond to the component values and to the biases
-/

namespace Verif.Props

open Verif Verif.Spec Verif.Circuit Verif.Sym Verif.Num Matrix Complex

/-- The numbers of the Hamiltonian of a netlist. -/
theorem assembled {h : List Call} {g : CG} (hs : Settled h g) (ha : AllOk h) (hn : CircuitNetlist h) {b : Biases} {val phi q : String → ℝ}
    (hL : ∀ br ∈ branchesOf 'L' (branches h), val br.2.2 ≠ 0) {t : Transform ℝ (nodes g).length}
    {pinv : Matrix (Fin (edges g).length) (Fin (edges g).length) ℝ → Matrix (Fin (edges g).length) (Fin (edges g).length) ℝ}
    (hp : ∀ M, IsPinv M (pinv M)) {u : Prefs} {s : Sys PUnit (nodes g).length (edges g).length} (h1 : assemble g b val phi q t pinv u = .ok s) :
    ∃ C L, Cᵀ = C ∧ C.det ≠ 0 ∧ (∀ v : ℕ → ℝ, v 0 = 0 → atNodes g v ⬝ᵥ C.mulVec (atNodes g v) = electrostaticForm val h v) ∧
      inverseCapacitance t C = some s.Cinv ∧ Lᵀ = L ∧
      (∀ v : ℕ → ℝ, v 0 = 0 → atNodes g v ⬝ᵥ L.mulVec (atNodes g v) = inductorForm val (branches h) v) ∧ s.Linv = transformInductance t L ∧
      (s.J = fun i : Fin _ => josephsonVector val g (i : ℕ)) ∧ (s.Ps = fun i : Fin _ => phaseSlipVector val g (i : ℕ)) ∧ (s.Pb = fun i : Fin _ => fluxBiasVector phi g b (i : ℕ)) ∧
      (s.Qbt = (Mat.block (incidence (K := ℝ) g) (nodes g).length (edges g).length).transpose.mulVec fun i => chargeBiasVector q g i) ∧
      (s.Qb = fun i : Fin _ => chargeBiasVector q g (i : ℕ)) ∧ s.Pbi = fluxBiasNodes phi g b ∧
      (s.terms = fun i => branchTerms g (fun a j => if h : a < (nodes g).length ∧ j < (nodes g).length then t.R⁻¹ ⟨a, h.1⟩ ⟨j, h.2⟩ else 0)
        ((edges g).get i)) ∧ s.u = u := by
  obtain ⟨C, hC, hsym, hform⟩ := circuit_capacitance hs ha hn val
  unfold assemble at h1
  simp only [hC] at h1
  cases hCi : inverseCapacitance t (C.block (nodes g).length (nodes g).length) with
  | none => rw [hCi] at h1; cases h1
  | some Ci =>
  rw [hCi] at h1
  have hdet : (C.block (nodes g).length (nodes g).length).det ≠ 0 := by
    unfold inverseCapacitance at hCi
    split_ifs at hCi with h0
    all_goals exact h0
  simp only at h1
  cases hM : branchInductance val g with
  | error e => rw [hM] at h1; cases h1
  | ok M =>
  rw [hM] at h1
  have hseq := (Except.ok.inj h1).symm
  have hcoup : g.coupled = [] := by obtain ⟨rfl, -⟩ := settled_run hs; exact (circuit_frame hn).1
  have hLi : inverseInductance val g pinv = .ok (toNodes g (pinv (M.block _ _))) := by
    unfold inverseInductance
    rw [hM]
  refine ⟨_, _, hsym, hdet, hform, ?_, C30_symmetric val g pinv (fun M _ => hp _) _ hLi,
    C30_uncoupled h g hs hcoup val hL pinv (fun M _ => hp _) _ hLi, ?_, ?_, ?_, ?_, ?_, ?_, ?_, ?_, ?_⟩
  · rw [hCi, hseq]
  all_goals rw [hseq]

/-- The two quadratic forms of the Hamiltonian of larger values are not larger, with or without a transform. -/
theorem forms_le {n : ℕ} (t : Transform ℝ n) {A A' : Matrix (Fin n) (Fin n) ℝ} (h : ∀ x : Fin n → ℝ, x ⬝ᵥ A' *ᵥ x ≤ x ⬝ᵥ A *ᵥ x) (R : Matrix (Fin n) (Fin n) ℝ)
    (x : Fin n → ℝ) : x ⬝ᵥ (R * A' * Rᵀ) *ᵥ x ≤ x ⬝ᵥ (R * A * Rᵀ) *ᵥ x := by
  have key : ∀ B : Matrix (Fin n) (Fin n) ℝ, x ⬝ᵥ (R * B * Rᵀ) *ᵥ x = (Rᵀ *ᵥ x) ⬝ᵥ B *ᵥ (Rᵀ *ᵥ x) := by
    intro B
    rw [← mulVec_mulVec, ← mulVec_mulVec, dotProduct_mulVec, ← mulVec_transpose]
  rw [key, key]
  exact h _

theorem inverse_le {n : ℕ} (t : Transform ℝ n) {C C' Ci Ci' : Matrix (Fin n) (Fin n) ℝ} (h : ∀ x : Fin n → ℝ, x ⬝ᵥ C'⁻¹ *ᵥ x ≤ x ⬝ᵥ C⁻¹ *ᵥ x)
    (h1 : inverseCapacitance t C = some Ci) (h2 : inverseCapacitance t C' = some Ci') (x : Fin n → ℝ) : x ⬝ᵥ Ci' *ᵥ x ≤ x ⬝ᵥ Ci *ᵥ x := by
  unfold inverseCapacitance at h1 h2
  split_ifs at h1 h2 with _ h0
  · rw [← Option.some.inj h1, ← Option.some.inj h2]; exact forms_le t h t.R x
  · rw [← Option.some.inj h1, ← Option.some.inj h2]; exact h x

theorem transform_le {n : ℕ} (t : Transform ℝ n) {L L' : Matrix (Fin n) (Fin n) ℝ} (h : ∀ x : Fin n → ℝ, x ⬝ᵥ L' *ᵥ x ≤ x ⬝ᵥ L *ᵥ x) (x : Fin n → ℝ) :
    x ⬝ᵥ transformInductance t L' *ᵥ x ≤ x ⬝ᵥ transformInductance t L *ᵥ x := by
  unfold transformInductance
  split_ifs
  · have := forms_le t h (t.R⁻¹)ᵀ x
    rwa [transpose_transpose] at this
  · exact h x

/-- The Hamiltonian as a sum over all the branches. -/
theorem hamiltonian_sum {A : Type} [Ring A] [Algebra ℂ A] {n b : ℕ} {s : Sys A n b} {H : A} (hH : hamiltonian s = some H) :
    H = linearPart (num A) s +
      num A s.u.Ej * ∑ k, -(num A (1 / 2) * num A (s.J k) * (dispProduct s.D s.Ddag false (s.terms k) (expTau A (s.Pb k)) +
        dispProduct s.D s.Ddag true (s.terms k) (expTau A (-(s.Pb k))))) +
      num A s.u.Ep * ∑ k, -(num A (1 / 2) * num A (s.Ps k) * (dispProduct s.S s.Sdag false (s.terms k) (expTau A (s.Qbt k)) +
        dispProduct s.S s.Sdag true (s.terms k) (expTau A (-(s.Qbt k))))) := by
  unfold hamiltonian at hH
  rw [branchSum_spec, branchSum_spec] at hH
  split_ifs at hH with h1 h2
  simp only [Option.some.injEq, zero_add, List.map_map] at hH
  rw [← hH]
  unfold josBranches slipBranches
  rw [sum_filter_of_zero _ _ _ (by
    intro k hk
    have h0 : s.J k = 0 := by simpa using hk
    simp [josData, h0]), sum_filter_of_zero _ _ _ (by
    intro k hk
    have h0 : s.Ps k = 0 := by simpa using hk
    simp [slipData, h0]), ← Fin.sum_univ_def, ← Fin.sum_univ_def]
  rfl

/-- **C98** More capacitance and more inductance never raise a level: take any netlist of capacitors, inductors, junctions and phase slips with flux
and charge biases, any transform of the coordinates, and at every node the operators of any basis (Hermitian charge and flux, displacements with
their adjoints).  If no capacitance, gate capacitance and (positive) inductance gets smaller, and junctions, phase slips and biases stay, then the circuit still has a
Hamiltonian, and for every `k` the `k`-th level is not higher. -/
theorem C98_values (h : List Call) (g : CG) (hs : Settled h g) (ha : AllOk h) (hn : CircuitNetlist h) (b : Biases) (hb : createFluxBiases g = .ok b)
    (val val' phi q : String → ℝ) (hv : NonnegCaps val h) (hL : ∀ br ∈ branchesOf 'L' (branches h), 0 < val br.2.2) (hm : MoreValues val val' h)
    (t : Transform ℝ (nodes g).length)
    (pinv : Matrix (Fin (edges g).length) (Fin (edges g).length) ℝ → Matrix (Fin (edges g).length) (Fin (edges g).length) ℝ)
    (hp : ∀ M, IsPinv M (pinv M)) (u : Prefs) (hEc : 0 ≤ u.Ec) (hEl : 0 ≤ u.El) (cfg : Fin (nodes g).length → NodeCfg) (o : ∀ i, NodeOps (cfg i).dim)
    (ho : ∀ i, Adjoint (o i)) (N : Fin (nodes g).length → BigNode cfg) (hN : ∀ i, expandNode cfg i (o i) = some (N i))
    (s : Sys PUnit (nodes g).length (edges g).length) (H : BigOp cfg) (h1 : assemble g b val phi q t pinv u = .ok s)
    (h2 : hamiltonian (s.withNodes N) = some H) :
    ∃ s' H', assemble g b val' phi q t pinv u = .ok s' ∧ hamiltonian (s'.withNodes N) = some H' ∧ ∀ k E, LevelsUpTo H k E → LevelsUpTo H' k E := by
  have hm' : MoreCapacitance val val' h := ⟨hm.caps, hm.gates, hm.junctions⟩
  have hconn := (C97_quantisable h g hs ha hn b hb val phi q hv t pinv u).1.1 ⟨s, h1⟩
  obtain ⟨s', h1'⟩ := (C97_quantisable h g hs ha hn b hb val' phi q (more_nonneg hm' hv) t pinv u).1.2 fun n hn => more_conn hm' hv n (hconn n hn)
  obtain ⟨C, L, e1, e2, e3, e4, e5, e6, e7, e8, e9, e10, e11, e12, e13, e14, e15⟩ := assembled hs ha hn (fun br hbr => (hL br hbr).ne') hp h1
  have hL' : ∀ br ∈ branchesOf 'L' (branches h), 0 < val' br.2.2 := fun br hbr => (hL br hbr).trans_le (hm.inductors br hbr)
  obtain ⟨C', L', f1, f2, f3, f4, f5, f6, f7, f8, f9, f10, f11, f12, f13, f14, f15⟩ := assembled hs ha hn (fun br hbr => (hL' br hbr).ne') hp h1'
  have hJ : s'.J = s.J := by
    rw [e8, f8]
    funext k
    unfold josephsonVector
    rw [List.getElem?_eq_getElem k.2]
    dsimp only
    obtain ⟨br, hbr, -, hc⟩ := wc_branch hs (List.getElem_mem k.2 : (edges g)[(k : ℕ)] ∈ edges g)
    rw [hc]
    dsimp only
    split_ifs with hI
    · exact hm.junctions br (List.mem_filter.2 ⟨(List.mem_filter.1 hbr).1, (startsWith_iff _ _).2 hI⟩)
    · rfl
  have hV : s'.Ps = s.Ps := by
    rw [e9, f9]
    funext k
    unfold phaseSlipVector
    rw [List.getElem?_eq_getElem k.2]
    dsimp only
    obtain ⟨br, hbr, -, hc⟩ := wc_branch hs (List.getElem_mem k.2 : (edges g)[(k : ℕ)] ∈ edges g)
    rw [hc]
    dsimp only
    split_ifs with hI
    · exact hm.slips br (List.mem_filter.2 ⟨(List.mem_filter.1 hbr).1, (startsWith_iff _ _).2 hI⟩)
    · rfl
  have hex : ∃ H', hamiltonian (s'.withNodes N) = some H' := by
    have := (C66_defined (s'.withNodes N)).2 (by
      have h3 := (C66_defined (s.withNodes N)).1 (by rw [h2]; rfl)
      intro i hi
      have h4 := h3 i (by
        have g1 : (s'.withNodes N).J i = (s.withNodes N).J i := congrFun hJ i
        have g2 : (s'.withNodes N).Ps i = (s.withNodes N).Ps i := congrFun hV i
        rwa [g1, g2] at hi)
      have g3 : (s'.withNodes N).terms i = (s.withNodes N).terms i := congrFun (f14.trans e14.symm) i
      rwa [g3])
    exact Option.isSome_iff_exists.1 this
  obtain ⟨H', h2'⟩ := hex
  refine ⟨s', H', h1', h2', fun k E hk => ?_⟩
  have good : ∀ r : Sys PUnit (nodes g).length (edges g).length, (r.terms = fun i => branchTerms g (fun a j => if h : a < (nodes g).length ∧ j < (nodes g).length then t.R⁻¹ ⟨a, h.1⟩ ⟨j, h.2⟩ else 0)
        ((edges g).get i)) → GoodOps (r.withNodes N) := fun r hr => goodOps_withNodes r N o ho hN fun i => by rw [hr]; exact branchTerms_good g _ _
  have hgood := good s e14
  have hH : H.IsHermitian := by
    have hsym := C33_symmetric t C L s.Cinv e1 e5 e4
    exact C66_hermitian (s.withNodes N) hgood hsym.1 (by show s.Linvᵀ = s.Linv; rw [e7]; exact hsym.2) H h2
  have hH' : H'.IsHermitian := by
    have hsym := C33_symmetric t C' L' s'.Cinv f1 f5 f4
    exact C66_hermitian (s'.withNodes N) (good s' f14) hsym.1 (by show s'.Linvᵀ = s'.Linv; rw [f7]; exact hsym.2) H' h2'
  have hCpos : ∀ x, 0 ≤ x ⬝ᵥ C.mulVec x := by
    intro x
    obtain ⟨v, h0, rfl⟩ := atNodes_surj hs x
    rw [e3 v h0]
    exact electrostatic_nonneg hv v
  have hCle : ∀ x, x ⬝ᵥ C.mulVec x ≤ x ⬝ᵥ C'.mulVec x := by
    intro x
    obtain ⟨v, h0, rfl⟩ := atNodes_surj hs x
    rw [e3 v h0, f3 v h0]
    exact form_le hm' v
  have hLle : ∀ x, x ⬝ᵥ L'.mulVec x ≤ x ⬝ᵥ L.mulVec x := by
    intro x
    obtain ⟨v, h0, rfl⟩ := atNodes_surj hs x
    rw [e6 v h0, f6 v h0]
    exact List.sum_le_sum fun br hbr => div_le_div_of_nonneg_left (sq_nonneg _) (hL br hbr) (hm.inductors br hbr)
  classical
  have := levelsUpTo_weyl hH hH' 0 (fun v => by
    rw [hamiltonian_sum h2, hamiltonian_sum h2', zero_mul, add_zero]
    have g1 : (s'.withNodes N).J = (s.withNodes N).J := hJ
    have g2 : (s'.withNodes N).Ps = (s.withNodes N).Ps := hV
    have g3 : (s'.withNodes N).terms = (s.withNodes N).terms := f14.trans e14.symm
    have g4 : (s'.withNodes N).Pb = (s.withNodes N).Pb := f10.trans e10.symm
    have g5 : (s'.withNodes N).Qbt = (s.withNodes N).Qbt := f11.trans e11.symm
    have g6 : (s'.withNodes N).Qb = (s.withNodes N).Qb := f12.trans e12.symm
    have g7 : (s'.withNodes N).Pbi = (s.withNodes N).Pbi := f13.trans e13.symm
    have g8 : (s'.withNodes N).u = u := f15
    have g9 : (s.withNodes N).u = u := e15
    rw [g1, g2, g3, g4, g5, g8, g9]
    rw [energy_add, energy_add, energy_add (_ + _), energy_add (linearPart _ _)]
    refine add_le_add (add_le_add ?_ (le_refl _)) (le_refl _)
    unfold linearPart
    rw [g6, g7, g8, g9, energy_add, energy_add, num_smul, num_smul, num_smul, num_smul, energy_csmul, energy_csmul, energy_csmul, energy_csmul]
    refine add_le_add (mul_le_mul_of_nonneg_left ?_ (by linarith)) (mul_le_mul_of_nonneg_left ?_ (by linarith))
    · refine energy_quadOp_le _ (fun i => ?_) (inverse_le t (inv_form_le e1 f1 e2 f2 hCpos hCle) e4 f4) v
      have := hgood.Q i
      rw [← Matrix.star_eq_conjTranspose, star_add, star_num]
      congr 1
    · refine energy_quadOp_le _ (fun i => ?_) (fun x => ?_) v
      · have := hgood.P i
        rw [← Matrix.star_eq_conjTranspose, star_add, star_num]
        congr 1
      · show x ⬝ᵥ s'.Linv *ᵥ x ≤ x ⬝ᵥ s.Linv *ᵥ x
        rw [e7, f7]
        exact transform_le t hLle x) k E hk
  rwa [add_zero] at this

theorem prod_contraction {ι : Type} [Fintype ι] [DecidableEq ι] {D Dd : ℕ → Matrix ι ι ℂ} (hD : ∀ j, Contraction (D j)) (hDd : ∀ j, Contraction (Dd j)) (flip : Bool)
    (ts : List (ℝ × ℕ)) : ∃ A, Contraction A ∧ (∀ y, dispProduct D Dd flip ts y = y * A) := by
  refine ⟨_, contraction_prod _ ?_, fun y => dispProduct_eq D Dd flip ts y⟩
  intro A hA
  obtain ⟨p, -, rfl⟩ := List.mem_map.1 hA
  split_ifs
  exacts [hD _, hDd _, hD _, hDd _]

/-- The displacement operators of the whole space lengthen no state if those of the nodes do not. -/
theorem disp_contraction {n : ℕ} {cfg : Fin n → NodeCfg} {o : ∀ i, NodeOps (cfg i).dim} (ho : ∀ i, Adjoint (o i)) {N : Fin n → BigNode cfg}
    (hN : ∀ i, expandNode cfg i (o i) = some (N i)) (hD : ∀ i, Contraction (o i).D) (hS : ∀ i, Contraction (o i).S) {B : Type} {b : ℕ} (s : Sys B n b) :
    (∀ j, Contraction ((s.withNodes N).D j)) ∧ (∀ j, Contraction ((s.withNodes N).Ddag j)) ∧ (∀ j, Contraction ((s.withNodes N).S j)) ∧
      ∀ j, Contraction ((s.withNodes N).Sdag j) := by
  have h0 : Contraction (0 : BigOp cfg) := fun v => by
    rw [zero_mulVec]
    simp only [Pi.zero_apply, map_zero, Finset.sum_const_zero]
    exact Finset.sum_nonneg fun _ _ => normSq_nonneg _
  have key : ∀ (f : Fin n → BigOp cfg), (∀ i, Contraction (f i)) → ∀ j, Contraction (if h : j < n then f ⟨j, h⟩ else 0) := by
    intro f hf j
    split_ifs with hj
    · exact hf _
    · exact h0
  have ops : ∀ i, Contraction (N i).D ∧ Contraction (N i).Ddag ∧ Contraction (N i).S ∧ Contraction (N i).Sdag := by
    intro i
    obtain ⟨-, -, d1, d2, d3, d4⟩ := expandNode_some (hN i)
    obtain ⟨-, -, a1, a2⟩ := ho i
    rw [expandOp_some d1, expandOp_some d2, expandOp_some d3, expandOp_some d4, a1, a2]
    exact ⟨contraction_actsOn cfg i (hD i), contraction_actsOn cfg i (contraction_adjoint (hD i)), contraction_actsOn cfg i (hS i),
      contraction_actsOn cfg i (contraction_adjoint (hS i))⟩
  have k1 := key (fun i => (N i).D) fun i => (ops i).1
  have k2 := key (fun i => (N i).Ddag) fun i => (ops i).2.1
  have k3 := key (fun i => (N i).S) fun i => (ops i).2.2.1
  have k4 := key (fun i => (N i).Sdag) fun i => (ops i).2.2.2
  exact ⟨k1, k2, k3, k4⟩

theorem sum_change {b : ℕ} (E : ℝ) (a a' c : Fin b → ℝ) (w : ℝ) (hk : ∀ k, |a' k - a k| ≤ c k * w) : E * ∑ k, a' k ≤ E * (∑ k, a k) + |E| * (∑ k, c k) * w := by
  have hsum := (Finset.abs_sum_le_sum_abs (fun k => a' k - a k) Finset.univ).trans (Finset.sum_le_sum fun k _ => hk k)
  rw [Finset.sum_sub_distrib, ← Finset.sum_mul] at hsum
  have h1 := mul_le_mul_of_nonneg_left hsum (abs_nonneg E)
  rw [← abs_mul, mul_sub] at h1
  have h2 := (le_abs_self _).trans h1
  rw [mul_assoc]
  linarith

/-- The change of the energy of a state when all the cosines change their amplitudes and phases. -/
theorem energy_cosines {ι : Type} [Fintype ι] [DecidableEq ι] {D Dd : ℕ → Matrix ι ι ℂ} (hD : ∀ j, Contraction (D j)) (hDd : ∀ j, Contraction (Dd j)) {b : ℕ} (E : ℝ)
    (J J' x x' : Fin b → ℝ) (terms : Fin b → List (ℝ × ℕ)) (v : ι → ℂ) :
    energy (num _ E * ∑ k, -(num (Matrix ι ι ℂ) (1 / 2) * num _ (J' k) * (dispProduct D Dd false (terms k) (expTau _ (x' k)) +
        dispProduct D Dd true (terms k) (expTau _ (-(x' k)))))) v ≤
    energy (num _ E * ∑ k, -(num (Matrix ι ι ℂ) (1 / 2) * num _ (J k) * (dispProduct D Dd false (terms k) (expTau _ (x k)) +
        dispProduct D Dd true (terms k) (expTau _ (-(x k)))))) v + |E| * (∑ k, (|J' k - J k| + 2 * Real.pi * |J k| * |x' k - x k|)) * ∑ i, normSq (v i) := by
  rw [num_smul, num_smul, energy_csmul, energy_csmul, energy_sum, energy_sum]
  have hk : ∀ k, |energy (-(num (Matrix ι ι ℂ) (1 / 2) * num _ (J' k) * (dispProduct D Dd false (terms k) (expTau _ (x' k)) +
        dispProduct D Dd true (terms k) (expTau _ (-(x' k)))))) v -
      energy (-(num (Matrix ι ι ℂ) (1 / 2) * num _ (J k) * (dispProduct D Dd false (terms k) (expTau _ (x k)) +
        dispProduct D Dd true (terms k) (expTau _ (-(x k)))))) v| ≤ (|J' k - J k| + 2 * Real.pi * |J k| * |x' k - x k|) * ∑ i, normSq (v i) := by
    intro k
    obtain ⟨A, hA, hA'⟩ := prod_contraction hD hDd false (terms k)
    obtain ⟨B, hB, hB'⟩ := prod_contraction hD hDd true (terms k)
    rw [hA', hA', hB', hB']
    exact energy_cosine hA hB _ _ _ _ v
  exact sum_change E _ _ _ _ hk

/-- **C98** The levels are continuous in the critical currents, in the fluxes of the junctions and in the amplitudes of the phase slips: if capacitances,
inductances, fluxes of inductors and gate charges stay, no level moves by more than the changes of the Josephson energies, plus `2π` times the Josephson energies
times the changes of the fluxes, plus the changes of the phase-slip energies.  For any netlist, any transform, and at every node any operators with displacements that
lengthen no state.  (Swap the two sets of values for the other direction.) -/
theorem C98_drives (h : List Call) (g : CG) (hs : Settled h g) (ha : AllOk h) (hn : CircuitNetlist h) (b : Biases) (hb : createFluxBiases g = .ok b)
    (val val' phi phi' q : String → ℝ) (hL : ∀ br ∈ branchesOf 'L' (branches h), val br.2.2 ≠ 0) (hm : SameLinear val val' h)
    (hf : ∀ br ∈ branchesOf 'L' (branches h), fluxOn phi' h br.2.2 = fluxOn phi h br.2.2) (t : Transform ℝ (nodes g).length)
    (pinv : Matrix (Fin (edges g).length) (Fin (edges g).length) ℝ → Matrix (Fin (edges g).length) (Fin (edges g).length) ℝ)
    (hp : ∀ M, IsPinv M (pinv M)) (u : Prefs) (cfg : Fin (nodes g).length → NodeCfg) (o : ∀ i, NodeOps (cfg i).dim)
    (ho : ∀ i, Adjoint (o i)) (hD : ∀ i, Contraction (o i).D) (hS : ∀ i, Contraction (o i).S)
    (N : Fin (nodes g).length → BigNode cfg) (hN : ∀ i, expandNode cfg i (o i) = some (N i))
    (s s' : Sys PUnit (nodes g).length (edges g).length) (H H' : BigOp cfg) (h1 : assemble g b val phi q t pinv u = .ok s)
    (h2 : hamiltonian (s.withNodes N) = some H) (h1' : assemble g b val' phi' q t pinv u = .ok s') (h2' : hamiltonian (s'.withNodes N) = some H') (k : ℕ) (E : ℝ)
    (hk : LevelsUpTo H k E) : LevelsUpTo H' k (E + (|u.Ej| * junctionChange val val' phi phi' h + |u.Ep| * slipChange val val' h)) := by
  obtain ⟨C, L, e1, e2, e3, e4, e5, e6, e7, e8, e9, e10, e11, e12, e13, e14, e15⟩ := assembled hs ha hn hL hp h1
  have hL' : ∀ br ∈ branchesOf 'L' (branches h), val' br.2.2 ≠ 0 := fun br hbr => by rw [hm.inductors br hbr]; exact hL br hbr
  obtain ⟨C', L', f1, f2, f3, f4, f5, f6, f7, f8, f9, f10, f11, f12, f13, f14, f15⟩ := assembled hs ha hn hL' hp h1'
  have hCC : C' = C := symmetric_eq_of_form f1 e1 fun x => by
    obtain ⟨v, h0, rfl⟩ := atNodes_surj hs x
    rw [e3 v h0, f3 v h0, form_same ⟨hm.caps, hm.gates⟩]
  have hLL : L' = L := symmetric_eq_of_form f5 e5 fun x => by
    obtain ⟨v, h0, rfl⟩ := atNodes_surj hs x
    rw [e6 v h0, f6 v h0]
    unfold inductorForm
    congr 1
    exact List.map_congr_left fun br hbr => by rw [hm.inductors br hbr]
  have good : ∀ r : Sys PUnit (nodes g).length (edges g).length, (r.terms = fun i => branchTerms g (fun a j => if h : a < (nodes g).length ∧ j < (nodes g).length then t.R⁻¹ ⟨a, h.1⟩ ⟨j, h.2⟩ else 0)
        ((edges g).get i)) → GoodOps (r.withNodes N) := fun r hr => goodOps_withNodes r N o ho hN fun i => by rw [hr]; exact branchTerms_good g _ _
  have hH : H.IsHermitian := by
    have hsym := C33_symmetric t C L s.Cinv e1 e5 e4
    exact C66_hermitian (s.withNodes N) (good s e14) hsym.1 (by show s.Linvᵀ = s.Linv; rw [e7]; exact hsym.2) H h2
  have hH' : H'.IsHermitian := by
    have hsym := C33_symmetric t C' L' s'.Cinv f1 f5 f4
    exact C66_hermitian (s'.withNodes N) (good s' f14) hsym.1 (by show s'.Linvᵀ = s'.Linv; rw [f7]; exact hsym.2) H' h2'
  have hPbi : s'.Pbi = s.Pbi := by
    rw [e13, f13, fluxBiasNodes_eq hs, fluxBiasNodes_eq hs]
    funext i
    unfold atNodes nodeShift
    refine if_congr Iff.rfl rfl ?_
    congr 1
    apply List.map_congr_left
    intro e he
    obtain ⟨br, hbr, -, hc⟩ := wc_branch hs he
    rw [hc]
    dsimp only
    congr 1
    by_cases hI : startsWith br.2.2 'L' = true
    · rw [if_pos hI, if_pos hI, biasVal_eq hs ha hb phi he hc, biasVal_eq hs ha hb phi' he hc, hf br (List.mem_filter.2 ⟨(List.mem_filter.1 hbr).1, hI⟩)]
    · rw [if_neg hI, if_neg hI]
  have hCi : s'.Cinv = s.Cinv := by rw [hCC, e4] at f4; exact (Option.some.inj f4).symm
  have hLi : s'.Linv = s.Linv := by rw [e7, f7, hLL]
  obtain ⟨c1, c2, c3, c4⟩ := disp_contraction ho hN hD hS s
  -- the sums of the changes
  have sJ : ∑ k, (|s'.J k - s.J k| + 2 * Real.pi * |s.J k| * |s'.Pb k - s.Pb k|) = junctionChange val val' phi phi' h := by
    refine sum_netlist hs hn.ends 'I' (by decide) (fun _ _ c _ => |val' c - val c| + 2 * Real.pi * |val c| * |fluxOn phi' h c - fluxOn phi h c|) (by intros; rfl) _ ?_
    intro k c hc
    have hc' : g.cmap.get? ((edges g)[(k : ℕ)]'k.2) = some c := hc
    rw [e8, f8, e10, f10]
    unfold josephsonVector fluxBiasVector
    dsimp only
    rw [List.getElem?_eq_getElem k.2]
    simp only [hc', ← startsWith_iff]
    by_cases hI : startsWith c 'I' = true
    · have hedge : isEdgeOf g 'I' ((edges g)[(k : ℕ)]'k.2) = .ok true := by
        unfold isEdgeOf
        rw [hc']
        simp [(startsWith_iff _ _).1 hI]
      rw [if_pos hI, if_pos hI, if_pos hI, if_pos hedge, if_pos hedge, biasVal_eq hs ha hb phi (List.getElem_mem k.2) hc',
        biasVal_eq hs ha hb phi' (List.getElem_mem k.2) hc']
    · simp [hI]
  have sV : ∑ k, (|s'.Ps k - s.Ps k| + 2 * Real.pi * |s.Ps k| * |s'.Qbt k - s.Qbt k|) = slipChange val val' h := by
    refine sum_netlist hs hn.ends 'V' (by decide) (fun _ _ c _ => |val' c - val c|) (by intros; rfl) _ ?_
    intro k c hc
    have hc' : g.cmap.get? ((edges g)[(k : ℕ)]'k.2) = some c := hc
    rw [e9, f9, e11, f11]
    unfold phaseSlipVector
    dsimp only
    rw [List.getElem?_eq_getElem k.2]
    simp only [hc', ← startsWith_iff, sub_self, abs_zero, mul_zero, add_zero]
    by_cases hI : startsWith c 'V' = true
    · simp [hI]
    · simp [hI]
  refine levelsUpTo_weyl hH hH' _ (fun v => ?_) k E hk
  rw [hamiltonian_sum h2, hamiltonian_sum h2']
  have g3 : (s'.withNodes N).terms = (s.withNodes N).terms := f14.trans e14.symm
  have g6 : (s'.withNodes N).Qb = (s.withNodes N).Qb := f12.trans e12.symm
  have g7 : (s'.withNodes N).Pbi = (s.withNodes N).Pbi := hPbi
  have g8 : (s'.withNodes N).u = u := f15
  have g9 : (s.withNodes N).u = u := e15
  have g10 : (s'.withNodes N).Cinv = (s.withNodes N).Cinv := hCi
  have g11 : (s'.withNodes N).Linv = (s.withNodes N).Linv := hLi
  have hlin : linearPart (num (BigOp cfg)) (s'.withNodes N) = linearPart (num (BigOp cfg)) (s.withNodes N) := by
    unfold linearPart
    rw [g6, g7, g8, g9, g10, g11]
    rfl
  rw [hlin, g3, g8, g9]
  rw [energy_add, energy_add, energy_add (_ + _), energy_add (linearPart _ _)]
  have k1 := energy_cosines c1 c2 u.Ej s.J s'.J s.Pb s'.Pb s.terms v
  have k2 := energy_cosines c3 c4 u.Ep s.Ps s'.Ps s.Qbt s'.Qbt s.terms v
  rw [sJ] at k1
  rw [sV] at k2
  have := add_le_add k1 k2
  rw [add_mul]
  refine le_trans (add_le_add (add_le_add (le_refl _) k1) k2) (le_of_eq ?_)
  simp only [Sys.withNodes]
  ring

theorem unitary_contraction {n : ℕ} {A : Op n} (hA : A ∈ unitaryGroup (Fin n) ℂ) : Contraction A := fun v => by
  have h1 : star (A *ᵥ v) ⬝ᵥ (A *ᵥ v) = star v ⬝ᵥ v := by
    rw [star_mulVec, dotProduct_mulVec, vecMul_vecMul, ← Matrix.star_eq_conjTranspose, mem_unitaryGroup_iff'.1 hA, vecMul_one]
  rw [dot_self, dot_self] at h1
  exact (Complex.ofReal_inj.1 h1).le

/-- **C98** The displacements of the oscillator basis lengthen no state, and neither do those of the charge basis if the eigenvectors of the number operator come
with equal phases. -/
theorem C98_bases :
    (∀ (n : ℕ) (Z pq pp : ℝ) (M M' : Op n) (E : Fin n → ℝ) (V : Op n) (E' : Fin n → ℝ) (V' : Op n), IsEigh M E V → IsEigh M' E' V' →
      Contraction (oscillatorBasis n Z pq pp E V E' V').D ∧ Contraction (oscillatorBasis n Z pq pp E V E' V').S) ∧
    ∀ (t : ℕ) (q : Fin (2 * t + 1) → ℝ) (s : Fin (2 * t + 1) → Fin (2 * t + 1) → ℂ) (E : Fin (2 * t + 1) → ℝ) (V : Op (2 * t + 1)),
      IsEigenstates (-(numOp (2 * t + 1) t)) q s → (∀ i j, s i (Fin.rev i) = s j (Fin.rev j)) → IsEigh (fourierOp t s) E V →
      Contraction (chargeBasis t q s E V).D ∧ Contraction (chargeBasis t q s E V).S := by
  refine ⟨fun n Z pq pp M M' E V E' V' h1 h2 => ⟨unitary_contraction (C38_displacement M E V h1).2, unitary_contraction (C38_displacement M' E' V' h2).2⟩, ?_⟩
  intro t q s E V h1 h2 h3
  obtain ⟨-, hD, -, -, -, -, hS, -⟩ := C37_charge_basis_partial t q s E V h1 h2 h3
  constructor
  swap
  · rw [hS]; exact contraction_one
  intro v
  have hmv : ∀ m : Fin (2 * t + 1), ((chargeBasis t q s E V).D *ᵥ v) m = if hm : (m : ℕ) + 1 < 2 * t + 1 then v ⟨m + 1, hm⟩ else 0 := by
    intro m
    simp only [mulVec, dotProduct, hD, ite_mul, one_mul, zero_mul]
    split_ifs with hm
    · rw [Finset.sum_eq_single ⟨m + 1, hm⟩]
      · simp
      · intro b _ hb
        rw [if_neg]
        intro hb'
        exact hb (Fin.ext hb')
      · simp
    · refine Finset.sum_eq_zero fun b _ => if_neg ?_
      have := b.2
      omega
  simp only [hmv]
  rw [Fin.sum_univ_castSucc, Fin.sum_univ_succ (fun i => normSq (v i))]
  have e1 : ∀ i : Fin (2 * t), normSq (if hm : ((Fin.castSucc i : Fin (2 * t + 1)) : ℕ) + 1 < 2 * t + 1 then v ⟨(Fin.castSucc i : Fin (2 * t + 1)) + 1, hm⟩ else 0) = normSq (v i.succ) := by
    intro i
    rw [dif_pos (by simp)]
    rfl
  rw [Finset.sum_congr rfl fun i _ => e1 i]
  simp only [Fin.val_last, lt_irrefl, dite_false, map_zero, add_zero]
  have := normSq_nonneg (v 0)
  linarith

/-- **C98** No level is below minus the sum of the Josephson and phase-slip energies: with non-negative capacitances and positive inductances the capacitors and inductors only raise the energy,
whatever the biases and the transform. -/
theorem C98_floor (h : List Call) (g : CG) (hs : Settled h g) (ha : AllOk h) (hn : CircuitNetlist h) (b : Biases)
    (val phi q : String → ℝ) (hv : NonnegCaps val h) (hL : ∀ br ∈ branchesOf 'L' (branches h), 0 < val br.2.2) (t : Transform ℝ (nodes g).length)
    (pinv : Matrix (Fin (edges g).length) (Fin (edges g).length) ℝ → Matrix (Fin (edges g).length) (Fin (edges g).length) ℝ)
    (hp : ∀ M, IsPinv M (pinv M)) (u : Prefs) (hEc : 0 ≤ u.Ec) (hEl : 0 ≤ u.El) (cfg : Fin (nodes g).length → NodeCfg) (o : ∀ i, NodeOps (cfg i).dim)
    (ho : ∀ i, Adjoint (o i)) (hD : ∀ i, Contraction (o i).D) (hS : ∀ i, Contraction (o i).S)
    (N : Fin (nodes g).length → BigNode cfg) (hN : ∀ i, expandNode cfg i (o i) = some (N i))
    (s : Sys PUnit (nodes g).length (edges g).length) (H : BigOp cfg) (h1 : assemble g b val phi q t pinv u = .ok s)
    (h2 : hamiltonian (s.withNodes N) = some H) (E : ℝ) (hk : LevelsUpTo H 1 E) :
    -(|u.Ej| * ((branchesOf 'I' (branches h)).map fun br => |val br.2.2|).sum + |u.Ep| * ((branchesOf 'V' (branches h)).map fun br => |val br.2.2|).sum) ≤ E := by
  obtain ⟨C, L, e1, e2, e3, e4, e5, e6, e7, e8, e9, e10, e11, e12, e13, e14, e15⟩ := assembled hs ha hn (fun br hbr => (hL br hbr).ne') hp h1
  obtain ⟨c1, c2, c3, c4⟩ := disp_contraction ho hN hD hS s
  have hgood : GoodOps (s.withNodes N) := goodOps_withNodes s N o ho hN fun i => by rw [e14]; exact branchTerms_good g _ _
  have sJ : ∑ k, (|0 - s.J k| + 2 * Real.pi * |s.J k| * |s.Pb k - s.Pb k|) = ((branchesOf 'I' (branches h)).map fun br => |val br.2.2|).sum := by
    refine sum_netlist hs hn.ends 'I' (by decide) (fun _ _ c _ => |val c|) (by intros; rfl) _ ?_
    intro k c hc
    have hc' : g.cmap.get? ((edges g)[(k : ℕ)]'k.2) = some c := hc
    rw [e8]
    unfold josephsonVector
    dsimp only
    rw [List.getElem?_eq_getElem k.2]
    simp only [hc', ← startsWith_iff, sub_self, abs_zero, mul_zero, add_zero, zero_sub, abs_neg]
    by_cases hI : startsWith c 'I' = true
    · simp [hI]
    · simp [hI]
  have sV : ∑ k, (|0 - s.Ps k| + 2 * Real.pi * |s.Ps k| * |s.Qbt k - s.Qbt k|) = ((branchesOf 'V' (branches h)).map fun br => |val br.2.2|).sum := by
    refine sum_netlist hs hn.ends 'V' (by decide) (fun _ _ c _ => |val c|) (by intros; rfl) _ ?_
    intro k c hc
    have hc' : g.cmap.get? ((edges g)[(k : ℕ)]'k.2) = some c := hc
    rw [e9]
    unfold phaseSlipVector
    dsimp only
    rw [List.getElem?_eq_getElem k.2]
    simp only [hc', ← startsWith_iff, sub_self, abs_zero, mul_zero, add_zero, zero_sub, abs_neg]
    by_cases hI : startsWith c 'V' = true
    · simp [hI]
    · simp [hI]
  have hzero : ∀ (D Dd : ℕ → BigOp cfg) (E : ℝ) (x : Fin (edges g).length → ℝ) (v), energy (num _ E * ∑ k, -(num (BigOp cfg) (1 / 2) * num _ ((fun _ => 0 : Fin (edges g).length → ℝ) k) *
      (dispProduct D Dd false (s.terms k) (expTau _ (x k)) + dispProduct D Dd true (s.terms k) (expTau _ (-(x k)))))) v = 0 := by
    intro D Dd E x v
    simp [energy]
  have hCi : ∀ x : Fin (nodes g).length → ℝ, 0 ≤ x ⬝ᵥ C⁻¹ *ᵥ x := by
    intro x
    obtain ⟨v, h0, hx⟩ := atNodes_surj hs (C⁻¹ *ᵥ x)
    have h3 := e3 v h0
    rw [← hx, mulVec_mulVec, mul_nonsing_inv _ (isUnit_iff_ne_zero.2 e2), one_mulVec, dotProduct_comm] at h3
    rw [h3]
    exact electrostatic_nonneg hv v
  have hLi : ∀ x : Fin (nodes g).length → ℝ, 0 ≤ x ⬝ᵥ L *ᵥ x := by
    intro x
    obtain ⟨v, h0, rfl⟩ := atNodes_surj hs x
    rw [e6 v h0]
    exact List.sum_nonneg fun y hy => by
      obtain ⟨br, hbr, rfl⟩ := List.mem_map.1 hy
      exact div_nonneg (sq_nonneg _) (hL br hbr).le
  have congr_nonneg : ∀ (R A : Matrix (Fin (nodes g).length) (Fin (nodes g).length) ℝ), (∀ x, 0 ≤ x ⬝ᵥ A *ᵥ x) → ∀ x, 0 ≤ x ⬝ᵥ (R * A * Rᵀ) *ᵥ x := by
    intro R A hA x
    have := forms_le t (A := A) (A' := 0) (by simpa using hA) R x
    simpa using this
  have hC0 : ∀ x, 0 ≤ x ⬝ᵥ s.Cinv *ᵥ x := by
    intro x
    have h4 := e4
    unfold inverseCapacitance at h4
    split_ifs at h4
    · rw [← Option.some.inj h4]; exact congr_nonneg _ _ hCi x
    · rw [← Option.some.inj h4]; exact hCi x
  have hL0 : ∀ x, 0 ≤ x ⬝ᵥ s.Linv *ᵥ x := by
    intro x
    rw [e7]
    unfold transformInductance
    split_ifs
    · have := congr_nonneg (t.R⁻¹)ᵀ _ hLi x
      rwa [transpose_transpose] at this
    · exact hLi x
  have quad0 : ∀ (M : Matrix (Fin (nodes g).length) (Fin (nodes g).length) ℝ) (X : Fin (nodes g).length → BigOp cfg), (∀ i, (X i)ᴴ = X i) →
      (∀ x, 0 ≤ x ⬝ᵥ M *ᵥ x) → ∀ v, 0 ≤ energy (quadOp (num (BigOp cfg)) M X) v := by
    intro M X hX hM v
    rw [energy_quadOp _ _ hX]
    exact Finset.sum_nonneg fun k _ => add_nonneg (hM _) (hM _)
  obtain ⟨w, hw, hlev⟩ := hk
  obtain ⟨lam, hle, heig⟩ := hlev 0
  have hne : w 0 ≠ 0 := hw.ne_zero 0
  have hen : energy H (w 0) = lam * ∑ i, normSq (w 0 i) := by
    unfold energy
    rw [heig, dotProduct_smul, dot_self, smul_eq_mul, ← Complex.ofReal_mul, Complex.ofReal_re]
  have hpos : 0 < ∑ i, normSq (w 0 i) := by
    obtain ⟨i, hi⟩ := Function.ne_iff.1 hne
    exact Finset.sum_pos' (fun _ _ => normSq_nonneg _) ⟨i, Finset.mem_univ _, normSq_pos.2 hi⟩
  have k1 := energy_cosines c1 c2 u.Ej s.J (fun _ => 0) s.Pb s.Pb s.terms (w 0)
  have k2 := energy_cosines c3 c4 u.Ep s.Ps (fun _ => 0) s.Qbt s.Qbt s.terms (w 0)
  rw [sJ, hzero] at k1
  rw [sV, hzero] at k2
  have k3 : 0 ≤ energy (linearPart (num (BigOp cfg)) (s.withNodes N)) (w 0) := by
    have g9 : (s.withNodes N).u = u := e15
    unfold linearPart
    rw [g9, energy_add, num_smul, num_smul, energy_csmul, energy_csmul]
    refine add_nonneg (mul_nonneg (by linarith) (quad0 _ _ (fun i => ?_) hC0 _)) (mul_nonneg (by linarith) (quad0 _ _ (fun i => ?_) hL0 _))
    · have := hgood.Q i
      rw [← Matrix.star_eq_conjTranspose, star_add, star_num]
      congr 1
    · have := hgood.P i
      rw [← Matrix.star_eq_conjTranspose, star_add, star_num]
      congr 1
  have g9 : (s.withNodes N).u = u := e15
  rw [hamiltonian_sum h2, energy_add, energy_add, g9] at hen
  have hfin : -(|u.Ej| * ((branchesOf 'I' (branches h)).map fun br => |val br.2.2|).sum + |u.Ep| * ((branchesOf 'V' (branches h)).map fun br => |val br.2.2|).sum) *
      ∑ i, normSq (w 0 i) ≤ lam * ∑ i, normSq (w 0 i) := by
    rw [← hen]
    have k1' := k1
    have k2' := k2
    simp only [Sys.withNodes] at k1' k2' ⊢
    simp only [Sys.withNodes] at k3
    linarith
  exact (le_of_mul_le_mul_right hfin hpos).trans hle

theorem node_operators_exist (c : NodeCfg) (hc : c.basis = .charge ∨ c.basis = .oscillator) : ∃ o : NodeOps c.dim, Adjoint o ∧ Contraction o.D ∧ Contraction o.S := by
  obtain ⟨n, bas⟩ := c
  rcases hc with rfl | rfl
  · obtain ⟨q, E, V, h1, h2⟩ := charge_diagonalisation n (fun _ => 1) (by simp)
    have := C98_bases.2 n q _ E V h1 (by simp) h2
    exact ⟨chargeBasis n q _ E V, (C66_bases n n 0 0 0 q _ E E V V (fun _ => 0) (fun _ => 0) 1 1).1, this⟩
  · have h1 : IsEigh (diagonal fun _ : Fin n => ((1 : ℝ) : ℂ)) (fun _ => 1) 1 := eigh_diagonal _
    have := C98_bases.1 n 1 1 1 _ _ _ _ _ _ h1 h1
    exact ⟨oscillatorBasis n 1 1 1 (fun _ => 1) 1 (fun _ => 1) 1, (C66_bases 0 n 1 1 1 (fun _ => 0) (fun _ _ => 0) (fun _ => 0) (fun _ => 0) 1 1 _ _ _ _).2.2, this⟩

theorem slipSquid_caps (val : String → ℝ) (h1 : 0 ≤ val "C1") (h2 : 0 ≤ val "C2") : NonnegCaps val slipSquid := by
  have hg : ∀ n, Spec.gateCap val slipSquid n = 0 := by
    intro n
    unfold Spec.gateCap slipSquid
    simp
  refine ⟨?_, fun n _ => (hg n).ge⟩
  rw [slipSquid_branches]
  intro b hb
  have : b = (0, 1, "C1") ∨ b = (1, 2, "C2") := by
    revert hb b
    decide +kernel
  rcases this with rfl | rfl
  · exact h1
  · exact h2

/-- The hypotheses of `C98_values`, `C98_drives` and `C98_floor` are met: the circuit with a biased inductor, a junction and a phase slip, one node in the oscillator and one in the charge basis,
all capacitances and inductances doubled, or the junction and its flux and the phase slip changed. -/
example : ∃ (b : Biases) (val val' phi : String → ℝ)
    (pinv : Matrix (Fin (edges (run {} slipSquid)).length) (Fin (edges (run {} slipSquid)).length) ℝ →
      Matrix (Fin (edges (run {} slipSquid)).length) (Fin (edges (run {} slipSquid)).length) ℝ)
    (cfg : Fin (nodes (run {} slipSquid)).length → NodeCfg) (o : ∀ i, NodeOps (cfg i).dim) (N : Fin (nodes (run {} slipSquid)).length → BigNode cfg),
    createFluxBiases (run {} slipSquid) = .ok b ∧ NonnegCaps val slipSquid ∧ (∀ br ∈ branchesOf 'L' (branches slipSquid), 0 < val br.2.2) ∧
    MoreValues val val' slipSquid ∧ val "C1" < val' "C1" ∧ val "L1" < val' "L1" ∧ (∀ M, IsPinv M (pinv M)) ∧ (∀ i, Adjoint (o i)) ∧
    (∀ i, Contraction (o i).D) ∧ (∀ i, Contraction (o i).S) ∧ (∀ i, expandNode cfg i (o i) = some (N i)) ∧
    ∀ (q : String → ℝ) (u : Prefs), (∃ s H, assemble (run {} slipSquid) b val phi q ⟨false, 1⟩ pinv u = .ok s ∧ hamiltonian (s.withNodes N) = some H) ∧
    ∃ val'' s H, SameLinear val val'' slipSquid ∧ val'' "I1" ≠ val "I1" ∧ val'' "V1" ≠ val "V1" ∧ assemble (run {} slipSquid) b val'' phi q ⟨false, 1⟩ pinv u = .ok s ∧ hamiltonian (s.withNodes N) = some H := by
  choose pinv hp using fun M : Matrix (Fin (edges (run {} slipSquid)).length) (Fin (edges (run {} slipSquid)).length) ℝ => pinv_exists M
  have hb : ∃ b, createFluxBiases (run {} slipSquid) = .ok b := by
    cases hc : createFluxBiases (run {} slipSquid) with
    | ok b => exact ⟨b, rfl⟩
    | error e =>
      have : (match createFluxBiases (run {} slipSquid) with | .ok _ => true | .error _ => false) = true := by decide +kernel
      rw [hc] at this
      cases this
  obtain ⟨b, hb⟩ := hb
  have hL : branchesOf 'L' (branches slipSquid) = [(0, 1, "L1")] := by rw [slipSquid_branches]; decide +kernel
  have hC : branchesOf 'C' (branches slipSquid) = [(0, 1, "C1"), (1, 2, "C2")] := by rw [slipSquid_branches]; decide +kernel
  have hI : branchesOf 'I' (branches slipSquid) = [(0, 1, "I1")] := by rw [slipSquid_branches]; decide +kernel
  have hV : branchesOf 'V' (branches slipSquid) = [(1, 2, "V1")] := by rw [slipSquid_branches]; decide +kernel
  have hg : ∀ val n, Spec.gateCap val slipSquid n = 0 := by
    intro val n
    unfold Spec.gateCap slipSquid
    simp
  let cfg : Fin (nodes (run {} slipSquid)).length → NodeCfg := fun i => if (i : ℕ) = 0 then ⟨7, .oscillator⟩ else ⟨5, .charge⟩
  have hcfg : ∀ i, (cfg i).basis = .charge ∨ (cfg i).basis = .oscillator := by
    intro i
    by_cases hi : (i : ℕ) = 0
    · right; simp [cfg, hi]
    · left; simp [cfg, hi]
  choose o ho hD hS using fun i => node_operators_exist (cfg i) (hcfg i)
  choose N hN using fun i => expandNode_standard (cfg := cfg) (fun i => (hcfg i)) i (o i)
  obtain ⟨sgn, -, -, hop⟩ := C97_operator_partial slipSquid _ slipSquid_settled slipSquid_ok slipSquid_netlist b hb
  have hgr : GroundedBiases (fun _ => 1) slipSquid := by
    intro br hbr _
    rw [hL] at hbr
    refine ⟨1, one_ne_zero, Or.inl ?_, ?_⟩
    · rw [List.mem_singleton.1 hbr]; exact ⟨rfl, rfl⟩
    · intro b' hb' hne
      rw [hL] at hb'
      exact absurd ((List.mem_singleton.1 hb').trans (List.mem_singleton.1 hbr).symm) hne
  have ex : ∀ (val q : String → ℝ) (u : Prefs), 0 < val "C1" → 0 < val "C2" → 0 < val "L1" → ∃ s H,
      assemble (run {} slipSquid) b val (fun _ => 1) q ⟨false, 1⟩ pinv u = .ok s ∧ hamiltonian (s.withNodes N) = some H := by
    intro val q u h1 h2 h3
    obtain ⟨s, C, k1, -, -, -, k2⟩ := hop val (fun _ => 1) q (slipSquid_caps val h1.le h2.le) (slipSquid_conn val h1.ne' h2.ne')
      (by rw [hL]; simpa using h3.ne') hgr pinv hp u cfg o N hN
    exact ⟨s, _, k1, k2⟩
  refine ⟨b, fun _ => 1, fun c => if c = "I1" ∨ c = "V1" then 1 else 2, fun _ => 1, pinv, cfg, o, N, hb, slipSquid_caps _ zero_le_one zero_le_one, fun _ _ => one_pos, ?_, ?_, ?_, hp, ho, hD, hS, hN, ?_⟩
  · refine ⟨?_, ?_, ?_, ?_, ?_⟩
    · rw [hC]; simp
    · intro n _; rw [hg, hg]
    · rw [hL]; simp
    · rw [hI]; simp
    · rw [hV]; simp
  · simp
  · simp
  · intro q u
    refine ⟨ex _ q u one_pos one_pos one_pos, ?_⟩
    obtain ⟨s, H, k1, k2⟩ := ex (fun c => if c = "I1" ∨ c = "V1" then 2 else 1) q u (by simp) (by simp) (by simp)
    refine ⟨_, s, H, ⟨?_, ?_, ?_⟩, ?_, ?_, k1, k2⟩
    · rw [hC]; simp
    · intro n _; rw [hg, hg]
    · rw [hL]; simp
    · simp
    · simp

end Verif.Props
