import Verif.Props.Parallel
import Verif.Lemmas.Response

/-!
# C91: How the energies respond to the component values and to the flux
-/

namespace Verif.Props

open Verif Verif.Spec Verif.Circuit Verif.Sym Verif.Num Verif.Units Matrix Complex

theorem form_le {val val' : String → ℝ} {h : List Call} (hm : MoreCapacitance val val' h) (v : ℕ → ℝ) : electrostaticForm val h v ≤ electrostaticForm val' h v := by
  unfold electrostaticForm capacitorForm
  refine add_le_add (List.sum_le_sum fun b hb => mul_le_mul_of_nonneg_right (hm.caps b hb) (sq_nonneg _))
    (Finset.sum_le_sum fun n hn => mul_le_mul_of_nonneg_right (hm.gates n hn) (sq_nonneg _))

theorem form_same {val val' : String → ℝ} {h : List Call} (hm : SameCapacitance val val' h) (v : ℕ → ℝ) : electrostaticForm val' h v = electrostaticForm val h v := by
  unfold electrostaticForm capacitorForm
  congr 1
  · congr 1
    exact List.map_congr_left fun b hb => by rw [hm.caps b hb]
  · exact Finset.sum_congr rfl fun n hn => by rw [hm.gates n hn]

theorem more_nonneg {val val' : String → ℝ} {h : List Call} (hm : MoreCapacitance val val' h) (hv : NonnegCaps val h) : NonnegCaps val' h :=
  ⟨fun b hb => (hv.1 b hb).trans (hm.caps b hb), fun n hn => (hv.2 n hn).trans (hm.gates n hn)⟩

theorem more_conn {val val' : String → ℝ} {h : List Call} (hm : MoreCapacitance val val' h) (hv : NonnegCaps val h) (n : ℕ)
    (hc : Conn (capacitiveNet val h) n 0) : Conn (capacitiveNet val' h) n 0 := by
  refine Relation.EqvGen.mono (fun a b => ?_) _ _ hc
  rintro ⟨e, he, h1, h2⟩
  refine ⟨e, ?_, h1, h2⟩
  unfold capacitiveNet at he ⊢
  rw [List.mem_append] at he ⊢
  refine he.imp (fun he => ?_) fun he => ?_
  · unfold wires at he ⊢
    obtain ⟨d, hd, rfl⟩ := List.mem_map.1 he
    obtain ⟨hd1, hd2⟩ := List.mem_filter.1 hd
    refine List.mem_map.2 ⟨d, List.mem_filter.2 ⟨hd1, ?_⟩, rfl⟩
    have h3 := hv.1 d hd1
    have h4 := hm.caps d hd1
    simp only [decide_eq_true_eq] at hd2 ⊢
    exact (lt_of_lt_of_le (lt_of_le_of_ne h3 (Ne.symm hd2)) h4).ne'
  · obtain ⟨d, hd, rfl⟩ := List.mem_map.1 he
    obtain ⟨hd1, hd2⟩ := List.mem_filter.1 hd
    refine List.mem_map.2 ⟨d, List.mem_filter.2 ⟨hd1, ?_⟩, rfl⟩
    have h3 := hv.2 d (Finset.mem_toList.1 hd1)
    have h4 := hm.gates d (Finset.mem_toList.1 hd1)
    simp only [decide_eq_true_eq] at hd2 ⊢
    exact (lt_of_lt_of_le (lt_of_le_of_ne h3 (Ne.symm hd2)) h4).ne'

theorem netlist_hermitian {h : List Call} {ns : List ℕ} {tr : Fin ns.length → ℕ} {H : Matrix (ChargeState tr) (ChargeState tr) ℂ} (E : ℝ)
    (C : Matrix (Fin ns.length) (Fin ns.length) ℝ) (ng : ℕ → ℝ) (qp : ℝ) (EJ f : String → ℝ)
    (hH : ∀ x y, H x y = E * netlistElement ns h qp C ng EJ f x y) : H.IsHermitian := by
  ext x y
  rw [conjTranspose_apply, hH, hH, netlistElement_swap, star_mul', RCLike.star_def, Complex.conj_ofReal, Complex.conj_conj]

theorem quadratic_energy (ns : List ℕ) {tr : Fin ns.length → ℕ} (qp : ℝ) (C : Matrix (Fin ns.length) (Fin ns.length) ℝ) (ng : ℕ → ℝ) (x : ChargeState tr) :
    electrostaticEnergy ns qp C ng x = 1 / 2 * qp ^ 2 * ((fun i => (excess x i : ℝ) + ng (ns.get i)) ⬝ᵥ C⁻¹.mulVec fun i => (excess x i : ℝ) + ng (ns.get i)) := by
  unfold electrostaticEnergy
  simp only [dotProduct, mulVec, Finset.mul_sum]
  apply Finset.sum_congr rfl; intro i _
  apply Finset.sum_congr rfl; intro j _
  ring

/-- **C91** More capacitance never raises a level: with capacitances and gate capacitances that are not smaller, the same junctions, fluxes and gate charges,
the circuit can still be quantised, and for every `k` the `k`-th level is not higher. -/
theorem C91_capacitance (h : List Call) (g : CG) (hs : Settled h g) (ha : AllOk h) (hn : JosephsonNetlist h) (b : Biases) (hb : createFluxBiases g = .ok b)
    (w : List UCall) (hw : ∀ c ∈ w, c.Clean) (i : ℕ) (U : Spec.System) (hU : Uses (runU w) i U) (h2e : U.C = 2 * Units.pc_e) (hphi : U.Wb = Units.pc_phi0)
    (u : Prefs) (hEc : Units.getPrefactor (runU w) i "Ec" = .ok u.Ec) (hEj : Units.getPrefactor (runU w) i "Ej" = .ok u.Ej)
    (val val' phi q : String → ℝ) (hv : NonnegCaps val h) (hconn : ∀ n ∈ nodesOf (branches h), Conn (capacitiveNet val h) n 0) (hm : MoreCapacitance val val' h)
    (pinv : Matrix (Fin (edges g).length) (Fin (edges g).length) ℝ → Matrix (Fin (edges g).length) (Fin (edges g).length) ℝ)
    (hp : ∀ M, IsPinv M (pinv M)) (tr : Fin (nodes g).length → ℕ) (N : Fin (nodes g).length → BigNode fun i => NodeCfg.mk (tr i) .charge) (hN : ChargeNodes tr N) :
    ∃ s H s' H', assemble g b val phi q ⟨false, 1⟩ pinv u = .ok s ∧ hamiltonian (s.withNodes N) = some H ∧
      assemble g b val' phi q ⟨false, 1⟩ pinv u = .ok s' ∧ hamiltonian (s'.withNodes N) = some H' ∧
      ∀ k E, LevelsUpTo H k E → LevelsUpTo H' k E := by
  obtain ⟨sgn, hsgn, -, hE⟩ := C86_hamiltonian h g hs ha hn b hb
  obtain ⟨s, H, C, e1, e2, e3, e4, e5, e6⟩ := hE w hw i U hU h2e hphi u hEc hEj val phi q hv hconn pinv hp tr N hN
  obtain ⟨s', H', C', e1', e2', e3', e4', e5', e6'⟩ := hE w hw i U hU h2e hphi u hEc hEj val' phi q (more_nonneg hm hv)
    (fun n hn => more_conn hm hv n (hconn n hn)) pinv hp tr N hN
  refine ⟨s, H, s', H', e1, e2, e1', e2', fun k E hk => ?_⟩
  obtain ⟨hF, -, -, -, -, -, -, -, -, -, -, hUE, -⟩ := uses_pos (Units.uinv_runU w hw) hU
  have hpos : ∀ x, 0 ≤ x ⬝ᵥ C.mulVec x := by
    intro x
    obtain ⟨v, h0, rfl⟩ := atNodes_surj hs x
    rw [e5 v h0, electrostatic_scale]
    exact mul_nonneg (electrostatic_nonneg hv v) hF.le
  have hle : ∀ x, x ⬝ᵥ C.mulVec x ≤ x ⬝ᵥ C'.mulVec x := by
    intro x
    obtain ⟨v, h0, rfl⟩ := atNodes_surj hs x
    rw [e5 v h0, e5' v h0, electrostatic_scale, electrostatic_scale]
    exact mul_le_mul_of_nonneg_right (form_le hm v) hF.le
  have hD : ∀ x : ChargeState tr, electrostaticEnergy (nodes g) (2 * Units.pc_e) C' (gateCharge q h) x ≤ electrostaticEnergy (nodes g) (2 * Units.pc_e) C (gateCharge q h) x := by
    intro x
    rw [quadratic_energy, quadratic_energy]
    exact mul_le_mul_of_nonneg_left (inv_form_le e3 e3' e4 e4' hpos hle _) (mul_nonneg (by norm_num) (sq_nonneg _))
  classical
  have hH := netlist_hermitian (H := H) U.E C _ _ _ _ e6
  have hH' := netlist_hermitian (H := H') U.E C' _ _ _ _ e6'
  have hdiff : H' = H + diagonal fun x => ((U.E * (electrostaticEnergy (nodes g) (2 * Units.pc_e) C' (gateCharge q h) x -
      electrostaticEnergy (nodes g) (2 * Units.pc_e) C (gateCharge q h) x) : ℝ) : ℂ) := by
    ext x y
    rw [Matrix.add_apply, e6, e6', netlistElement_eq, netlistElement_eq, diagonal_apply]
    have ht : transfer (nodes g) (branchesOf 'I' (branches h)) (fun c => Units.pc_phi0 * (val' c * U.A) / (2 * Real.pi)) (fun c => sgn c * fluxOn phi h c) x y =
        transfer (nodes g) (branchesOf 'I' (branches h)) (fun c => Units.pc_phi0 * (val c * U.A) / (2 * Real.pi)) (fun c => sgn c * fluxOn phi h c) x y :=
      transfer_congr (fun d hd => by rw [hm.junctions d hd]) (fun _ _ => rfl) x y
    rw [ht]
    by_cases hxy : x = y
    · subst hxy
      simp only [if_true]
      unfold electrostaticEnergy
      push_cast
      ring
    · simp only [if_neg hxy]
      ring
  have := levelsUpTo_weyl hH hH' 0 (fun v => by
    rw [hdiff, energy_add, energy_diagonal, zero_mul, add_zero]
    have : ∑ x, U.E * (electrostaticEnergy (nodes g) (2 * Units.pc_e) C' (gateCharge q h) x -
        electrostaticEnergy (nodes g) (2 * Units.pc_e) C (gateCharge q h) x) * normSq (v x) ≤ 0 :=
      Finset.sum_nonpos fun x _ => mul_nonpos_of_nonpos_of_nonneg (mul_nonpos_of_nonneg_of_nonpos hUE.le (sub_nonpos.2 (hD x))) (normSq_nonneg _)
    linarith) k E hk
  rwa [add_zero] at this

/-- **C91** A level moves by at most the sum of the changes of the Josephson energies, plus `2π` times the Josephson energies times the changes of the fluxes: the
levels are continuous in the critical currents and in the fluxes, with these bounds on their slopes.  (Swap the two sets of values for the other direction.) -/
theorem C91_junctions (h : List Call) (g : CG) (hs : Settled h g) (ha : AllOk h) (hn : JosephsonNetlist h) (b : Biases) (hb : createFluxBiases g = .ok b)
    (w : List UCall) (hw : ∀ c ∈ w, c.Clean) (i : ℕ) (U : Spec.System) (hU : Uses (runU w) i U) (h2e : U.C = 2 * Units.pc_e) (hphi : U.Wb = Units.pc_phi0)
    (u : Prefs) (hEc : Units.getPrefactor (runU w) i "Ec" = .ok u.Ec) (hEj : Units.getPrefactor (runU w) i "Ej" = .ok u.Ej)
    (val val' phi phi' q : String → ℝ) (hv : NonnegCaps val h) (hconn : ∀ n ∈ nodesOf (branches h), Conn (capacitiveNet val h) n 0) (hm : SameCapacitance val val' h)
    (pinv : Matrix (Fin (edges g).length) (Fin (edges g).length) ℝ → Matrix (Fin (edges g).length) (Fin (edges g).length) ℝ)
    (hp : ∀ M, IsPinv M (pinv M)) (tr : Fin (nodes g).length → ℕ) (N : Fin (nodes g).length → BigNode fun i => NodeCfg.mk (tr i) .charge) (hN : ChargeNodes tr N) :
    ∃ s H s' H', assemble g b val phi q ⟨false, 1⟩ pinv u = .ok s ∧ hamiltonian (s.withNodes N) = some H ∧
      assemble g b val' phi' q ⟨false, 1⟩ pinv u = .ok s' ∧ hamiltonian (s'.withNodes N) = some H' ∧
      ∀ k E, LevelsUpTo H k E → LevelsUpTo H' k (E + U.E * (Units.pc_phi0 * U.A / (2 * Real.pi)) * junctionChange val val' phi phi' h) := by
  obtain ⟨sgn, hsgn, -, hE⟩ := C86_hamiltonian h g hs ha hn b hb
  obtain ⟨s, H, C, e1, e2, e3, e4, e5, e6⟩ := hE w hw i U hU h2e hphi u hEc hEj val phi q hv hconn pinv hp tr N hN
  have hv' : NonnegCaps val' h := ⟨fun d hd => by rw [hm.caps d hd]; exact hv.1 d hd, fun n hn => by rw [hm.gates n hn]; exact hv.2 n hn⟩
  have hconn' : ∀ n ∈ nodesOf (branches h), Conn (capacitiveNet val' h) n 0 := by
    intro n hn
    have h1 : capacitiveNet val' h = capacitiveNet val h := by
      unfold capacitiveNet
      congr 2
      · exact List.filter_congr fun d hd => by simp only [hm.caps d hd]
      · exact List.filter_congr fun d hd => by simp only [hm.gates d (Finset.mem_toList.1 hd)]
    rw [h1]; exact hconn n hn
  obtain ⟨s', H', C', e1', e2', e3', e4', e5', e6'⟩ := hE w hw i U hU h2e hphi u hEc hEj val' phi' q hv' hconn' pinv hp tr N hN
  refine ⟨s, H, s', H', e1, e2, e1', e2', fun k E hk => ?_⟩
  obtain ⟨hF, -, -, hA, -, -, -, -, -, -, -, hUE, -⟩ := uses_pos (Units.uinv_runU w hw) hU
  have hCC : C' = C := symmetric_eq_of_form e3' e3 fun x => by
    obtain ⟨v, h0, rfl⟩ := atNodes_surj hs x
    rw [e5 v h0, e5' v h0, electrostatic_scale, electrostatic_scale, form_same hm]
  subst hCC
  classical
  have hH := netlist_hermitian (H := H) U.E C' _ _ _ _ e6
  have hH' := netlist_hermitian (H := H') U.E C' _ _ _ _ e6'
  set K := Units.pc_phi0 * U.A / (2 * Real.pi) with hK
  have hK0 : 0 ≤ K := by
    have : (0 : ℝ) < Units.pc_phi0 := by unfold Units.pc_phi0; norm_num
    exact (div_pos (mul_pos this hA) Real.two_pi_pos).le
  have hdiff : H' = H + (Matrix.of fun x y : ChargeState tr => (((-U.E : ℝ)) : ℂ) * (transfer (nodes g) (branchesOf 'I' (branches h)) (fun c => K * val' c) (fun c => sgn c * fluxOn phi' h c) x y -
      transfer (nodes g) (branchesOf 'I' (branches h)) (fun c => K * val c) (fun c => sgn c * fluxOn phi h c) x y) : Matrix (ChargeState tr) (ChargeState tr) ℂ) := by
    have hKe : ∀ v : String → ℝ, (fun c => Units.pc_phi0 * (v c * U.A) / (2 * Real.pi)) = fun c => K * v c := fun v => by
      funext c
      rw [hK]
      ring
    ext x y
    rw [Matrix.add_apply, Matrix.of_apply, e6, e6', netlistElement_eq, netlistElement_eq, hKe, hKe]
    push_cast
    ring
  refine levelsUpTo_weyl hH hH' _ (fun v => ?_) k E hk
  rw [hdiff, energy_add]
  refine add_le_add (le_refl _) ?_
  refine (le_abs_self _).trans ?_
  refine (congrArg abs (energy_smul (-U.E) (fun x y : ChargeState tr =>
      transfer (nodes g) (branchesOf 'I' (branches h)) (fun c => K * val' c) (fun c => sgn c * fluxOn phi' h c) x y -
      transfer (nodes g) (branchesOf 'I' (branches h)) (fun c => K * val c) (fun c => sgn c * fluxOn phi h c) x y) v)).le.trans ?_
  rw [abs_mul, abs_neg, abs_of_pos hUE, mul_assoc, mul_assoc]
  refine mul_le_mul_of_nonneg_left ?_ hUE.le
  refine (energy_transfer (nodes g) _ _ _ _ _ v).trans ?_
  rw [← mul_assoc]
  refine mul_le_mul_of_nonneg_right ?_ (Finset.sum_nonneg fun _ _ => normSq_nonneg _)
  unfold junctionChange
  rw [← List.sum_map_mul_left]
  refine List.sum_le_sum fun d _ => le_of_eq ?_
  have h1 : |sgn d.2.2 * fluxOn phi' h d.2.2 - sgn d.2.2 * fluxOn phi h d.2.2| = |fluxOn phi' h d.2.2 - fluxOn phi h d.2.2| := by
    rw [← mul_sub, abs_mul]
    rcases hsgn d.2.2 with h | h <;> rw [h] <;> simp
  rw [h1, ← mul_sub, abs_mul, abs_mul, abs_of_nonneg hK0]
  ring

theorem not_crossed_self {h : List Call} {g : CG} (hs : Settled h g) (hn : JosephsonNetlist h) {tr : Fin (nodes g).length → ℕ} {d : ℕ × ℕ × String} (hd : d ∈ branches h)
    (x : ChargeState tr) : ¬ Crossed (nodes g) (d.1, d.2.1, 0) x x := by
  intro hc
  obtain ⟨hnd, hmem⟩ := C29_rows h g hs
  have hne := hn.ends d hd
  have hin : ∀ n, n = d.1 ∨ n = d.2.1 → n ≠ 0 → n ∈ nodes g := by
    intro n hn h0
    refine (hmem n).2 ⟨?_, h0⟩
    simp only [nodesOf, List.mem_toFinset, List.mem_flatMap]
    exact ⟨d, hd, by simpa using hn⟩
  have key : ∀ n, n = d.1 ∨ n = d.2.1 → n = 0 := by
    intro n hn
    by_contra h0
    obtain ⟨i, hi⟩ := List.get_of_mem (hin n hn h0)
    have := hc i
    rw [hi] at this
    unfold gains at this
    rcases hn with rfl | rfl
    · simp [hne] at this
    · simp [Ne.symm hne] at this
  exact hne ((key _ (.inl rfl)).trans (key _ (.inr rfl)).symm)

/-- **C91** The levels are the electrostatic energies of the charge states (`2e` per pair, gate charges included), each moved by at most the sum of the Josephson energies: up to any energy
there are at most as many levels as charge states up to that energy plus the sum, and at least as many as charge states up to the energy minus the sum.  The lowest level is not above
any electrostatic energy. -/
theorem C91_charging (h : List Call) (g : CG) (hs : Settled h g) (ha : AllOk h) (hn : JosephsonNetlist h) (b : Biases) (hb : createFluxBiases g = .ok b)
    (w : List UCall) (hw : ∀ c ∈ w, c.Clean) (i : ℕ) (U : Spec.System) (hU : Uses (runU w) i U) (h2e : U.C = 2 * Units.pc_e) (hphi : U.Wb = Units.pc_phi0)
    (u : Prefs) (hEc : Units.getPrefactor (runU w) i "Ec" = .ok u.Ec) (hEj : Units.getPrefactor (runU w) i "Ej" = .ok u.Ej)
    (val phi q : String → ℝ) (hv : NonnegCaps val h) (hconn : ∀ n ∈ nodesOf (branches h), Conn (capacitiveNet val h) n 0)
    (pinv : Matrix (Fin (edges g).length) (Fin (edges g).length) ℝ → Matrix (Fin (edges g).length) (Fin (edges g).length) ℝ)
    (hp : ∀ M, IsPinv M (pinv M)) (tr : Fin (nodes g).length → ℕ) (N : Fin (nodes g).length → BigNode fun i => NodeCfg.mk (tr i) .charge) (hN : ChargeNodes tr N) :
    ∃ s H C, assemble g b val phi q ⟨false, 1⟩ pinv u = .ok s ∧ hamiltonian (s.withNodes N) = some H ∧ C.transpose = C ∧
      (∀ v : ℕ → ℝ, v 0 = 0 → atNodes g v ⬝ᵥ C.mulVec (atNodes g v) = electrostaticForm (fun c => val c * U.F) h v) ∧
      ∀ B, B = U.E * (Units.pc_phi0 * U.A / (2 * Real.pi)) * ((branchesOf 'I' (branches h)).map fun d => |val d.2.2|).sum →
      (∀ k E, LevelsUpTo H k E → k ≤ (Finset.univ.filter fun x : ChargeState tr => U.E * electrostaticEnergy (nodes g) (2 * Units.pc_e) C (gateCharge q h) x ≤ E + B).card) ∧
      (∀ k E, k ≤ (Finset.univ.filter fun x : ChargeState tr => U.E * electrostaticEnergy (nodes g) (2 * Units.pc_e) C (gateCharge q h) x ≤ E).card → LevelsUpTo H k (E + B)) ∧
      ∀ x : ChargeState tr, LevelsUpTo H 1 (U.E * electrostaticEnergy (nodes g) (2 * Units.pc_e) C (gateCharge q h) x) := by
  obtain ⟨sgn, hsgn, -, hE⟩ := C86_hamiltonian h g hs ha hn b hb
  obtain ⟨s, H, C, e1, e2, e3, e4, e5, e6⟩ := hE w hw i U hU h2e hphi u hEc hEj val phi q hv hconn pinv hp tr N hN
  refine ⟨s, H, C, e1, e2, e3, e5, ?_⟩
  rintro B rfl
  obtain ⟨hF, -, -, hA, -, -, -, -, -, -, -, hUE, -⟩ := uses_pos (Units.uinv_runU w hw) hU
  classical
  have hH := netlist_hermitian (H := H) U.E C _ _ _ _ e6
  set K := Units.pc_phi0 * U.A / (2 * Real.pi) with hK
  have hK0 : 0 ≤ K := by
    have : (0 : ℝ) < Units.pc_phi0 := by unfold Units.pc_phi0; norm_num
    exact (div_pos (mul_pos this hA) Real.two_pi_pos).le
  set D : ChargeState tr → ℝ := fun x => U.E * electrostaticEnergy (nodes g) (2 * Units.pc_e) C (gateCharge q h) x with hD
  have hdH : (diagonal fun x => (D x : ℂ)).IsHermitian := by
    rw [Matrix.isHermitian_diagonal_iff]
    intro x
    exact Complex.conj_ofReal _
  have hKe : (fun c => Units.pc_phi0 * (val c * U.A) / (2 * Real.pi)) = fun c => K * val c := by
    funext c
    rw [hK]
    ring
  have hdiff : H = (diagonal fun x => (D x : ℂ)) + (Matrix.of fun x y : ChargeState tr => (((-U.E : ℝ)) : ℂ) *
      (transfer (nodes g) (branchesOf 'I' (branches h)) (fun c => K * val c) (fun c => sgn c * fluxOn phi h c) x y -
      transfer (nodes g) (branchesOf 'I' (branches h)) (fun _ => 0) (fun c => sgn c * fluxOn phi h c) x y) : Matrix (ChargeState tr) (ChargeState tr) ℂ) := by
    ext x y
    have hz : transfer (nodes g) (branchesOf 'I' (branches h)) (fun _ => 0) (fun c => sgn c * fluxOn phi h c) x y = 0 := by
      unfold transfer
      simp
    rw [Matrix.add_apply, Matrix.of_apply, hz, e6, netlistElement_eq, hKe, diagonal_apply]
    by_cases hxy : x = y
    · subst hxy
      simp only [if_true, hD]
      unfold electrostaticEnergy
      push_cast
      ring
    · simp only [if_neg hxy]
      push_cast
      ring
  have hbound : ∀ v : ChargeState tr → ℂ, |energy H v - energy (diagonal fun x => (D x : ℂ)) v| ≤
      U.E * K * ((branchesOf 'I' (branches h)).map fun d => |val d.2.2|).sum * ∑ x, normSq (v x) := by
    intro v
    rw [hdiff, energy_add, add_sub_cancel_left]
    refine (congrArg abs (energy_smul (-U.E) (fun x y : ChargeState tr =>
      transfer (nodes g) (branchesOf 'I' (branches h)) (fun c => K * val c) (fun c => sgn c * fluxOn phi h c) x y -
      transfer (nodes g) (branchesOf 'I' (branches h)) (fun _ => 0) (fun c => sgn c * fluxOn phi h c) x y) v)).le.trans ?_
    rw [abs_mul, abs_neg, abs_of_pos hUE, mul_assoc, mul_assoc]
    refine mul_le_mul_of_nonneg_left ?_ hUE.le
    refine (energy_transfer (nodes g) _ _ _ _ _ v).trans ?_
    rw [← mul_assoc]
    refine mul_le_mul_of_nonneg_right ?_ (Finset.sum_nonneg fun _ _ => normSq_nonneg _)
    rw [← List.sum_map_mul_left]
    refine List.sum_le_sum fun d _ => le_of_eq ?_
    rw [sub_zero, abs_zero, abs_mul, abs_of_nonneg hK0]
    ring
  refine ⟨fun k E hk => ?_, fun k E hk => ?_, fun x => ?_⟩
  · have := levelsUpTo_weyl hH hdH (U.E * K * ((branchesOf 'I' (branches h)).map fun d => |val d.2.2|).sum) (fun v => ?_) k E hk
    · rwa [levelsUpTo_diagonal] at this
    · have := (abs_le.1 (hbound v)).1
      linarith
  · rw [← levelsUpTo_diagonal] at hk
    refine levelsUpTo_weyl hdH hH (U.E * K * ((branchesOf 'I' (branches h)).map fun d => |val d.2.2|).sum) (fun v => ?_) k E hk
    have := (abs_le.1 (hbound v)).2
    linarith
  · have h1 := levelsUpTo_diag hH x
    have h2 : H x x = (D x : ℂ) := by
      rw [e6, netlistElement_eq, if_pos rfl]
      have hz : transfer (nodes g) (branchesOf 'I' (branches h)) (fun c => Units.pc_phi0 * (val c * U.A) / (2 * Real.pi)) (fun c => sgn c * fluxOn phi h c) x x = 0 := by
        unfold transfer
        apply List.sum_eq_zero
        intro t ht
        obtain ⟨d, hd, rfl⟩ := List.mem_map.1 ht
        have := not_crossed_self hs hn (List.mem_filter.1 hd).1 x
        simp only [if_neg this, add_zero, mul_zero]
      rw [hz, sub_zero, hD]
      unfold electrostaticEnergy
      push_cast
      ring
    rw [h2, Complex.ofReal_re] at h1
    exact h1

/-- The hypotheses of the three theorems on the values are met: the transmon with a larger shunt capacitance, or with another critical current (for the others see `C86_hamiltonian`). -/
example : ∃ val val' val'' : String → ℝ, NonnegCaps val plainTransmon ∧ (∀ n ∈ nodesOf (branches plainTransmon), Conn (capacitiveNet val plainTransmon) n 0) ∧
    MoreCapacitance val val' plainTransmon ∧ val' "C1" ≠ val "C1" ∧ SameCapacitance val val'' plainTransmon ∧ val'' "I1" ≠ val "I1" ∧
    ∀ phi, junctionChange val val'' phi phi plainTransmon = 1 := by
  have hC : branchesOf 'C' [(0, 1, "C1"), (0, 1, "I1")] = [(0, 1, "C1")] := by decide +kernel
  have hI : branchesOf 'I' [(0, 1, "C1"), (0, 1, "I1")] = [(0, 1, "I1")] := by decide +kernel
  have hg : ∀ (val : String → ℝ) n, Spec.gateCap val plainTransmon n = if n = 1 then val "Cg" else 0 := by
    intro val n
    by_cases hn : 1 = n
    · simp [Spec.gateCap, plainTransmon, hn]
    · simp [Spec.gateCap, plainTransmon, hn, Ne.symm hn]
  refine ⟨fun _ => 1, fun c => if c = "C1" then 2 else 1, fun c => if c = "I1" then 2 else 1, ⟨fun _ _ => zero_le_one, fun n _ => ?_⟩, ?_, ⟨?_, fun n _ => ?_, ?_⟩, ?_, ⟨?_, fun n _ => ?_⟩, ?_, ?_⟩
  · rw [hg]; split_ifs <;> norm_num
  · intro n hn
    rw [plainTransmon_branches] at hn
    have hn' : n = 0 ∨ n = 1 := by
      revert hn; revert n; decide +kernel
    rcases hn' with rfl | rfl
    · exact Conn.refl _ _
    · refine Conn.symm (Conn.edge (e := (0, 1, 0)) ?_)
      unfold capacitiveNet
      rw [plainTransmon_branches, hC]
      simp [wires]
  · rw [plainTransmon_branches, hC]; simp
  · rw [hg, hg]; simp
  · rw [plainTransmon_branches, hI]; simp
  · simp
  · rw [plainTransmon_branches, hC]; simp
  · rw [hg, hg]; simp
  · simp
  · intro phi
    unfold junctionChange
    rw [plainTransmon_branches, hI]
    simp
    norm_num

end Verif.Props
