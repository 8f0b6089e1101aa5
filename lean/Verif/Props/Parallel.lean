import Verif.Props.Redraw
import Verif.Lemmas.Parallel

/-!
# C90: Components in parallel act as one component
-/

namespace Verif.Props

open Verif Verif.Spec Verif.Circuit Verif.Sym Verif.Num Verif.Units Matrix Complex

theorem gateCap_scale (val : String → ℝ) (F : ℝ) (h : List Call) (n : ℕ) : Spec.gateCap (fun c => val c * F) h n = Spec.gateCap val h n * F := by
  unfold Spec.gateCap
  induction h with
  | nil => simp
  | cons x h ih =>
    cases x with
    | addChargeBias n' s c =>
      cases c with
      | none => simpa using ih
      | some c =>
        by_cases hn : n' = n
        · simp [hn]
        · simpa [hn] using ih
    | _ => simpa using ih

theorem electrostatic_scale (val : String → ℝ) (F : ℝ) (h : List Call) (v : ℕ → ℝ) :
    electrostaticForm (fun c => val c * F) h v = electrostaticForm val h v * F := by
  unfold electrostaticForm capacitorForm
  rw [add_mul, Finset.sum_mul, ← List.sum_map_mul_right]
  congr 1
  · congr 1
    apply List.map_congr_left
    intro b _
    ring
  · apply Finset.sum_congr rfl
    intro n _
    rw [gateCap_scale]
    ring

/-- Two circuits on the same nodes whose capacitors store the same energies and whose junctions transfer pairs in the same way, up to phases of
the charge states and up to the sense of all fluxes, have the same levels. -/
theorem equivalent_levels (h h' : List Call) (g g' : CG) (hs : Settled h g) (hs' : Settled h' g') (ha : AllOk h) (ha' : AllOk h')
    (hn : JosephsonNetlist h) (hn' : JosephsonNetlist h') (b b' : Biases) (hb : createFluxBiases g = .ok b) (hb' : createFluxBiases g' = .ok b')
    (w : List UCall) (hw : ∀ c ∈ w, c.Clean) (i : ℕ) (U : Spec.System) (hU : Uses (runU w) i U) (h2e : U.C = 2 * Units.pc_e) (hphi : U.Wb = Units.pc_phi0)
    (u : Prefs) (hEc : Units.getPrefactor (runU w) i "Ec" = .ok u.Ec) (hEj : Units.getPrefactor (runU w) i "Ej" = .ok u.Ej)
    (val val' phi q : String → ℝ) (hv : NonnegCaps val h) (hv' : NonnegCaps val' h') (hconn : ∀ n ∈ nodesOf (branches h), Conn (capacitiveNet val h) n 0)
    (hnodes : nodesOf (branches h') = nodesOf (branches h)) (hq : ∀ n, gateCharge q h' n = gateCharge q h n)
    (hform : ∀ v : ℕ → ℝ, v 0 = 0 → electrostaticForm val' h' v = electrostaticForm val h v) (tr : ℕ → ℕ)
    (hJ : ∀ sgn sgn' : String → ℝ, (∀ c, sgn c = 1 ∨ sgn c = -1) → (∀ c, sgn' c = 1 ∨ sgn' c = -1) →
      ∃ p : ChargeState (fun i => tr ((nodes g).get i)) → ℂ, (∀ x, (starRingEnd ℂ) (p x) * p x = 1) ∧
      ((∀ x y, transfer (nodes g) (branchesOf 'I' (branches h')) (fun c => Units.pc_phi0 * (val' c * U.A) / (2 * Real.pi)) (fun c => sgn' c * fluxOn phi h' c) x y =
        p x * (starRingEnd ℂ) (p y) * transfer (nodes g) (branchesOf 'I' (branches h)) (fun c => Units.pc_phi0 * (val c * U.A) / (2 * Real.pi)) (fun c => sgn c * fluxOn phi h c) x y) ∨
       (∀ x y, transfer (nodes g) (branchesOf 'I' (branches h')) (fun c => Units.pc_phi0 * (val' c * U.A) / (2 * Real.pi)) (fun c => sgn' c * fluxOn phi h' c) x y =
        (starRingEnd ℂ) (p x * (starRingEnd ℂ) (p y) * transfer (nodes g) (branchesOf 'I' (branches h)) (fun c => Units.pc_phi0 * (val c * U.A) / (2 * Real.pi)) (fun c => sgn c * fluxOn phi h c) x y))))
    (pinv : Matrix (Fin (edges g).length) (Fin (edges g).length) ℝ → Matrix (Fin (edges g).length) (Fin (edges g).length) ℝ)
    (hp : ∀ M, IsPinv M (pinv M))
    (pinv' : Matrix (Fin (edges g').length) (Fin (edges g').length) ℝ → Matrix (Fin (edges g').length) (Fin (edges g').length) ℝ)
    (hp' : ∀ M, IsPinv M (pinv' M))
    (N : Fin (nodes g).length → BigNode fun i => NodeCfg.mk (tr ((nodes g).get i)) .charge) (hN : ChargeNodes (fun i => tr ((nodes g).get i)) N)
    (N' : Fin (nodes g').length → BigNode fun i => NodeCfg.mk (tr ((nodes g').get i)) .charge) (hN' : ChargeNodes (fun i => tr ((nodes g').get i)) N') :
    ∃ s H s' H', assemble g b val phi q ⟨false, 1⟩ pinv u = .ok s ∧ hamiltonian (s.withNodes N) = some H ∧
      assemble g' b' val' phi q ⟨false, 1⟩ pinv' u = .ok s' ∧ hamiltonian (s'.withNodes N') = some H' ∧
      ∀ k E, LevelsUpTo H k E ↔ LevelsUpTo H' k E := by
  obtain ⟨hnd, hmem⟩ := C29_rows h g hs
  obtain ⟨hnd', hmem'⟩ := C29_rows h' g' hs'
  obtain ⟨σ, hσ⟩ : ∃ σ : Fin (nodes g).length ≃ Fin (nodes g').length, ∀ i, (nodes g').get (σ i) = (nodes g).get i := by
    have hlt : ∀ i : Fin (nodes g).length, (nodes g').idxOf ((nodes g).get i) < (nodes g').length := by
      intro i
      rw [List.idxOf_lt_length_iff, hmem', hnodes]
      exact (hmem _).1 (List.get_mem (nodes g) i)
    have hget : ∀ i : Fin (nodes g).length, (nodes g').get ⟨_, hlt i⟩ = (nodes g).get i := fun i => List.idxOf_get _
    refine ⟨Equiv.ofBijective (fun i => ⟨_, hlt i⟩) ⟨?_, ?_⟩, hget⟩
    · intro i j hij
      have h1 := (hget i).symm.trans ((congrArg (nodes g').get hij).trans (hget j))
      exact (List.nodup_iff_injective_get.1 hnd) h1
    · intro j
      have h1 := (hmem' _).1 (List.get_mem (nodes g') j)
      rw [hnodes] at h1
      obtain ⟨i, hi⟩ := List.get_of_mem ((hmem _).2 h1)
      refine ⟨i, ?_⟩
      apply List.nodup_iff_injective_get.1 hnd'
      rw [hget, hi]
  have hat : ∀ v : ℕ → ℝ, ∀ i, atNodes g' v (σ i) = atNodes g v i := by
    intro v i
    show v ((nodes g').get (σ i)) = v ((nodes g).get i)
    rw [hσ]
  -- equal energies give equal capacitance matrices
  have hmat : ∀ (C : Matrix (Fin (nodes g).length) (Fin (nodes g).length) ℝ) (C' : Matrix (Fin (nodes g').length) (Fin (nodes g').length) ℝ), Cᵀ = C → C'ᵀ = C' →
      (∀ v : ℕ → ℝ, v 0 = 0 → atNodes g' v ⬝ᵥ C'.mulVec (atNodes g' v) = atNodes g v ⬝ᵥ C.mulVec (atNodes g v)) → C'.submatrix σ σ = C := by
    intro C C' hC hC' hf
    apply symmetric_eq_of_form _ hC
    · intro x
      obtain ⟨v, h0, rfl⟩ := atNodes_surj hs x
      rw [← hf v h0]
      simp only [dotProduct, mulVec, submatrix_apply]
      rw [← Equiv.sum_comp σ]
      apply Finset.sum_congr rfl
      intro i _
      rw [hat, ← Equiv.sum_comp σ]
      congr 1
      apply Finset.sum_congr rfl
      intro j _
      rw [hat]
    · rw [transpose_submatrix, hC']
  have hconn' : ∀ n ∈ nodesOf (branches h'), Conn (capacitiveNet val' h') n 0 := by
    obtain ⟨M, hM, hsym, hf⟩ := netlist_capacitance hs ha hn val
    obtain ⟨M', hM', hsym', hf'⟩ := netlist_capacitance hs' ha' hn' val'
    have hd := (netlist_det hs val hv _ hsym hf).2 hconn
    rw [← netlist_det hs' val' hv' _ hsym' hf']
    rw [← hmat _ _ hsym hsym' (fun v h0 => by rw [hf' v h0, hf v h0, hform v h0]), det_submatrix_equiv_self] at hd
    exact hd
  obtain ⟨sgn, hsgn, -, hE⟩ := C86_hamiltonian h g hs ha hn b hb
  obtain ⟨sgn', hsgn', -, hE'⟩ := C86_hamiltonian h' g' hs' ha' hn' b' hb'
  obtain ⟨s, H, C, e1, e2, e3, e4, e5, e6⟩ := hE w hw i U hU h2e hphi u hEc hEj val phi q hv hconn pinv hp _ N hN
  obtain ⟨s', H', C', e1', e2', e3', e4', e5', e6'⟩ := hE' w hw i U hU h2e hphi u hEc hEj val' phi q hv' hconn' pinv' hp' _ N' hN'
  refine ⟨s, H, s', H', e1, e2, e1', e2', ?_⟩
  have hC := hmat C C' e3 e3' (fun v h0 => by rw [e5 v h0, e5' v h0, electrostatic_scale, electrostatic_scale, hform v h0])
  have htr : ∀ i, tr ((nodes g').get (σ i)) = tr ((nodes g).get i) := fun i => by rw [hσ]
  let τ : ChargeState (fun i => tr ((nodes g).get i)) ≃ ChargeState (fun i => tr ((nodes g').get i)) :=
    σ.piCongr fun i => finCongr (by dsimp only; rw [htr i])
  have hτ : ∀ x i, excess (τ x) (σ i) = excess x i := by
    intro x i
    have h1 : ((τ x (σ i) : Fin _) : ℕ) = (x i : ℕ) := by
      have h2 : τ x (σ i) = finCongr (by dsimp only; rw [htr i]) (x i) := Equiv.piCongr_apply_apply _ _ _ _
      rw [h2]
      rfl
    show (tr ((nodes g').get (σ i)) : ℤ) - (((τ x (σ i) : Fin _) : ℕ) : ℤ) = (tr ((nodes g).get i) : ℤ) - ((x i : ℕ) : ℤ)
    rw [htr, h1]
  have hCi : ∀ i j, C'⁻¹ (σ i) (σ j) = C⁻¹ i j := by
    intro i j
    rw [← hC, inv_submatrix_equiv]
    rfl
  have hsum : ∀ x, (1 / 2 * ∑ i, ∑ j, (2 * Units.pc_e) ^ 2 * C'⁻¹ i j * (excess (τ x) i + gateCharge q h' ((nodes g').get i)) *
        (excess (τ x) j + gateCharge q h' ((nodes g').get j)) : ℝ) =
      1 / 2 * ∑ i, ∑ j, (2 * Units.pc_e) ^ 2 * C⁻¹ i j * (excess x i + gateCharge q h ((nodes g).get i)) * (excess x j + gateCharge q h ((nodes g).get j)) := by
    intro x
    congr 1
    rw [← Equiv.sum_comp σ]
    apply Finset.sum_congr rfl; intro i _
    rw [← Equiv.sum_comp σ]
    apply Finset.sum_congr rfl; intro j _
    rw [hCi, hτ, hτ, hσ, hσ, hq, hq]
  obtain ⟨D, hD⟩ : ∃ D : ChargeState (fun i => tr ((nodes g).get i)) → ℝ, ∀ x, (1 / 2 * ∑ i, ∑ j, (2 * Units.pc_e) ^ 2 * C⁻¹ i j *
      (excess x i + gateCharge q h ((nodes g).get i)) * (excess x j + gateCharge q h ((nodes g).get j)) : ℝ) = D x := ⟨_, fun _ => rfl⟩
  obtain ⟨p, hp1, hpJ⟩ := hJ sgn sgn' hsgn hsgn'
  have hAB : (∀ x y, H' (τ x) (τ y) = p x * (starRingEnd ℂ) (p y) * H x y) ∨
      ∀ x y, H' (τ x) (τ y) = (starRingEnd ℂ) (p x * (starRingEnd ℂ) (p y) * H x y) := by
    refine hpJ.imp (fun hpJ x y => ?_) fun hpJ x y => ?_ <;> rw [e6, e6', netlistElement_eq, netlistElement_eq,
      transfer_reorder σ hσ _ _ _ x y (τ x) (τ y) (hτ x) (hτ y), hpJ, hsum, hD]
    · by_cases hxy : x = y
      · subst hxy
        rw [if_pos rfl, if_pos rfl]
        linear_combination (-(U.E : ℂ)) * (D x : ℂ) * hp1 x
      · rw [if_neg hxy, if_neg fun h => hxy (τ.injective h)]
        ring
    · by_cases hxy : x = y
      · subst hxy
        rw [if_pos rfl, if_pos rfl]
        simp only [map_mul, map_sub, Complex.conj_conj, Complex.conj_ofReal]
        linear_combination (-(U.E : ℂ)) * (D x : ℂ) * hp1 x
      · rw [if_neg hxy, if_neg fun h => hxy (τ.injective h)]
        simp only [map_mul, map_sub, Complex.conj_conj, Complex.conj_ofReal, map_zero]
        ring
  have hp2 : ∀ x, (starRingEnd ℂ) ((starRingEnd ℂ) (p x)) * (starRingEnd ℂ) (p x) = 1 := fun x => by
    rw [Complex.conj_conj, mul_comm, hp1]
  rcases hAB with hAB | hAB
  · intro k E
    refine ⟨levelsUpTo_gauge τ p hp1 hAB k E, levelsUpTo_gauge τ.symm (fun x => (starRingEnd ℂ) (p (τ.symm x))) (fun x => hp2 _) (fun x y => ?_) k E⟩
    have h1 := hAB (τ.symm x) (τ.symm y)
    rw [τ.apply_symm_apply, τ.apply_symm_apply] at h1
    rw [h1, Complex.conj_conj]
    have h2 := hp1 (τ.symm x)
    have h3 := hp1 (τ.symm y)
    linear_combination (-(H (τ.symm x) (τ.symm y))) * h2 - (H (τ.symm x) (τ.symm y)) * (starRingEnd ℂ) (p (τ.symm x)) * p (τ.symm x) * h3
  · intro k E
    have t1 : LevelsUpTo H k E ↔ LevelsUpTo (fun x y => p x * (starRingEnd ℂ) (p y) * H x y) k E := by
      refine ⟨levelsUpTo_gauge (Equiv.refl _) p hp1 (fun _ _ => rfl) k E, levelsUpTo_gauge (Equiv.refl _) (fun x => (starRingEnd ℂ) (p x)) hp2 (fun x y => ?_) k E⟩
      simp only [Equiv.refl_apply, Complex.conj_conj]
      have h2 := hp1 x
      have h3 := hp1 y
      linear_combination (-(H x y)) * h2 - (H x y) * (starRingEnd ℂ) (p x) * p x * h3
    rw [t1]
    refine ⟨levelsUpTo_conj τ hAB k E, levelsUpTo_conj τ.symm (fun x y => ?_) k E⟩
    have h1 := hAB (τ.symm x) (τ.symm y)
    rw [τ.apply_symm_apply, τ.apply_symm_apply] at h1
    rw [h1, Complex.conj_conj]

/-- With at most one flux bias, the signs with which the biases enter two circuits agree up to the sense of all fluxes. -/
theorem one_sign (phi : String → ℝ) (h h' : List Call) (hflux : ∀ c, fluxOn phi h' c = fluxOn phi h c) (hone : OneBias phi h) (sgn sgn' : String → ℝ)
    (hsgn : ∀ c, sgn c = 1 ∨ sgn c = -1) (hsgn' : ∀ c, sgn' c = 1 ∨ sgn' c = -1) :
    (∀ c, sgn' c * fluxOn phi h' c = sgn c * fluxOn phi h c) ∨ ∀ c, sgn' c * fluxOn phi h' c = -(sgn c * fluxOn phi h c) := by
  by_cases hz : ∃ c0, fluxOn phi h c0 ≠ 0
  · obtain ⟨c0, h0⟩ := hz
    have key : ∀ t : ℝ, sgn' c0 = t * sgn c0 → ∀ c, sgn' c * fluxOn phi h' c = t * (sgn c * fluxOn phi h c) := by
      intro t ht c
      rw [hflux]
      by_cases hc : fluxOn phi h c = 0
      · rw [hc]; ring
      · rw [hone c c0 hc h0, ht]; ring
    rcases hsgn c0 with h1 | h1 <;> rcases hsgn' c0 with h2 | h2
    · exact .inl fun c => by rw [key 1 (by rw [h1, h2]; ring) c, one_mul]
    · exact .inr fun c => by rw [key (-1) (by rw [h1, h2]; ring) c, neg_one_mul]
    · exact .inr fun c => by rw [key (-1) (by rw [h1, h2]; ring) c, neg_one_mul]
    · exact .inl fun c => by rw [key 1 (by rw [h1, h2]; ring) c, one_mul]
  · push Not at hz
    exact .inl fun c => by rw [hflux, hz, mul_zero, mul_zero]

/-- **C90** Networks of capacitors that store the same energy at all node voltages are interchangeable: two circuits on the same nodes, with the
same junctions, charge biases and (at most one) flux bias, have the same levels with the same multiplicities if their capacitors and gate capacitors store the same energies.
The second can be quantised if the first can. -/
theorem C90_networks (h h' : List Call) (g g' : CG) (hs : Settled h g) (hs' : Settled h' g') (ha : AllOk h) (ha' : AllOk h')
    (hn : JosephsonNetlist h) (hn' : JosephsonNetlist h') (b b' : Biases) (hb : createFluxBiases g = .ok b) (hb' : createFluxBiases g' = .ok b')
    (w : List UCall) (hw : ∀ c ∈ w, c.Clean) (i : ℕ) (U : Spec.System) (hU : Uses (runU w) i U) (h2e : U.C = 2 * Units.pc_e) (hphi : U.Wb = Units.pc_phi0)
    (u : Prefs) (hEc : Units.getPrefactor (runU w) i "Ec" = .ok u.Ec) (hEj : Units.getPrefactor (runU w) i "Ej" = .ok u.Ej)
    (val val' phi q : String → ℝ) (hv : NonnegCaps val h) (hv' : NonnegCaps val' h') (hconn : ∀ n ∈ nodesOf (branches h), Conn (capacitiveNet val h) n 0)
    (hnodes : nodesOf (branches h') = nodesOf (branches h)) (hjun : (branchesOf 'I' (branches h')).Perm (branchesOf 'I' (branches h)))
    (hval : ∀ d ∈ branchesOf 'I' (branches h), val' d.2.2 = val d.2.2) (hq : ∀ n, gateCharge q h' n = gateCharge q h n)
    (hflux : ∀ c, fluxOn phi h' c = fluxOn phi h c) (hone : OneBias phi h)
    (hform : ∀ v : ℕ → ℝ, v 0 = 0 → electrostaticForm val' h' v = electrostaticForm val h v)
    (pinv : Matrix (Fin (edges g).length) (Fin (edges g).length) ℝ → Matrix (Fin (edges g).length) (Fin (edges g).length) ℝ)
    (hp : ∀ M, IsPinv M (pinv M))
    (pinv' : Matrix (Fin (edges g').length) (Fin (edges g').length) ℝ → Matrix (Fin (edges g').length) (Fin (edges g').length) ℝ)
    (hp' : ∀ M, IsPinv M (pinv' M)) (tr : ℕ → ℕ)
    (N : Fin (nodes g).length → BigNode fun i => NodeCfg.mk (tr ((nodes g).get i)) .charge) (hN : ChargeNodes (fun i => tr ((nodes g).get i)) N)
    (N' : Fin (nodes g').length → BigNode fun i => NodeCfg.mk (tr ((nodes g').get i)) .charge) (hN' : ChargeNodes (fun i => tr ((nodes g').get i)) N') :
    ∃ s H s' H', assemble g b val phi q ⟨false, 1⟩ pinv u = .ok s ∧ hamiltonian (s.withNodes N) = some H ∧
      assemble g' b' val' phi q ⟨false, 1⟩ pinv' u = .ok s' ∧ hamiltonian (s'.withNodes N') = some H' ∧
      ∀ k E, LevelsUpTo H k E ↔ LevelsUpTo H' k E := by
  refine equivalent_levels h h' g g' hs hs' ha ha' hn hn' b b' hb hb' w hw i U hU h2e hphi u hEc hEj val val' phi q hv hv' hconn hnodes hq hform tr ?_
    pinv hp pinv' hp' N hN N' hN'
  intro sgn sgn' hsgn hsgn'
  refine ⟨fun _ => 1, fun _ => by simp, ?_⟩
  refine (one_sign phi h h' hflux hone sgn sgn' hsgn hsgn').imp (fun ht x y => ?_) fun ht x y => ?_
  · rw [transfer_perm hjun, map_one, mul_one, one_mul]
    exact transfer_congr (fun d hd => by simp only [hval d hd]) (fun d _ => ht _) x y
  · rw [transfer_perm hjun, map_one, mul_one, one_mul, ← transfer_conj]
    exact transfer_congr (fun d hd => by simp only [hval d hd]) (fun d _ => ht _) x y

/-! ### Two components in parallel -/

theorem capacitorForm_perm (val : String → ℝ) {bs bs' : List (ℕ × ℕ × String)} (hp : bs.Perm bs') (v : ℕ → ℝ) : capacitorForm val bs v = capacitorForm val bs' v := by
  unfold capacitorForm branchesOf
  exact ((hp.filter _).map _).sum_eq

theorem capacitorForm_cons (val : String → ℝ) (b : ℕ × ℕ × String) (l : List (ℕ × ℕ × String)) (v : ℕ → ℝ) :
    capacitorForm val (b :: l) v = (if startsWith b.2.2 'C' = true then val b.2.2 * (v b.1 - v b.2.1) ^ 2 else 0) + capacitorForm val l v := by
  unfold capacitorForm
  rw [sum_branchesOf, sum_branchesOf, List.map_cons, List.sum_cons]

theorem nodesOf_perm {bs bs' : List (ℕ × ℕ × String)} (hp : bs.Perm bs') : nodesOf bs = nodesOf bs' := by
  ext n
  simp only [nodesOf, List.mem_toFinset, List.mem_flatMap]
  exact ⟨fun ⟨b, hb, hn⟩ => ⟨b, hp.subset hb, hn⟩, fun ⟨b, hb, hn⟩ => ⟨b, hp.symm.subset hb, hn⟩⟩

theorem parallel_nodes {h h' : List Call} {x y : String} {a b : ℕ} {l : List (ℕ × ℕ × String)} (hpar : Parallel h h' x y a b l) :
    nodesOf (branches h') = nodesOf (branches h) := by
  rw [nodesOf_perm hpar.one]
  rcases hpar.both with h1 | h1 <;> rw [nodesOf_perm h1] <;> ext n <;> simp [nodesOf]
  rw [or_left_comm]

theorem parallel_names {h h' : List Call} {x y : String} {a b : ℕ} {l : List (ℕ × ℕ × String)} (hpar : Parallel h h' x y a b l)
    (hnd : ((branches h).map fun b => b.2.2).Nodup) : x ≠ y ∧ ∀ d ∈ l, d.2.2 ≠ x ∧ d.2.2 ≠ y := by
  have key : ∀ e : ℕ × ℕ × String, e.2.2 = y → (branches h).Perm ((a, b, x) :: e :: l) → x ≠ y ∧ ∀ d ∈ l, d.2.2 ≠ x ∧ d.2.2 ≠ y := by
    intro e he hp
    have h1 := ((hp.map fun b => b.2.2).nodup_iff).1 hnd
    simp only [List.map_cons, List.nodup_cons, List.mem_cons, List.mem_map, not_or, not_exists, not_and, he] at h1
    exact ⟨h1.1.1, fun d hd => ⟨h1.1.2 d hd, h1.2.1 d hd⟩⟩
  rcases hpar.both with h1 | h1
  · exact key (a, b, y) rfl h1
  · exact key (b, a, y) rfl h1

theorem parallel_form {h h' : List Call} {x y : String} {a b : ℕ} {l : List (ℕ × ℕ × String)} (hpar : Parallel h h' x y a b l) (val : String → ℝ) (v : ℕ → ℝ) :
    capacitorForm val (branches h) v = (if startsWith x 'C' = true then val x * (v a - v b) ^ 2 else 0) +
      ((if startsWith y 'C' = true then val y * (v a - v b) ^ 2 else 0) + capacitorForm val l v) := by
  rcases hpar.both with h1 | h1 <;> rw [capacitorForm_perm val h1, capacitorForm_cons, capacitorForm_cons]
  dsimp only
  congr 2
  split_ifs <;> ring

theorem capacitorForm_congr {val val' : String → ℝ} {l : List (ℕ × ℕ × String)} (hl : ∀ d ∈ l, startsWith d.2.2 'C' = true → val' d.2.2 = val d.2.2) (v : ℕ → ℝ) :
    capacitorForm val' l v = capacitorForm val l v := by
  unfold capacitorForm
  congr 1
  apply List.map_congr_left
  intro d hd
  obtain ⟨h1, h2⟩ := List.mem_filter.1 hd
  rw [hl d h1 h2]

theorem parallel_energy {h h' : List Call} {x y : String} {a b : ℕ} {l : List (ℕ × ℕ × String)} (hpar : Parallel h h' x y a b l)
    (hnd : ((branches h).map fun b => b.2.2).Nodup) (val val' : String → ℝ) (hval : ∀ c, c ≠ x → val' c = val c)
    (hx : startsWith x 'C' = true → val' x = val x + val y) (hxy : startsWith x 'C' = startsWith y 'C') (v : ℕ → ℝ) :
    electrostaticForm val' h' v = electrostaticForm val h v := by
  unfold electrostaticForm
  rw [parallel_nodes hpar, parallel_form hpar, capacitorForm_perm val' hpar.one, capacitorForm_cons,
    capacitorForm_congr fun d hd _ => hval _ ((parallel_names hpar hnd).2 d hd).1, ← hxy]
  congr 1
  · dsimp only
    split_ifs with hc
    · rw [hx hc]; ring
    · ring
  · apply Finset.sum_congr rfl
    intro n _
    rw [hpar.caps val val' hval]

theorem parallel_nonneg {h h' : List Call} {x y : String} {a b : ℕ} {l : List (ℕ × ℕ × String)} (hpar : Parallel h h' x y a b l)
    (hnd : ((branches h).map fun b => b.2.2).Nodup) (val val' : String → ℝ) (hval : ∀ c, c ≠ x → val' c = val c)
    (hx : startsWith x 'C' = true → val' x = val x + val y) (hxy : startsWith x 'C' = startsWith y 'C') (hv : NonnegCaps val h) : NonnegCaps val' h' := by
  have hin : ∀ d, d ∈ l ∨ d = (a, b, x) → d ∈ branches h := by
    intro d hd
    rcases hpar.both with h1 | h1 <;> refine h1.symm.subset ?_ <;> rcases hd with hd | rfl <;> simp [*]
  have hiny : startsWith y 'C' = true → 0 ≤ val y := by
    intro hy
    rcases hpar.both with h1 | h1
    · exact hv.1 (a, b, y) (List.mem_filter.2 ⟨h1.symm.subset (by simp), hy⟩)
    · exact hv.1 (b, a, y) (List.mem_filter.2 ⟨h1.symm.subset (by simp), hy⟩)
  refine ⟨fun d hd => ?_, fun n hn => ?_⟩
  · obtain ⟨h1, h2⟩ := List.mem_filter.1 hd
    rcases List.mem_cons.1 (hpar.one.subset h1) with rfl | h3
    · dsimp only at h2 ⊢
      rw [hx h2]
      exact add_nonneg (hv.1 (a, b, x) (List.mem_filter.2 ⟨hin _ (.inr rfl), h2⟩)) (hiny (hxy ▸ h2))
    · rw [hval _ ((parallel_names hpar hnd).2 d h3).1]
      exact hv.1 d (List.mem_filter.2 ⟨hin _ (.inl h3), h2⟩)
  · rw [hpar.caps val val' hval]
    exact hv.2 n (parallel_nodes hpar ▸ hn)

theorem transfer_reverse (ns : List ℕ) (a b : ℕ) (c : String) {tr : Fin ns.length → ℕ} (EJ f : String → ℝ) (x y : ChargeState tr) :
    transfer ns [(b, a, c)] EJ f x y = transfer ns [(a, b, c)] EJ (fun c => - f c) x y := by
  unfold transfer
  simp only [List.map_cons, List.map_nil]
  rw [crossed_reverse ns a b x y, crossed_reverse ns a b y x]
  congr 2
  rw [add_comm]
  push_cast
  simp only [mul_neg, neg_mul, neg_neg]

theorem branchesOf_cons (p : Char) (b : ℕ × ℕ × String) (l : List (ℕ × ℕ × String)) :
    branchesOf p (b :: l) = if startsWith b.2.2 p = true then b :: branchesOf p l else branchesOf p l := by
  unfold branchesOf
  rw [List.filter_cons]

theorem branchesOf_perm (p : Char) {bs bs' : List (ℕ × ℕ × String)} (hp : bs.Perm bs') : (branchesOf p bs).Perm (branchesOf p bs') := hp.filter _

/-- **C90** Two capacitors between the same nodes act as one with the sum of their capacitances, and two unbiased junctions as one with the sum of their
critical currents: in a circuit with at most one flux bias, leaving out the second component and giving the first the sum leaves all levels as they are. -/
theorem C90_parallel (h h' : List Call) (g g' : CG) (hs : Settled h g) (hs' : Settled h' g') (ha : AllOk h) (ha' : AllOk h')
    (hn : JosephsonNetlist h) (hn' : JosephsonNetlist h') (b b' : Biases) (hb : createFluxBiases g = .ok b) (hb' : createFluxBiases g' = .ok b')
    (w : List UCall) (hw : ∀ c ∈ w, c.Clean) (i : ℕ) (U : Spec.System) (hU : Uses (runU w) i U) (h2e : U.C = 2 * Units.pc_e) (hphi : U.Wb = Units.pc_phi0)
    (u : Prefs) (hEc : Units.getPrefactor (runU w) i "Ec" = .ok u.Ec) (hEj : Units.getPrefactor (runU w) i "Ej" = .ok u.Ej)
    (x y : String) (a c : ℕ) (l : List (ℕ × ℕ × String)) (hpar : Parallel h h' x y a c l)
    (val phi q : String → ℝ) (hv : NonnegCaps val h) (hconn : ∀ n ∈ nodesOf (branches h), Conn (capacitiveNet val h) n 0)
    (hxy : startsWith x 'C' = true ∧ startsWith y 'C' = true ∨ startsWith x 'I' = true ∧ startsWith y 'I' = true ∧ fluxOn phi h x = 0 ∧ fluxOn phi h y = 0)
    (hflux : ∀ c, fluxOn phi h' c = fluxOn phi h c) (hone : OneBias phi h)
    (pinv : Matrix (Fin (edges g).length) (Fin (edges g).length) ℝ → Matrix (Fin (edges g).length) (Fin (edges g).length) ℝ)
    (hp : ∀ M, IsPinv M (pinv M))
    (pinv' : Matrix (Fin (edges g').length) (Fin (edges g').length) ℝ → Matrix (Fin (edges g').length) (Fin (edges g').length) ℝ)
    (hp' : ∀ M, IsPinv M (pinv' M)) (tr : ℕ → ℕ)
    (N : Fin (nodes g).length → BigNode fun i => NodeCfg.mk (tr ((nodes g).get i)) .charge) (hN : ChargeNodes (fun i => tr ((nodes g).get i)) N)
    (N' : Fin (nodes g').length → BigNode fun i => NodeCfg.mk (tr ((nodes g').get i)) .charge) (hN' : ChargeNodes (fun i => tr ((nodes g').get i)) N') :
    ∃ s H s' H', assemble g b val phi q ⟨false, 1⟩ pinv u = .ok s ∧ hamiltonian (s.withNodes N) = some H ∧
      assemble g' b' (summed val x y) phi q ⟨false, 1⟩ pinv' u = .ok s' ∧ hamiltonian (s'.withNodes N') = some H' ∧
      ∀ k E, LevelsUpTo H k E ↔ LevelsUpTo H' k E := by
  obtain ⟨hnd, -, -⟩ := C21_names hs
  obtain ⟨hne, hl⟩ := parallel_names hpar hnd
  have hval : ∀ d, d ≠ x → summed val x y d = val d := fun d hd => if_neg hd
  have hvx : summed val x y x = val x + val y := if_pos rfl
  have hCC : startsWith x 'C' = startsWith y 'C' := by
    rcases hxy with ⟨h1, h2⟩ | ⟨h1, h2, -⟩
    · rw [h1, h2]
    · have : ∀ z, startsWith z 'I' = true → startsWith z 'C' = false := by
        intro z hz
        by_contra hcon
        have := startsWith_unique hz (by simpa using hcon)
        exact absurd this (by decide)
      rw [this x h1, this y h2]
  have hv' := parallel_nonneg hpar hnd val _ hval (fun _ => hvx) hCC hv
  have hform := parallel_energy hpar hnd val _ hval (fun _ => hvx) hCC
  refine equivalent_levels h h' g g' hs hs' ha ha' hn hn' b b' hb hb' w hw i U hU h2e hphi u hEc hEj val (summed val x y) phi q hv hv' hconn (parallel_nodes hpar)
    (hpar.charge q) (fun v _ => hform v) tr ?_ pinv hp pinv' hp' N hN N' hN'
  intro sgn sgn' hsgn hsgn'
  refine ⟨fun _ => 1, fun _ => by simp, ?_⟩
  have key : ∀ (f : String → ℝ), (f x = 0 ∨ startsWith x 'C' = true) → (f y = 0 ∨ startsWith x 'C' = true) → ∀ m m' : ChargeState (fun i => tr ((nodes g).get i)),
      transfer (nodes g) (branchesOf 'I' (branches h')) (fun c => Units.pc_phi0 * (summed val x y c * U.A) / (2 * Real.pi)) f m m' =
      transfer (nodes g) (branchesOf 'I' (branches h)) (fun c => Units.pc_phi0 * (val c * U.A) / (2 * Real.pi)) f m m' := by
    intro f hfx hfy m m'
    have hrest : transfer (nodes g) (branchesOf 'I' l) (fun c => Units.pc_phi0 * (summed val x y c * U.A) / (2 * Real.pi)) f m m' =
        transfer (nodes g) (branchesOf 'I' l) (fun c => Units.pc_phi0 * (val c * U.A) / (2 * Real.pi)) f m m' :=
      transfer_congr (fun d hd => by rw [hval _ (hl d (List.mem_filter.1 hd).1).1]) (fun _ _ => rfl) m m'
    have hCI : ∀ z, startsWith z 'C' = true → ¬ startsWith z 'I' = true := fun z hz hz' => absurd (startsWith_unique hz hz') (by decide)
    rw [transfer_perm (branchesOf_perm 'I' hpar.one), branchesOf_cons]
    rcases hxy with ⟨h1, h2⟩ | ⟨h1, h2, -⟩
    · rw [if_neg (hCI x h1), hrest]
      rcases hpar.both with h3 | h3 <;> rw [transfer_perm (branchesOf_perm 'I' h3), branchesOf_cons, branchesOf_cons, if_neg (hCI x h1), if_neg (hCI y h2)]
    · have hfx' := hfx.resolve_right fun h => hCI x h h1
      have hfy' := hfy.resolve_right fun h => hCI x h h1
      have hadd : transfer (nodes g) [(a, c, x)] (fun c => Units.pc_phi0 * (summed val x y c * U.A) / (2 * Real.pi)) f m m' =
          transfer (nodes g) [(a, c, x)] (fun c => Units.pc_phi0 * (val c * U.A) / (2 * Real.pi)) f m m' +
          transfer (nodes g) [(a, c, y)] (fun c => Units.pc_phi0 * (val c * U.A) / (2 * Real.pi)) f m m' := by
        unfold transfer
        simp only [List.map_cons, List.map_nil, List.sum_cons, List.sum_nil, add_zero, hfx', hfy', hvx]
        push_cast
        ring
      have hrev : transfer (nodes g) [(c, a, y)] (fun c => Units.pc_phi0 * (val c * U.A) / (2 * Real.pi)) f m m' =
          transfer (nodes g) [(a, c, y)] (fun c => Units.pc_phi0 * (val c * U.A) / (2 * Real.pi)) f m m' := by
        rw [transfer_reverse]
        refine transfer_congr (fun _ _ => rfl) (fun d hd => ?_) m m'
        rw [List.mem_singleton.1 hd]
        dsimp only
        rw [hfy', neg_zero]
      rw [if_pos h1, transfer_cons _ _ (branchesOf 'I' l), hrest, hadd]
      rcases hpar.both with h3 | h3
      · rw [transfer_perm (branchesOf_perm 'I' h3), branchesOf_cons, branchesOf_cons, if_pos h1, if_pos h2, transfer_cons _ (a, c, x) ((a, c, y) :: branchesOf 'I' l), transfer_cons _ (a, c, y) (branchesOf 'I' l), add_assoc]
      · rw [transfer_perm (branchesOf_perm 'I' h3), branchesOf_cons, branchesOf_cons, if_pos h1, if_pos h2, transfer_cons _ (a, c, x) ((c, a, y) :: branchesOf 'I' l), transfer_cons _ (c, a, y) (branchesOf 'I' l), hrev, add_assoc]
  have hz : ∀ s : String → ℝ, (s x * fluxOn phi h x = 0 ∨ startsWith x 'C' = true) ∧ (s y * fluxOn phi h y = 0 ∨ startsWith x 'C' = true) := by
    intro s
    rcases hxy with ⟨h1, -⟩ | ⟨-, -, h1, h2⟩
    · exact ⟨.inr h1, .inr h1⟩
    · exact ⟨.inl (by rw [h1, mul_zero]), .inl (by rw [h2, mul_zero])⟩
  refine (one_sign phi h h' hflux hone sgn sgn' hsgn hsgn').imp (fun ht m m' => ?_) fun ht m m' => ?_
  · rw [map_one, mul_one, one_mul, ← key (fun c => sgn c * fluxOn phi h c) (hz sgn).1 (hz sgn).2]
    exact transfer_congr (fun _ _ => rfl) (fun d _ => ht _) m m'
  · rw [map_one, mul_one, one_mul, ← key (fun c => sgn c * fluxOn phi h c) (hz sgn).1 (hz sgn).2, ← transfer_conj]
    exact transfer_congr (fun _ _ => rfl) (fun d _ => ht _) m m'

/-! ### A SQUID -/

theorem squid_norm (I1 I2 φ : ℝ) : squidCurrent I1 I2 φ = ‖(I1 + I2 * exp (2 * Real.pi * φ * I) : ℂ)‖ := by
  unfold squidCurrent
  have h1 : (2 * Real.pi * φ * I : ℂ) = ((2 * Real.pi * φ : ℝ) : ℂ) * I := by push_cast; ring
  rw [h1, Complex.exp_mul_I, ← Complex.ofReal_cos, ← Complex.ofReal_sin, Complex.norm_def, Complex.normSq_apply]
  congr 1
  simp only [add_re, mul_re, ofReal_re, ofReal_im, I_re, I_im, add_im, mul_im]
  have := Real.sin_sq_add_cos_sq (2 * Real.pi * φ)
  linear_combination (-(I2 ^ 2)) * this

theorem squid_even (I1 I2 φ : ℝ) : squidCurrent I1 I2 (-φ) = squidCurrent I1 I2 φ := by
  unfold squidCurrent
  rw [mul_neg, Real.cos_neg]

/-- The junctions of the circuit with the SQUID: the first, the second in the direction of the first, and the others. -/
theorem squid_split {bs l : List (ℕ × ℕ × String)} {x y : String} {a c : ℕ} (hboth : bs.Perm ((a, c, x) :: (a, c, y) :: l) ∨ bs.Perm ((a, c, x) :: (c, a, y) :: l))
    (hx : startsWith x 'I' = true) (hy : startsWith y 'I' = true) (ns : List ℕ) {tr : Fin ns.length → ℕ} (EJ fl : String → ℝ) (hfx : fl x = 0)
    (hfl : ∀ d ∈ l, fl d.2.2 = 0) :
    ∃ f : ℝ, (f = fl y ∨ f = - fl y) ∧ ∀ m m' : ChargeState tr, transfer ns (branchesOf 'I' bs) EJ fl m m' =
      transfer ns [(a, c, x)] EJ (fun _ => 0) m m' + (transfer ns [(a, c, y)] EJ (fun _ => f) m m' + transfer ns (branchesOf 'I' l) EJ (fun _ => 0) m m') := by
  have h1 : ∀ m m' : ChargeState tr, transfer ns [(a, c, x)] EJ fl m m' = transfer ns [(a, c, x)] EJ (fun _ => 0) m m' := fun m m' =>
    transfer_congr (fun _ _ => rfl) (fun d hd => by rw [List.mem_singleton.1 hd, hfx]) m m'
  have h2 : ∀ m m' : ChargeState tr, transfer ns (branchesOf 'I' l) EJ fl m m' = transfer ns (branchesOf 'I' l) EJ (fun _ => 0) m m' := fun m m' =>
    transfer_congr (fun _ _ => rfl) (fun d hd => hfl d (List.mem_filter.1 hd).1) m m'
  rcases hboth with h3 | h3
  · refine ⟨fl y, .inl rfl, fun m m' => ?_⟩
    rw [transfer_perm (branchesOf_perm 'I' h3), branchesOf_cons, branchesOf_cons, if_pos hx, if_pos hy, transfer_cons _ (a, c, x) ((a, c, y) :: branchesOf 'I' l),
      transfer_cons _ (a, c, y) (branchesOf 'I' l), h1, h2]
    rfl
  · refine ⟨-fl y, .inr rfl, fun m m' => ?_⟩
    rw [transfer_perm (branchesOf_perm 'I' h3), branchesOf_cons, branchesOf_cons, if_pos hx, if_pos hy, transfer_cons _ (a, c, x) ((c, a, y) :: branchesOf 'I' l),
      transfer_cons _ (c, a, y) (branchesOf 'I' l), h1, h2, transfer_reverse ns a c y]
    rfl

/-- A part of the circuit without the ground that, of the junctions, only those between `a` and `c` connect to the rest. -/
theorem separated_part (l : List (ℕ × ℕ × String)) (a c : ℕ) (hloop : ¬ Conn (wires l) a c) :
    ∃ S : Set ℕ, 0 ∉ S ∧ (a ∈ S ↔ c ∉ S) ∧ ∀ d ∈ l, (d.1 ∈ S ↔ d.2.1 ∈ S) := by
  have hcl : ∀ d ∈ l, (Conn (wires l) a d.1 ↔ Conn (wires l) a d.2.1) := by
    intro d hd
    have he : Conn (wires l) d.1 d.2.1 := Conn.edge (e := (d.1, d.2.1, 0)) (List.mem_map.2 ⟨d, hd, rfl⟩)
    exact ⟨fun h => h.trans he, fun h => h.trans he.symm⟩
  by_cases h0 : Conn (wires l) a 0
  · refine ⟨{n | ¬ Conn (wires l) a n}, fun h => h h0, ⟨fun h => absurd (Conn.refl _ a) h, fun h => absurd hloop h⟩, fun d hd => ?_⟩
    exact not_congr (hcl d hd)
  · exact ⟨{n | Conn (wires l) a n}, h0, ⟨fun _ => hloop, fun _ => Conn.refl _ a⟩, hcl⟩

/-- The phases of the charge states that take the SQUID to one unbiased junction. -/
theorem squid_gauge {ns : List ℕ} (hnd : ns.Nodup) (S : Set ℕ) (a c : ℕ) (l : List (ℕ × ℕ × String)) (hac : a ∈ S ↔ c ∉ S)
    (hl : ∀ d ∈ l, (d.1 ∈ S ↔ d.2.1 ∈ S)) (ha : a ∈ S → a ∈ ns) (hc : c ∈ S → c ∈ ns) (hln : ∀ d ∈ l, (d.1 ∈ S → d.1 ∈ ns) ∧ (d.2.1 ∈ S → d.2.1 ∈ ns))
    {tr : Fin ns.length → ℕ} (x y : String) (val val' : String → ℝ) (K f : ℝ) (hvx : val' x = squidCurrent (val x) (val y) f)
    (hval : ∀ d ∈ l, val' d.2.2 = val d.2.2) :
    ∃ p : ChargeState tr → ℂ, (∀ m, (starRingEnd ℂ) (p m) * p m = 1) ∧ ∀ m m',
      transfer ns ((a, c, x) :: l) (fun c => K * val' c) (fun _ => 0) m m' =
        p m * (starRingEnd ℂ) (p m') * (transfer ns [(a, c, x)] (fun c => K * val c) (fun _ => 0) m m' +
          (transfer ns [(a, c, y)] (fun c => K * val c) (fun _ => f) m m' + transfer ns l (fun c => K * val c) (fun _ => 0) m m')) := by
  classical
  obtain ⟨z, hz⟩ : ∃ z : ℂ, z = val x + val y * exp (2 * Real.pi * f * I) := ⟨_, rfl⟩
  have hzr : ((‖z‖ : ℝ) : ℂ) * exp (Complex.arg z * I) = z := Complex.norm_mul_exp_arg_mul_I z
  obtain ⟨δ, hδ, hδS⟩ : ∃ δ : ℤ, δ * δ = 1 ∧ ((if a ∈ S then 1 else 0) - (if c ∈ S then 1 else 0) : ℤ) = δ := by
    by_cases haS : a ∈ S
    · exact ⟨1, rfl, by rw [if_pos haS, if_neg (hac.1 haS)]; rfl⟩
    · exact ⟨-1, rfl, by rw [if_neg haS, if_pos (by by_contra h; exact haS (hac.2 h))]; rfl⟩
  obtain ⟨p, hpd⟩ : ∃ p : ChargeState tr → ℂ, ∀ m, p m = exp (((-(Complex.arg z) * δ * onSet ns S m : ℝ) : ℂ) * I) := ⟨_, fun _ => rfl⟩
  have hpp : ∀ m m', p m * (starRingEnd ℂ) (p m') = exp (((-(Complex.arg z) * δ * (onSet ns S m - onSet ns S m') : ℝ) : ℂ) * I) := by
    intro m m'
    rw [hpd, hpd, ← Complex.exp_conj, ← Complex.exp_add]
    congr 1
    simp only [map_mul, Complex.conj_ofReal, Complex.conj_I]
    push_cast
    ring
  have hδ' : (δ : ℂ) * δ = 1 := by exact_mod_cast hδ
  have hup : ∀ m m', Crossed ns (a, c, 0) m m' → p m * (starRingEnd ℂ) (p m') * z = ‖z‖ := by
    intro m m' hcr
    have h1 := onSet_crossed hnd S a c ha hc m m' hcr
    have h1' : onSet ns S m = onSet ns S m' + δ := by rw [← hδS]; exact h1
    rw [hpp, h1']
    conv_lhs => rw [← hzr]
    rw [mul_left_comm, ← Complex.exp_add]
    have h2 : (((-(Complex.arg z) * δ * (((onSet ns S m' + δ : ℤ) : ℝ) - onSet ns S m') : ℝ) : ℂ) * I + Complex.arg z * I) = 0 := by
      push_cast
      linear_combination (-(Complex.arg z * I)) * hδ'
    rw [hzr, h2, Complex.exp_zero, mul_one]
  have hdn : ∀ m m', Crossed ns (a, c, 0) m' m → p m * (starRingEnd ℂ) (p m') * (starRingEnd ℂ) z = ‖z‖ := by
    intro m m' hcr
    have h1 := congrArg (starRingEnd ℂ) (hup m' m hcr)
    simp only [map_mul, Complex.conj_conj, Complex.conj_ofReal] at h1
    rw [← h1]
    ring
  have hzc : (starRingEnd ℂ) z = val x + val y * exp (-(2 * Real.pi * f * I)) := by
    rw [hz, map_add, map_mul, Complex.conj_ofReal, Complex.conj_ofReal, ← Complex.exp_conj]
    congr 3
    have two : (starRingEnd ℂ) 2 = 2 := Complex.conj_ofNat 2
    simp only [map_mul, Complex.conj_ofReal, Complex.conj_I, two]
    ring
  refine ⟨p, fun m => ?_, fun m m' => ?_⟩
  · rw [mul_comm, hpp]
    simp
  · rw [transfer_cons ns _ l, ← add_assoc, mul_add]
    congr 1
    · have h1 : (if Crossed ns (a, c, 0) m m' then (‖z‖ : ℂ) else 0) = p m * (starRingEnd ℂ) (p m') * if Crossed ns (a, c, 0) m m' then z else 0 := by
        split_ifs with hcr
        · rw [hup m m' hcr]
        · rw [mul_zero]
      have h2 : (if Crossed ns (a, c, 0) m' m then (‖z‖ : ℂ) else 0) = p m * (starRingEnd ℂ) (p m') * if Crossed ns (a, c, 0) m' m then (starRingEnd ℂ) z else 0 := by
        split_ifs with hcr
        · rw [hdn m m' hcr]
        · rw [mul_zero]
      have h4 : (val' x : ℂ) = (‖z‖ : ℂ) := by rw [hvx, squid_norm, hz]
      have e1 : transfer ns [(a, c, x)] (fun c => K * val' c) (fun _ => 0) m m' = (K : ℂ) / 2 *
          ((if Crossed ns (a, c, 0) m m' then (‖z‖ : ℂ) else 0) + if Crossed ns (a, c, 0) m' m then (‖z‖ : ℂ) else 0) := by
        unfold transfer
        simp only [List.map_cons, List.map_nil, List.sum_cons, List.sum_nil, add_zero, Complex.ofReal_zero, mul_zero, zero_mul, neg_zero, Complex.exp_zero]
        push_cast
        rw [h4]
        split_ifs <;> ring
      have e2 : transfer ns [(a, c, x)] (fun c => K * val c) (fun _ => 0) m m' + transfer ns [(a, c, y)] (fun c => K * val c) (fun _ => f) m m' = (K : ℂ) / 2 *
          ((if Crossed ns (a, c, 0) m m' then z else 0) + if Crossed ns (a, c, 0) m' m then (starRingEnd ℂ) z else 0) := by
        rw [hzc, hz]
        unfold transfer
        simp only [List.map_cons, List.map_nil, List.sum_cons, List.sum_nil, add_zero, Complex.ofReal_zero, mul_zero, zero_mul, neg_zero, Complex.exp_zero]
        push_cast
        split_ifs <;> ring
      rw [e1, e2, h1, h2]
      ring
    · have h0 : ∀ d ∈ l, ∀ m m', Crossed ns (d.1, d.2.1, 0) m m' → p m * (starRingEnd ℂ) (p m') = 1 ∧ p m' * (starRingEnd ℂ) (p m) = 1 := by
        intro d hd m m' hcr
        have h1 := onSet_crossed hnd S d.1 d.2.1 (hln d hd).1 (hln d hd).2 m m' hcr
        simp only [hl d hd, sub_self, add_zero] at h1
        rw [hpp, hpp, h1]
        simp
      unfold transfer
      rw [← List.sum_map_mul_left]
      congr 1
      apply List.map_congr_left
      intro d hd
      simp only [hval d hd]
      have h1 : ∀ k : ℂ, (if Crossed ns (d.1, d.2.1, 0) m m' then k else 0) = p m * (starRingEnd ℂ) (p m') * if Crossed ns (d.1, d.2.1, 0) m m' then k else 0 := by
        intro k
        split_ifs with hcr
        · rw [(h0 d hd m m' hcr).1, one_mul]
        · rw [mul_zero]
      have h2 : ∀ k : ℂ, (if Crossed ns (d.1, d.2.1, 0) m' m then k else 0) = p m * (starRingEnd ℂ) (p m') * if Crossed ns (d.1, d.2.1, 0) m' m then k else 0 := by
        intro k
        split_ifs with hcr
        · rw [(h0 d hd m' m hcr).2, one_mul]
        · rw [mul_zero]
      conv_lhs => rw [h1, h2]
      ring

/-- **C90** Two junctions in parallel, one of them biased by a flux, are a junction with a critical current that the flux tunes:
`sqrt (I1² + I2² + 2 I1 I2 cos 2πφ)`.  The levels are those of the circuit in which one unbiased junction with this current stands in place of both, as long as the
other junctions do not connect the two nodes (no second loop), whatever the capacitors do. -/
theorem C90_squid (h h' : List Call) (g g' : CG) (hs : Settled h g) (hs' : Settled h' g') (ha : AllOk h) (ha' : AllOk h')
    (hn : JosephsonNetlist h) (hn' : JosephsonNetlist h') (b b' : Biases) (hb : createFluxBiases g = .ok b) (hb' : createFluxBiases g' = .ok b')
    (w : List UCall) (hw : ∀ c ∈ w, c.Clean) (i : ℕ) (U : Spec.System) (hU : Uses (runU w) i U) (h2e : U.C = 2 * Units.pc_e) (hphi : U.Wb = Units.pc_phi0)
    (u : Prefs) (hEc : Units.getPrefactor (runU w) i "Ec" = .ok u.Ec) (hEj : Units.getPrefactor (runU w) i "Ej" = .ok u.Ej)
    (x y : String) (a c : ℕ) (l : List (ℕ × ℕ × String)) (hpar : Parallel h h' x y a c l)
    (val phi q : String → ℝ) (hv : NonnegCaps val h) (hconn : ∀ n ∈ nodesOf (branches h), Conn (capacitiveNet val h) n 0)
    (hx : startsWith x 'I' = true) (hy : startsWith y 'I' = true) (hflux : ∀ d, d ≠ y → fluxOn phi h d = 0) (hflux' : ∀ d, fluxOn phi h' d = 0)
    (hloop : ¬ Conn (wires (branchesOf 'I' l)) a c)
    (pinv : Matrix (Fin (edges g).length) (Fin (edges g).length) ℝ → Matrix (Fin (edges g).length) (Fin (edges g).length) ℝ)
    (hp : ∀ M, IsPinv M (pinv M))
    (pinv' : Matrix (Fin (edges g').length) (Fin (edges g').length) ℝ → Matrix (Fin (edges g').length) (Fin (edges g').length) ℝ)
    (hp' : ∀ M, IsPinv M (pinv' M)) (tr : ℕ → ℕ)
    (N : Fin (nodes g).length → BigNode fun i => NodeCfg.mk (tr ((nodes g).get i)) .charge) (hN : ChargeNodes (fun i => tr ((nodes g).get i)) N)
    (N' : Fin (nodes g').length → BigNode fun i => NodeCfg.mk (tr ((nodes g').get i)) .charge) (hN' : ChargeNodes (fun i => tr ((nodes g').get i)) N') :
    ∃ s H s' H', assemble g b val phi q ⟨false, 1⟩ pinv u = .ok s ∧ hamiltonian (s.withNodes N) = some H ∧
      assemble g' b' (fun d => if d = x then squidCurrent (val x) (val y) (fluxOn phi h y) else val d) phi q ⟨false, 1⟩ pinv' u = .ok s' ∧ hamiltonian (s'.withNodes N') = some H' ∧
      ∀ k E, LevelsUpTo H k E ↔ LevelsUpTo H' k E := by
  obtain ⟨hnd, -, -⟩ := C21_names hs
  obtain ⟨hne, hl⟩ := parallel_names hpar hnd
  set val' : String → ℝ := fun d => if d = x then squidCurrent (val x) (val y) (fluxOn phi h y) else val d with hval'
  have hval : ∀ d, d ≠ x → val' d = val d := fun d hd => if_neg hd
  have hvx : val' x = squidCurrent (val x) (val y) (fluxOn phi h y) := if_pos rfl
  have hIC : ∀ z, startsWith z 'I' = true → startsWith z 'C' = false := by
    intro z hz
    by_contra hcon
    have := startsWith_unique hz (by simpa using hcon)
    exact absurd this (by decide)
  have hCx : startsWith x 'C' = true → val' x = val x + val y := fun h => by rw [hIC x hx] at h; cases h
  have hCC : startsWith x 'C' = startsWith y 'C' := by rw [hIC x hx, hIC y hy]
  have hv' := parallel_nonneg hpar hnd val val' hval hCx hCC hv
  have hform := parallel_energy hpar hnd val val' hval hCx hCC
  refine equivalent_levels h h' g g' hs hs' ha ha' hn hn' b b' hb hb' w hw i U hU h2e hphi u hEc hEj val val' phi q hv hv' hconn (parallel_nodes hpar)
    (hpar.charge q) (fun v _ => hform v) tr ?_ pinv hp pinv' hp' N hN N' hN'
  intro sgn sgn' hsgn hsgn'
  have hK : ∀ v : String → ℝ, (fun c => Units.pc_phi0 * (v c * U.A) / (2 * Real.pi)) = fun c => (Units.pc_phi0 * U.A / (2 * Real.pi)) * v c := by
    intro v
    funext c
    ring
  rw [hK, hK]
  obtain ⟨f, hf, hT⟩ := squid_split hpar.both hx hy (nodes g) (tr := fun i => tr ((nodes g).get i)) (fun c => (Units.pc_phi0 * U.A / (2 * Real.pi)) * val c)
    (fun c => sgn c * fluxOn phi h c) (by rw [hflux x hne, mul_zero]) fun d hd => by rw [hflux _ (hl d hd).2, mul_zero]
  have hcur : val' x = squidCurrent (val x) (val y) f := by
    rw [hvx]
    rcases hf with h | h <;> rcases hsgn y with h1 | h1 <;> rw [h, h1]
    · rw [one_mul]
    · rw [neg_one_mul, squid_even]
    · rw [one_mul, squid_even]
    · rw [neg_one_mul, neg_neg]
  obtain ⟨S, hS0, hSac, hSl⟩ := separated_part (branchesOf 'I' l) a c hloop
  obtain ⟨hndn, hmem⟩ := C29_rows h g hs
  have hin : ∀ n ∈ nodesOf (branches h), n ∈ S → n ∈ nodes g := fun n hn hS => (hmem n).2 ⟨hn, fun h0 => hS0 (h0 ▸ hS)⟩
  have hacn : a ∈ nodesOf (branches h) ∧ c ∈ nodesOf (branches h) := by
    rw [← parallel_nodes hpar, nodesOf_perm hpar.one]
    simp [nodesOf]
  have hln : ∀ d ∈ branchesOf 'I' l, d.1 ∈ nodesOf (branches h) ∧ d.2.1 ∈ nodesOf (branches h) := by
    intro d hd
    have hd' := (List.mem_filter.1 hd).1
    rw [← parallel_nodes hpar, nodesOf_perm hpar.one]
    simp only [nodesOf, List.mem_toFinset, List.mem_flatMap]
    exact ⟨⟨d, List.mem_cons_of_mem _ hd', by simp⟩, ⟨d, List.mem_cons_of_mem _ hd', by simp⟩⟩
  obtain ⟨p, hp1, hp2⟩ := squid_gauge hndn S a c (branchesOf 'I' l) hSac hSl (hin a hacn.1) (hin c hacn.2)
    (fun d hd => ⟨hin _ (hln d hd).1, hin _ (hln d hd).2⟩) (tr := fun i => tr ((nodes g).get i)) x y val val' (Units.pc_phi0 * U.A / (2 * Real.pi)) f hcur
    (fun d hd => hval _ (hl d (List.mem_filter.1 hd).1).1)
  refine ⟨p, hp1, .inl fun m m' => ?_⟩
  rw [hT, ← hp2, transfer_perm (branchesOf_perm 'I' hpar.one), branchesOf_cons, if_pos hx]
  exact transfer_congr (fun _ _ => rfl) (fun d _ => by rw [hflux', mul_zero]) m m'

/-! ### The hypotheses are met -/

/-- A transmon with a charge bias through a gate capacitor: the biased SQUID with one junction in place of two. -/
def plainTransmon : List Call := [.addBranch Orc.id 0 1 "C1", .addBranch Orc.id 0 1 "I1", .addChargeBias 1 (some "g") (some "Cg")]

/-- The same with a second capacitor from the other end. -/
def twoCapacitors : List Call :=
  [.addBranch Orc.id 0 1 "C1", .addBranch Orc.id 1 0 "C2", .addBranch Orc.id 0 1 "I1", .addChargeBias 1 (some "g") (some "Cg")]

/-- The same with the second capacitor in place of the gate capacitor. -/
def noGateCapacitor : List Call :=
  [.addBranch Orc.id 0 1 "C1", .addBranch Orc.id 1 0 "C2", .addBranch Orc.id 0 1 "I1", .addChargeBias 1 (some "g") none]

theorem plainTransmon_branches : branches plainTransmon = [(0, 1, "C1"), (0, 1, "I1")] := by decide +kernel

theorem transmon_ok : (Settled plainTransmon (run {} plainTransmon) ∧ AllOk plainTransmon ∧ JosephsonNetlist plainTransmon ∧
      ∃ b, createFluxBiases (run {} plainTransmon) = .ok b) ∧
    (Settled twoCapacitors (run {} twoCapacitors) ∧ AllOk twoCapacitors ∧ JosephsonNetlist twoCapacitors ∧ ∃ b, createFluxBiases (run {} twoCapacitors) = .ok b) ∧
    (Settled noGateCapacitor (run {} noGateCapacitor) ∧ AllOk noGateCapacitor ∧ JosephsonNetlist noGateCapacitor ∧
      ∃ b, createFluxBiases (run {} noGateCapacitor) = .ok b) := by
  have hbs : ∀ g : CG, (createFluxBiases g).toOption.isSome = true → ∃ b, createFluxBiases g = .ok b := by
    intro g hg
    cases hc : createFluxBiases g with
    | ok b => exact ⟨b, rfl⟩
    | error e => rw [hc] at hg; cases hg
  refine ⟨⟨⟨[.addBranch Orc.id 0 1 "C1"], Orc.id, 0, 1, "I1", [.addChargeBias 1 (some "g") (some "Cg")], rfl,
      by simp [plainTransmon, Call.OK, orcId_ok], by decide +kernel, by simp, rfl⟩, ?_, ?_, hbs _ (by decide +kernel)⟩,
    ⟨⟨[.addBranch Orc.id 0 1 "C1", .addBranch Orc.id 1 0 "C2"], Orc.id, 0, 1, "I1", [.addChargeBias 1 (some "g") (some "Cg")], rfl,
      by simp [twoCapacitors, Call.OK, orcId_ok], by decide +kernel, by simp, rfl⟩, ?_, ?_, hbs _ (by decide +kernel)⟩,
    ⟨⟨[.addBranch Orc.id 0 1 "C1", .addBranch Orc.id 1 0 "C2"], Orc.id, 0, 1, "I1", [.addChargeBias 1 (some "g") none], rfl,
      by simp [noGateCapacitor, Call.OK, orcId_ok], by decide +kernel, by simp, rfl⟩, ?_, ?_, hbs _ (by decide +kernel)⟩⟩
  · apply allOk_of_prefixes; decide +kernel
  · refine ⟨by simp [plainTransmon], ?_, ?_, ?_⟩ <;> rw [plainTransmon_branches] <;> decide +kernel
  · apply allOk_of_prefixes; decide +kernel
  · have hb : branches twoCapacitors = [(0, 1, "C1"), (1, 0, "C2"), (0, 1, "I1")] := by decide +kernel
    refine ⟨by simp [twoCapacitors], ?_, ?_, ?_⟩ <;> rw [hb] <;> decide +kernel
  · apply allOk_of_prefixes; decide +kernel
  · have hb : branches noGateCapacitor = [(0, 1, "C1"), (1, 0, "C2"), (0, 1, "I1")] := by decide +kernel
    refine ⟨by simp [noGateCapacitor], ?_, ?_, ?_⟩ <;> rw [hb] <;> decide +kernel

/-- The hypotheses of `C90_squid` on the two circuits are met by the biased SQUID and the transmon (for the others see `C86_hamiltonian`). -/
example (phi : String → ℝ) : Parallel biasedSquid plainTransmon "I1" "I2" 0 1 [(0, 1, "C1")] ∧ startsWith "I1" 'I' = true ∧ startsWith "I2" 'I' = true ∧
    (∀ d, d ≠ "I2" → fluxOn phi biasedSquid d = 0) ∧ fluxOn phi biasedSquid "I2" = phi "z" ∧ (∀ d, fluxOn phi plainTransmon d = 0) ∧
    ¬ Conn (wires (branchesOf 'I' [(0, 1, "C1")])) 0 1 := by
  have hb : branches biasedSquid = [(0, 1, "C1"), (0, 1, "I1"), (0, 1, "I2")] := by decide +kernel
  refine ⟨⟨.inl ?_, ?_, fun q n => ?_, fun val val' hv n => ?_⟩, by decide, by decide, fun d hd => ?_, ?_, fun d => ?_, ?_⟩
  · rw [hb]; decide +kernel
  · rw [plainTransmon_branches]; decide +kernel
  · by_cases hn : 1 = n <;> simp [gateCharge, biasedSquid, plainTransmon, hn]
  · by_cases hn : 1 = n <;> simp [Spec.gateCap, biasedSquid, plainTransmon, hn, hv]
  · simp [fluxOn, biasedSquid, Ne.symm hd]
  · simp [fluxOn, biasedSquid]
  · simp [fluxOn, plainTransmon]
  · have : branchesOf 'I' [(0, 1, "C1")] = [] := by decide
    rw [this]
    intro hc
    have key : ∀ m n, Conn (wires []) m n → m = n := by
      intro m n h
      induction h with
      | rel _ _ h => obtain ⟨e, he, -⟩ := h; cases he
      | refl => rfl
      | symm _ _ _ ih => exact ih.symm
      | trans _ _ _ _ _ h1 h2 => exact h1.trans h2
    exact absurd (key _ _ hc) (by decide)

/-- Those of `C90_parallel` are met by the transmon and the transmon with a second capacitor, -/
example (phi : String → ℝ) : Parallel twoCapacitors plainTransmon "C1" "C2" 0 1 [(0, 1, "I1")] ∧ startsWith "C1" 'C' = true ∧ startsWith "C2" 'C' = true ∧
    (∀ d, fluxOn phi plainTransmon d = fluxOn phi twoCapacitors d) ∧ OneBias phi twoCapacitors := by
  have hb : branches twoCapacitors = [(0, 1, "C1"), (1, 0, "C2"), (0, 1, "I1")] := by decide +kernel
  refine ⟨⟨.inr ?_, ?_, fun q n => ?_, fun val val' hv n => ?_⟩, by decide, by decide, fun d => ?_, fun c c' hc => ?_⟩
  · rw [hb]
  · rw [plainTransmon_branches]
  · by_cases hn : 1 = n <;> simp [gateCharge, twoCapacitors, plainTransmon, hn]
  · by_cases hn : 1 = n <;> simp [Spec.gateCap, twoCapacitors, plainTransmon, hn, hv]
  · simp [fluxOn, plainTransmon, twoCapacitors]
  · exact absurd (by simp [fluxOn, twoCapacitors]) hc

/-- and those of `C90_networks` by the transmon and the transmon with a capacitor to the ground in place of the gate capacitor. -/
example (val val' phi q : String → ℝ) (h1 : val' "C1" = val "C1") (h2 : val' "C2" = val "Cg") (h3 : val' "I1" = val "I1") :
    nodesOf (branches noGateCapacitor) = nodesOf (branches plainTransmon) ∧ (branchesOf 'I' (branches noGateCapacitor)).Perm (branchesOf 'I' (branches plainTransmon)) ∧
    (∀ d ∈ branchesOf 'I' (branches plainTransmon), val' d.2.2 = val d.2.2) ∧ (∀ n, gateCharge q noGateCapacitor n = gateCharge q plainTransmon n) ∧
    (∀ c, fluxOn phi noGateCapacitor c = fluxOn phi plainTransmon c) ∧ OneBias phi plainTransmon ∧
    ∀ v : ℕ → ℝ, v 0 = 0 → electrostaticForm val' noGateCapacitor v = electrostaticForm val plainTransmon v := by
  have hb : branches noGateCapacitor = [(0, 1, "C1"), (1, 0, "C2"), (0, 1, "I1")] := by decide +kernel
  have hI : branchesOf 'I' [(0, 1, "C1"), (0, 1, "I1")] = [(0, 1, "I1")] := by decide +kernel
  have hno : nodesOf [(0, 1, "C1"), (0, 1, "I1")] = {0, 1} := by decide +kernel
  have hno' : nodesOf [(0, 1, "C1"), (1, 0, "C2"), (0, 1, "I1")] = {0, 1} := by decide +kernel
  rw [hb, plainTransmon_branches, hI, hno, hno']
  refine ⟨rfl, by decide +kernel, ?_, fun n => ?_, fun c => ?_, fun c c' hc => ?_, fun v h0 => ?_⟩
  · intro d hd
    rw [List.mem_singleton.1 hd]
    exact h3
  · by_cases hn : 1 = n <;> simp [gateCharge, noGateCapacitor, plainTransmon, hn]
  · simp [fluxOn, plainTransmon, noGateCapacitor]
  · exact absurd (by simp [fluxOn, plainTransmon]) hc
  · unfold electrostaticForm
    rw [hb, plainTransmon_branches, hno, hno', capacitorForm_cons, capacitorForm_cons, capacitorForm_cons, capacitorForm_cons, capacitorForm_cons]
    have s1 : startsWith "C1" 'C' = true := by decide
    have s2 : startsWith "C2" 'C' = true := by decide
    have s3 : ¬ startsWith "I1" 'C' = true := by decide
    have g1 : Spec.gateCap val plainTransmon 0 = 0 := by simp [Spec.gateCap, plainTransmon]
    have g2 : Spec.gateCap val plainTransmon 1 = val "Cg" := by simp [Spec.gateCap, plainTransmon]
    have g3 : ∀ n, Spec.gateCap val' noGateCapacitor n = 0 := by intro n; simp [Spec.gateCap, noGateCapacitor]
    rw [Finset.sum_pair (by decide), Finset.sum_pair (by decide), g1, g2, g3, g3]
    simp only [if_pos s1, if_pos s2, if_neg s3, h0, h1, h2]
    unfold capacitorForm
    simp [branchesOf]

end Verif.Props
