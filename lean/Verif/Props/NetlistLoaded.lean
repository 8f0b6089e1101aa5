import Verif.Lemmas.NetlistLoaded

/-!
# C104: the operator of a circuit with resonators
-/

namespace Verif.Props

open Verif Verif.Circuit Verif.Sym Verif.Num Verif.Spec Complex Matrix

/-- The currents given by the inverse of the inductance matrix. -/
theorem currents_operator {A : Type} [Ring A] [Algebra ℂ A] {val sgn : String → ℝ} {h : List Call} (X : ℕ × ℕ × String → A) (J : String → A)
    (hJ : ∀ i, J ((branchesOf 'L' (branches h)).get i).2.2 = ∑ j, (((inductanceMatrix val sgn h)⁻¹ i j : ℝ) : ℂ) • X ((branchesOf 'L' (branches h)).get j)) :
    ((branchesOf 'L' (branches h)).map fun br => J br.2.2 * X br).sum =
      ∑ i, ∑ j, (((inductanceMatrix val sgn h)⁻¹ i j : ℝ) : ℂ) • (X ((branchesOf 'L' (branches h)).get i) * X ((branchesOf 'L' (branches h)).get j)) := by
  rw [← Fin.sum_univ_fun_getElem]
  have e1 : ∀ i : Fin (branchesOf 'L' (branches h)).length, J ((branchesOf 'L' (branches h))[(i : ℕ)]).2.2 =
      ∑ j, (((inductanceMatrix val sgn h)⁻¹ i j : ℝ) : ℂ) • X ((branchesOf 'L' (branches h)).get j) := hJ
  rw [Finset.sum_congr rfl fun i _ => by rw [e1 i, Finset.sum_mul], Finset.sum_comm]
  apply Finset.sum_congr rfl; intro i _
  apply Finset.sum_congr rfl; intro j _
  have hsy : (inductanceMatrix val sgn h)⁻¹ j i = (inductanceMatrix val sgn h)⁻¹ i j := by
    have := transpose_nonsing_inv (inductanceMatrix val sgn h)
    rw [inductance_symm] at this
    exact congrFun (congrFun this i) j
  rw [hsy, smul_mul_assoc]
  rfl

/-- **C104 (partial)** From the calls to the operator that is diagonalised, with resonators: take any netlist of capacitors, inductors, junctions and
phase slips between different nodes, with flux and charge biases, with mutual inductances between different inductors after the last branch, and with
resonators that are coupled capacitively to any nodes and removed at any time, all calls successful; no transform.  For all values of components and
biases for which no capacitance is negative, every node is connected to the ground through capacitances (which may be those of resonators) and the
inductance matrix is invertible, and all operators of the nodes, the Hamiltonian exists and is the operator read off the netlist.  A resonator
only loads its node: to the capacitance of the node it adds the coupling capacitance in series with the capacitance of the resonator.
Missing: as for `C103_operator_partial`, except for the resonators. -/
theorem C104_operator_partial (h : List Call) (g : CG) (hs : Settled h g) (ha : AllOk h) (hn : LoadedNetlist h) (b : Biases)
    (hb : createFluxBiases g = .ok b) :
    ∃ sgn : String → ℝ, (∀ c, sgn c = 1 ∨ sgn c = -1) ∧
    (∀ br ∈ branches h, ∀ e ∈ edges g, g.cmap.get? e = some br.2.2 → (sgn br.2.2 = 1 ↔ e.1 = br.1)) ∧
    ∀ (val phi q : String → ℝ) (_ : NonnegLoads val h) (_ : ∀ n ∈ nodesOf (branches h), Conn (loadedNet val h) n 0)
      (_ : (inductanceMatrix val sgn h).det ≠ 0) (_ : GroundedBiases phi h)
      (pinv : Matrix (Fin (edges g).length) (Fin (edges g).length) ℝ → Matrix (Fin (edges g).length) (Fin (edges g).length) ℝ)
      (_ : ∀ M, IsPinv M (pinv M)) (u : Prefs) (cfg : Fin (nodes g).length → NodeCfg) (o : ∀ i, NodeOps (cfg i).dim)
      (N : Fin (nodes g).length → BigNode cfg) (_ : ∀ i, expandNode cfg i (o i) = some (N i)),
    ∃ s C, assemble g b val phi q ⟨false, 1⟩ pinv u = .ok s ∧ C.transpose = C ∧ C.det ≠ 0 ∧
      (∀ v : ℕ → ℝ, v 0 = 0 → atNodes g v ⬝ᵥ C.mulVec (atNodes g v) = loadedForm val h v) ∧
      hamiltonian (s.withNodes N) = some (mutualOperator (nodes g) h u.Ec u.El u.Ej u.Ep C val sgn (gateCharge q h)
        (fun c => sgn c * fluxOn phi h c) (nodeOperators N)) := by
  refine ⟨biasSign h g, fun c => by unfold biasSign; split_ifs <;> simp, ?_, ?_⟩
  · intro br hbr e he hc
    have hne := hn.ends br hbr
    rcases biasSign_branch hs hn.ends hbr he hc with ⟨k1, -, k3, -⟩ | ⟨k1, -, k3, -⟩
    · rw [k1, k3]; simp
    · rw [k1, k3]
      constructor
      · intro h1; norm_num at h1
      · intro h1; exact absurd h1.symm hne
  intro val phi q hv hconn hind hgr pinv hp u cfg o N hN
  obtain ⟨C, hC, hsym, hform⟩ := loaded_capacitance hs ha hn val
  have hdet := (loaded_det hs val hv _ hsym hform).2 hconn
  obtain ⟨M, hM⟩ := coupled_inductance hs ha hn hb val
  obtain ⟨s, hsok, hham⟩ := hamiltonian_core hs ha hn.ends hb val phi q pinv u cfg o N hN hC hdet hM
  refine ⟨s, C.block _ _, hsok, hsym, hdet, hform, ?_⟩
  obtain ⟨J, hJ, hJi⟩ := currents_exist (C21_names hs).1 hind (inductorFlux (nodes g) (fun c => biasSign h g c * fluxOn phi h c) fun i => (N i).P)
  rw [hham, inductive_form hs ha hn hb val phi hgr pinv hp hM (fun i => (N i).P) J hJ, num_smul, currents_operator _ J hJi]
  unfold mutualOperator
  congr 3
  congr 2
  ring

/-- **C104** The Hamiltonian of a circuit with resonators can be assembled exactly if every node is connected to the ground through capacitances; a resonator
connects its node to the ground if neither its capacitance nor that of its coupling is zero. -/
theorem C104_exists (h : List Call) (g : CG) (hs : Settled h g) (ha : AllOk h) (hn : LoadedNetlist h) (b : Biases) (hb : createFluxBiases g = .ok b)
    (val phi q : String → ℝ) (hv : NonnegLoads val h)
    (pinv : Matrix (Fin (edges g).length) (Fin (edges g).length) ℝ → Matrix (Fin (edges g).length) (Fin (edges g).length) ℝ) (u : Prefs) :
    ((∃ s, assemble g b val phi q ⟨false, 1⟩ pinv u = .ok s) ↔ ∀ n ∈ nodesOf (branches h), Conn (loadedNet val h) n 0) ∧
    ∀ n c, resonatorAt h n = some c → (loadAt val h n ≠ 0 ↔ val c ≠ 0 ∧ val (resonatorName n) ≠ 0) := by
  constructor
  · obtain ⟨C, hC, hsym, hform⟩ := loaded_capacitance hs ha hn val
    rw [← loaded_det hs val hv _ hsym hform]
    obtain ⟨M, hM⟩ := coupled_inductance hs ha hn hb val
    unfold assemble
    simp only [hC, hM]
    unfold Verif.Sym.inverseCapacitance
    constructor
    · rintro ⟨s, hok⟩ hz
      rw [if_pos hz] at hok
      cases hok
    · intro hz
      rw [if_neg hz]
      exact ⟨_, rfl⟩
  · intro n c hr
    obtain ⟨h1, h2⟩ := hv.2 n c hr
    unfold loadAt
    rw [hr]
    simp only [ne_eq, div_eq_zero_iff, mul_eq_zero, not_or]
    constructor
    · exact fun hh => hh.1
    · rintro ⟨a1, a2⟩
      refine ⟨⟨a1, a2⟩, fun hz => a1 ?_⟩
      linarith

/-- **C104** The load is that of a floating resonator: the least energy that coupling capacitor and resonator capacitor can have at a given voltage of
the node, over all voltages `x` between them; it is reached, at `Cc / (Cc + Cr)` of the voltage of the node. -/
theorem C104_load (h : List Call) (val : String → ℝ) (n : ℕ) (c : String) (hr : resonatorAt h n = some c) (h1 : 0 < val c) (h2 : 0 < val (resonatorName n))
    (v : ℝ) : (∀ x, loadAt val h n * v ^ 2 ≤ val c * (v - x) ^ 2 + val (resonatorName n) * x ^ 2) ∧
      loadAt val h n * v ^ 2 = val c * (v - val c / (val c + val (resonatorName n)) * v) ^ 2 +
        val (resonatorName n) * (val c / (val c + val (resonatorName n)) * v) ^ 2 := by
  unfold loadAt
  rw [hr]
  simp only
  have hsum : 0 < val c + val (resonatorName n) := add_pos h1 h2
  constructor
  · intro x
    have key : val c * (v - x) ^ 2 + val (resonatorName n) * x ^ 2 - val c * val (resonatorName n) / (val c + val (resonatorName n)) * v ^ 2 =
        (val c + val (resonatorName n)) * (x - val c / (val c + val (resonatorName n)) * v) ^ 2 := by
      field_simp
      ring
    have := mul_nonneg hsum.le (sq_nonneg (x - val c / (val c + val (resonatorName n)) * v))
    linarith
  · field_simp
    ring

/-! ### An example -/

/-- A junction and an inductor whose node has no capacitor of its own, only a resonator. -/
def bareCalls : List Circuit.Call :=
  [.addBranch Orc.id 0 1 "L", .addBranch Orc.id 0 1 "I1", .addFluxBias "I1" (some "e") none, .coupleResonator 1 "Ca", .removeAllResonators, .coupleResonator 1 "Cc"]

theorem bare_settled : Settled bareCalls (run {} bareCalls) :=
  ⟨[.addBranch Orc.id 0 1 "L"], Orc.id, 0, 1, "I1",
    [.addFluxBias "I1" (some "e") none, .coupleResonator 1 "Ca", .removeAllResonators, .coupleResonator 1 "Cc"],
    rfl, by simp [bareCalls, Call.OK, orcId_ok], by decide +kernel, by simp, rfl⟩

theorem bare_branches : branches bareCalls = [(0, 1, "L"), (0, 1, "I1")] := by decide +kernel

/-- The hypotheses of `C104_operator_partial`, `C104_exists` and `C104_load` are met by the junction with the resonator. -/
example : Settled bareCalls (run {} bareCalls) ∧ AllOk bareCalls ∧ LoadedNetlist bareCalls ∧
    (∃ b, createFluxBiases (run {} bareCalls) = .ok b) ∧ resonatorAt bareCalls 1 = some "Cc" ∧ resonatorName 1 = "C1r" ∧
    NonnegLoads (fun _ => 1) bareCalls ∧ (∀ n ∈ nodesOf (branches bareCalls), Conn (loadedNet (fun _ => 1) bareCalls) n 0) ∧
    (∀ sgn, (inductanceMatrix (fun _ => 1) sgn bareCalls).det ≠ 0) ∧ GroundedBiases (fun _ => 1) bareCalls ∧
    loadAt (fun _ => 1) bareCalls 1 = 1 / 2 := by
  have hres : ∀ n c, resonatorAt bareCalls n = some c → n = 1 ∧ c = "Cc" := by
    intro n c hr
    unfold resonatorAt bareCalls at hr
    simp only [List.foldl_cons, List.foldl_nil] at hr
    split_ifs at hr with h1
    cases hr
    exact ⟨h1.symm, rfl⟩
  have hr1 : resonatorAt bareCalls 1 = some "Cc" := by decide +kernel
  have hload : loadAt (fun _ => 1) bareCalls 1 = 1 / 2 := by
    unfold loadAt
    rw [hr1]
    norm_num
  have hg : ∀ n, Spec.gateCap (fun _ => 1) bareCalls n = 0 := by
    intro n
    unfold Spec.gateCap bareCalls
    simp
  refine ⟨bare_settled, ?_, ⟨?_, ?_, ?_, ?_, ?_⟩, ?_, hr1, by decide +kernel, ?_, ?_, ?_, ?_, hload⟩
  · apply allOk_of_prefixes
    decide +kernel
  · intro c s m hx hL
    simp only [bareCalls, List.mem_cons, List.not_mem_nil, or_false, reduceCtorEq, false_or, Circuit.Call.addFluxBias.injEq] at hx
    exact hx.2.2
  · intro c c' m hx
    simp [bareCalls] at hx
  · intro l o a b c l' hh c₁ c₂ m hx
    have : Circuit.Call.coupleBranches c₁ c₂ m ∈ bareCalls := by rw [hh]; exact List.mem_append_left _ hx
    simp [bareCalls] at this
  · rw [bare_branches]; decide +kernel
  · rw [bare_branches]; decide +kernel
  · have hsome : (createFluxBiases (run {} bareCalls)).toOption.isSome = true := by decide +kernel
    cases hc : createFluxBiases (run {} bareCalls) with
    | ok x => exact ⟨x, rfl⟩
    | error e => rw [hc] at hsome; cases hsome
  · refine ⟨⟨fun _ _ => zero_le_one, fun n _ => (hg n).ge⟩, fun _ _ _ => ⟨zero_le_one, zero_le_one⟩⟩
  · intro n hn
    rw [bare_branches] at hn
    have hn' : n = 0 ∨ n = 1 := by revert hn; revert n; decide +kernel
    have m1 : ((1, 0, 0) : ℕ × ℕ × ℕ) ∈ loadedNet (fun _ => 1) bareCalls := by
      unfold loadedNet
      rw [bare_branches]
      refine List.mem_append_right _ (List.mem_map.2 ⟨1, List.mem_filter.2 ⟨Finset.mem_toList.2 (by decide +kernel), ?_⟩, rfl⟩)
      rw [hg, hload]
      norm_num
    rcases hn' with rfl | rfl
    · exact Conn.refl _ _
    · exact Conn.edge m1
  · intro sgn
    have bL : branchesOf 'L' (branches bareCalls) = [(0, 1, "L")] := by rw [bare_branches]; decide +kernel
    have key : ∀ L : List (ℕ × ℕ × String), L = [(0, 1, "L")] →
        (Matrix.of fun i j : Fin L.length => inductanceOf (fun _ => 1) sgn bareCalls (L.get i).2.2 (L.get j).2.2).det ≠ 0 := by
      rintro L rfl
      rw [Matrix.det_fin_one]
      simp [inductanceOf]
    exact key _ bL
  · intro br hbr hne
    exfalso
    apply hne
    rw [bare_branches] at hbr
    have : br = (0, 1, "L") := by
      clear hne
      revert hbr
      have hL : branchesOf 'L' [(0, 1, "L"), (0, 1, "I1")] = [(0, 1, "L")] := by decide +kernel
      rw [hL, List.mem_singleton]
      exact id
    subst this
    unfold fluxOn bareCalls
    simp

end Verif.Props
