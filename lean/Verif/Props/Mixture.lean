import Verif.Props.CircuitResponse
import Verif.Spec.Mixture

/-!
# C106: The ground energy is a concave function of the critical currents, phase-slip amplitudes and inverse inductances
-/

namespace Verif.Props

open Verif Verif.Spec Verif.Circuit Verif.Sym Verif.Num Matrix Complex

theorem quadOp_mix {A : Type} [Ring A] [Algebra ℂ A] {n : ℕ} (c d : ℝ) (M M' : Matrix (Fin n) (Fin n) ℝ) (x : Fin n → A) :
    quadOp (num A) (c • M + d • M') x = (c : ℂ) • quadOp (num A) M x + (d : ℂ) • quadOp (num A) M' x := by
  simp only [quadOp_smul, Finset.smul_sum, ← Finset.sum_add_distrib]
  refine Finset.sum_congr rfl fun i _ => Finset.sum_congr rfl fun j _ => ?_
  rw [smul_smul, smul_smul, ← add_smul]
  congr 1
  simp

theorem cosines_mix {A : Type} [Ring A] [Algebra ℂ A] {b : ℕ} (c d E : ℝ) (J J' K : Fin b → ℝ) (X : Fin b → A) (hK : ∀ k, K k = c * J k + d * J' k) :
    num A E * ∑ k, -(num A (1 / 2) * num A (K k) * X k) =
      (c : ℂ) • (num A E * ∑ k, -(num A (1 / 2) * num A (J k) * X k)) + (d : ℂ) • (num A E * ∑ k, -(num A (1 / 2) * num A (J' k) * X k)) := by
  have hn : ∀ (x : ℝ) (y : A), num A (1 / 2) * num A x * y = ((1 / 2 * x : ℝ) : ℂ) • y := fun x y => by rw [← map_mul, num_smul]
  simp only [hn]
  rw [num_smul, num_smul, num_smul]
  simp only [Finset.smul_sum, ← Finset.sum_add_distrib]
  refine Finset.sum_congr rfl fun k _ => ?_
  rw [hK]
  push_cast
  module

/-- Every state of a Hermitian matrix has at least the energy of some level. -/
theorem exists_ground {ι : Type} [Fintype ι] [DecidableEq ι] [Nonempty ι] {A : Matrix ι ι ℂ} (hA : A.IsHermitian) :
    ∃ E, LevelsUpTo A 1 E ∧ ∀ v : ι → ℂ, E * ∑ i, normSq (v i) ≤ energy A v := by
  obtain ⟨i, -, hi⟩ := Finset.exists_min_image Finset.univ hA.eigenvalues Finset.univ_nonempty
  refine ⟨hA.eigenvalues i, (levelsUpTo_hermitian hA 1 _).2 (Finset.one_le_card.2 ⟨i, by simp⟩), fun v => ?_⟩
  let U : Matrix ι ι ℂ := hA.eigenvectorUnitary
  have hU : U * Uᴴ = 1 := mem_unitaryGroup_iff.1 hA.eigenvectorUnitary.2
  have sA : A = U * diagonal (fun i => (hA.eigenvalues i : ℂ)) * Uᴴ := by
    have := hA.spectral_theorem
    simpa [Function.comp_def, Matrix.star_eq_conjTranspose] using this
  have e1 : energy A v = energy (diagonal fun i => (hA.eigenvalues i : ℂ)) (Uᴴ *ᵥ v) := by
    unfold energy
    conv_lhs => rw [sA]
    rw [← mulVec_mulVec, ← mulVec_mulVec, dotProduct_mulVec, star_mulVec, conjTranspose_conjTranspose]
  have e2 : ∑ i, normSq (v i) = ∑ i, normSq ((Uᴴ *ᵥ v) i) := by
    have h1 : star (Uᴴ *ᵥ v) ⬝ᵥ (Uᴴ *ᵥ v) = star v ⬝ᵥ v := by
      rw [star_mulVec, dotProduct_mulVec, vecMul_vecMul, conjTranspose_conjTranspose, hU, vecMul_one]
    rw [dot_self, dot_self] at h1
    exact (Complex.ofReal_inj.1 h1).symm
  rw [e1, energy_diagonal, e2, Finset.mul_sum]
  exact Finset.sum_le_sum fun j _ => mul_le_mul_of_nonneg_right (hi j (Finset.mem_univ _)) (normSq_nonneg _)

/-- **C106** The Hamiltonian between two Hamiltonians: for any netlist of capacitors, inductors, junctions and phase slips with the same biases, any
transform and any operators, the Hamiltonian of values between two sets of values is between the two Hamiltonians. -/
theorem C106_between (h : List Call) (g : CG) (hs : Settled h g) (ha : AllOk h) (hn : CircuitNetlist h) (b : Biases)
    (c : ℝ) (val1 val2 val phi q : String → ℝ) (hL1 : ∀ br ∈ branchesOf 'L' (branches h), val1 br.2.2 ≠ 0)
    (hL2 : ∀ br ∈ branchesOf 'L' (branches h), val2 br.2.2 ≠ 0) (hL : ∀ br ∈ branchesOf 'L' (branches h), val br.2.2 ≠ 0) (hm : MixedValues c val1 val2 val h)
    (t : Transform ℝ (nodes g).length)
    (pinv : Matrix (Fin (edges g).length) (Fin (edges g).length) ℝ → Matrix (Fin (edges g).length) (Fin (edges g).length) ℝ)
    (hp : ∀ M, IsPinv M (pinv M)) (u : Prefs) (cfg : Fin (nodes g).length → NodeCfg) (N : Fin (nodes g).length → BigNode cfg)
    (s1 s2 s : Sys PUnit (nodes g).length (edges g).length) (H1 H2 H : BigOp cfg)
    (h1 : assemble g b val1 phi q t pinv u = .ok s1) (h1' : hamiltonian (s1.withNodes N) = some H1)
    (h2 : assemble g b val2 phi q t pinv u = .ok s2) (h2' : hamiltonian (s2.withNodes N) = some H2)
    (h3 : assemble g b val phi q t pinv u = .ok s) (h3' : hamiltonian (s.withNodes N) = some H) :
    H = (c : ℂ) • H1 + ((1 - c : ℝ) : ℂ) • H2 := by
  obtain ⟨C1, L1, d1, d2, d3, d4, d5, d6, d7, d8, d9, d10, d11, d12, d13, d14, d15⟩ := assembled hs ha hn hL1 hp h1
  obtain ⟨C2, L2, e1, e2, e3, e4, e5, e6, e7, e8, e9, e10, e11, e12, e13, e14, e15⟩ := assembled hs ha hn hL2 hp h2
  obtain ⟨C, L, f1, f2, f3, f4, f5, f6, f7, f8, f9, f10, f11, f12, f13, f14, f15⟩ := assembled hs ha hn hL hp h3
  have hC1 : C1 = C := symmetric_eq_of_form d1 f1 fun x => by
    obtain ⟨v, h0, rfl⟩ := atNodes_surj hs x
    rw [d3 v h0, f3 v h0, form_same hm.first]
  have hC2 : C2 = C := symmetric_eq_of_form e1 f1 fun x => by
    obtain ⟨v, h0, rfl⟩ := atNodes_surj hs x
    rw [e3 v h0, f3 v h0, form_same hm.second]
  have hLL : L = c • L1 + (1 - c) • L2 := by
    refine symmetric_eq_of_form f5 (by rw [transpose_add, transpose_smul, transpose_smul, d5, e5]) fun x => ?_
    obtain ⟨v, h0, rfl⟩ := atNodes_surj hs x
    rw [add_mulVec, smul_mulVec, smul_mulVec, dotProduct_add, dotProduct_smul, dotProduct_smul, d6 v h0, e6 v h0, f6 v h0]
    have := hm.inductors
    unfold inductorForm
    generalize branchesOf 'L' (branches h) = l at this
    clear * - this
    induction l with
    | nil => simp
    | cons a l ih =>
      have h1 := this a List.mem_cons_self
      have h2 := ih fun b hb => this b (List.mem_cons_of_mem _ hb)
      simp only [List.map_cons, List.sum_cons, smul_eq_mul] at h2 ⊢
      rw [h2, div_eq_mul_one_div, h1]
      ring
  have hC1' : s1.Cinv = s.Cinv := by rw [hC1, f4] at d4; exact (Option.some.inj d4).symm
  have hC2' : s2.Cinv = s.Cinv := by rw [hC2, f4] at e4; exact (Option.some.inj e4).symm
  have hLi : s.Linv = c • s1.Linv + (1 - c) • s2.Linv := by
    rw [f7, d7, e7, hLL]
    unfold transformInductance
    split_ifs
    · rw [Matrix.mul_add, Matrix.add_mul, Matrix.mul_smul, Matrix.smul_mul, Matrix.mul_smul, Matrix.smul_mul]
    · rfl
  have hJ : ∀ k, s.J k = c * s1.J k + (1 - c) * s2.J k := fun k => by
    rw [f8, d8, e8]
    unfold josephsonVector
    dsimp only
    rw [List.getElem?_eq_getElem k.2]
    obtain ⟨br, hbr, -, hc⟩ := wc_branch hs (List.getElem_mem k.2 : (edges g)[(k : ℕ)] ∈ edges g)
    simp only [hc, ← startsWith_iff]
    by_cases hI : startsWith br.2.2 'I' = true
    · rw [if_pos hI, if_pos hI, if_pos hI, hm.junctions br (List.mem_filter.2 ⟨(List.mem_filter.1 hbr).1, hI⟩)]
    · simp [hI]
  have hV : ∀ k, s.Ps k = c * s1.Ps k + (1 - c) * s2.Ps k := fun k => by
    rw [f9, d9, e9]
    unfold phaseSlipVector
    dsimp only
    rw [List.getElem?_eq_getElem k.2]
    obtain ⟨br, hbr, -, hc⟩ := wc_branch hs (List.getElem_mem k.2 : (edges g)[(k : ℕ)] ∈ edges g)
    simp only [hc, ← startsWith_iff]
    by_cases hI : startsWith br.2.2 'V' = true
    · rw [if_pos hI, if_pos hI, if_pos hI, hm.slips br (List.mem_filter.2 ⟨(List.mem_filter.1 hbr).1, hI⟩)]
    · simp [hI]
  rw [hamiltonian_sum h3', hamiltonian_sum h1', hamiltonian_sum h2']
  have a1 : s1.terms = s.terms := d14.trans f14.symm
  have a2 : s2.terms = s.terms := e14.trans f14.symm
  have a3 : s1.Qb = s.Qb := d12.trans f12.symm
  have a4 : s2.Qb = s.Qb := e12.trans f12.symm
  have a5 : s1.Pbi = s.Pbi := d13.trans f13.symm
  have a6 : s2.Pbi = s.Pbi := e13.trans f13.symm
  have a7 : s1.Pb = s.Pb := d10.trans f10.symm
  have a8 : s2.Pb = s.Pb := e10.trans f10.symm
  have a9 : s1.Qbt = s.Qbt := d11.trans f11.symm
  have a10 : s2.Qbt = s.Qbt := e11.trans f11.symm
  simp only [Sys.withNodes, linearPart, f15, d15, e15, a1, a2, a3, a4, a5, a6, a7, a8, a9, a10, hC1', hC2']
  rw [cosines_mix c (1 - c) u.Ej s1.J s2.J s.J _ hJ, cosines_mix c (1 - c) u.Ep s1.Ps s2.Ps s.Ps _ hV, hLi, quadOp_mix]
  simp only [num_smul, smul_add, smul_smul]
  module

/-- **C106** The ground energy is concave: for values between two sets of values (positive inductances), it is not below the same mixture of the two ground
energies.  For any netlist, transform, and at every node the operators of any basis. -/
theorem C106_concave (h : List Call) (g : CG) (hs : Settled h g) (ha : AllOk h) (hn : CircuitNetlist h) (b : Biases)
    (c : ℝ) (hc0 : 0 ≤ c) (hc1 : c ≤ 1) (val1 val2 val phi q : String → ℝ) (hL1 : ∀ br ∈ branchesOf 'L' (branches h), 0 < val1 br.2.2)
    (hL2 : ∀ br ∈ branchesOf 'L' (branches h), 0 < val2 br.2.2) (hm : MixedValues c val1 val2 val h) (t : Transform ℝ (nodes g).length)
    (pinv : Matrix (Fin (edges g).length) (Fin (edges g).length) ℝ → Matrix (Fin (edges g).length) (Fin (edges g).length) ℝ)
    (hp : ∀ M, IsPinv M (pinv M)) (u : Prefs) (cfg : Fin (nodes g).length → NodeCfg) (o : ∀ i, NodeOps (cfg i).dim)
    (ho : ∀ i, Adjoint (o i)) (N : Fin (nodes g).length → BigNode cfg) (hN : ∀ i, expandNode cfg i (o i) = some (N i))
    (s1 s2 s : Sys PUnit (nodes g).length (edges g).length) (H1 H2 H : BigOp cfg)
    (h1 : assemble g b val1 phi q t pinv u = .ok s1) (h1' : hamiltonian (s1.withNodes N) = some H1)
    (h2 : assemble g b val2 phi q t pinv u = .ok s2) (h2' : hamiltonian (s2.withNodes N) = some H2)
    (h3 : assemble g b val phi q t pinv u = .ok s) (h3' : hamiltonian (s.withNodes N) = some H) (E : ℝ) (hE : LevelsUpTo H 1 E) :
    ∃ E1 E2, LevelsUpTo H1 1 E1 ∧ LevelsUpTo H2 1 E2 ∧ c * E1 + (1 - c) * E2 ≤ E := by
  have hL : ∀ br ∈ branchesOf 'L' (branches h), val br.2.2 ≠ 0 := by
    intro br hbr h0
    have h1 := hm.inductors br hbr
    have p1 := one_div_pos.2 (hL1 br hbr)
    have p2 := one_div_pos.2 (hL2 br hbr)
    rw [h0, div_zero] at h1
    rcases hc0.eq_or_lt with rfl | hc
    · linarith
    · nlinarith [mul_pos hc p1, mul_nonneg (sub_nonneg.2 hc1) p2.le]
  have hH := C106_between h g hs ha hn b c val1 val2 val phi q (fun br hbr => (hL1 br hbr).ne') (fun br hbr => (hL2 br hbr).ne') hL hm t pinv hp u cfg N
    s1 s2 s H1 H2 H h1 h1' h2 h2' h3 h3'
  have herm : ∀ (vl : String → ℝ) (r : Sys PUnit (nodes g).length (edges g).length) (X : BigOp cfg), (∀ br ∈ branchesOf 'L' (branches h), vl br.2.2 ≠ 0) →
      assemble g b vl phi q t pinv u = .ok r → hamiltonian (r.withNodes N) = some X → X.IsHermitian := by
    intro vl r X hl k1 k2
    obtain ⟨C, L, e1, -, -, e4, e5, -, e7, -, -, -, -, -, -, e14, -⟩ := assembled hs ha hn hl hp k1
    have hsym := C33_symmetric t C L r.Cinv e1 e5 e4
    exact C66_hermitian (r.withNodes N) (goodOps_withNodes r N o ho hN fun i => by rw [e14]; exact branchTerms_good g _ _) hsym.1
      (by show r.Linvᵀ = r.Linv; rw [e7]; exact hsym.2) X k2
  obtain ⟨w, hw, hwe⟩ := hE
  have hw0 : w 0 ≠ 0 := hw.ne_zero 0
  obtain ⟨e, he, hwe⟩ := hwe 0
  obtain ⟨x, hx⟩ : ∃ x, w 0 x ≠ 0 := by
    by_contra hcon
    push Not at hcon
    exact hw0 (funext hcon)
  haveI : Nonempty ((i : Fin (nodes g).length) → Fin (cfg i).dim) := ⟨x⟩
  obtain ⟨E1, k1, m1⟩ := exists_ground (herm val1 s1 H1 (fun br hbr => (hL1 br hbr).ne') h1 h1')
  obtain ⟨E2, k2, m2⟩ := exists_ground (herm val2 s2 H2 (fun br hbr => (hL2 br hbr).ne') h2 h2')
  refine ⟨E1, E2, k1, k2, le_trans ?_ he⟩
  have hpos : 0 < ∑ i, normSq (w 0 i) := Finset.sum_pos' (fun _ _ => normSq_nonneg _) ⟨x, Finset.mem_univ _, normSq_pos.2 hx⟩
  have hen : energy H (w 0) = e * ∑ i, normSq (w 0 i) := by
    unfold energy
    rw [hwe, dotProduct_smul, dot_self, smul_eq_mul, ← Complex.ofReal_mul, Complex.ofReal_re]
  rw [hH, energy_add, energy_csmul, energy_csmul] at hen
  have n1 := mul_le_mul_of_nonneg_left (m1 (w 0)) hc0
  have n2 := mul_le_mul_of_nonneg_left (m2 (w 0)) (sub_nonneg.2 hc1)
  refine le_of_mul_le_mul_right ?_ hpos
  nlinarith

/-- The hypotheses of `C106_between` and `C106_concave` are met: the circuit with a biased inductor, a junction and a phase slip, one node in the oscillator
and one in the charge basis; halfway between two sets of values the junction, the phase slip and the inductor all differ from both. -/
example : ∃ (b : Biases) (val1 val2 val phi : String → ℝ)
    (pinv : Matrix (Fin (edges (run {} slipSquid)).length) (Fin (edges (run {} slipSquid)).length) ℝ →
      Matrix (Fin (edges (run {} slipSquid)).length) (Fin (edges (run {} slipSquid)).length) ℝ)
    (cfg : Fin (nodes (run {} slipSquid)).length → NodeCfg) (o : ∀ i, NodeOps (cfg i).dim) (N : Fin (nodes (run {} slipSquid)).length → BigNode cfg),
    (∀ M, IsPinv M (pinv M)) ∧ (∀ i, Adjoint (o i)) ∧ (∀ i, expandNode cfg i (o i) = some (N i)) ∧ MixedValues (1 / 2) val1 val2 val slipSquid ∧
    (∀ br ∈ branchesOf 'L' (branches slipSquid), 0 < val1 br.2.2) ∧ (∀ br ∈ branchesOf 'L' (branches slipSquid), 0 < val2 br.2.2) ∧
    (∀ c ∈ ["L1", "I1", "V1"], val c ≠ val1 c ∧ val c ≠ val2 c) ∧
    ∀ (q : String → ℝ) (u : Prefs), ∀ v ∈ [val1, val2, val],
      ∃ s H, assemble (run {} slipSquid) b v phi q ⟨false, 1⟩ pinv u = .ok s ∧ hamiltonian (s.withNodes N) = some H := by
  choose pinv hp using fun M : Matrix (Fin (edges (run {} slipSquid)).length) (Fin (edges (run {} slipSquid)).length) ℝ => pinv_exists M
  have hb : ∃ b, createFluxBiases (run {} slipSquid) = .ok b := by
    cases hc : createFluxBiases (run {} slipSquid) with
    | ok b => exact ⟨b, rfl⟩
    | error e =>
      have : (match createFluxBiases (run {} slipSquid) with | .ok _ => true | .error _ => false) = true := by decide +kernel
      rw [hc] at this
      cases this
  obtain ⟨b, hb⟩ := hb
  have hL : branchesOf 'L' (branches slipSquid) = [(0, 1, "L1")] := by rw [slipSquid_branches]; decide +kernel
  have hC : branchesOf 'C' (branches slipSquid) = [(0, 1, "C1"), (1, 2, "C2")] := by rw [slipSquid_branches]; decide +kernel
  have hI : branchesOf 'I' (branches slipSquid) = [(0, 1, "I1")] := by rw [slipSquid_branches]; decide +kernel
  have hV : branchesOf 'V' (branches slipSquid) = [(1, 2, "V1")] := by rw [slipSquid_branches]; decide +kernel
  have hg : ∀ val n, Spec.gateCap val slipSquid n = 0 := by
    intro val n
    unfold Spec.gateCap slipSquid
    simp
  let cfg : Fin (nodes (run {} slipSquid)).length → NodeCfg := fun i => if (i : ℕ) = 0 then ⟨7, .oscillator⟩ else ⟨5, .charge⟩
  have hcfg : ∀ i, (cfg i).basis = .charge ∨ (cfg i).basis = .oscillator := by
    intro i
    by_cases hi : (i : ℕ) = 0
    · right; simp [cfg, hi]
    · left; simp [cfg, hi]
  choose o ho hD hS using fun i => node_operators_exist (cfg i) (hcfg i)
  choose N hN using fun i => expandNode_standard (cfg := cfg) (fun i => (hcfg i)) i (o i)
  obtain ⟨sgn, -, -, hop⟩ := C97_operator_partial slipSquid _ slipSquid_settled slipSquid_ok slipSquid_netlist b hb
  have hgr : GroundedBiases (fun _ => 1) slipSquid := by
    intro br hbr _
    rw [hL] at hbr
    refine ⟨1, one_ne_zero, Or.inl ?_, ?_⟩
    · rw [List.mem_singleton.1 hbr]; exact ⟨rfl, rfl⟩
    · intro b' hb' hne
      rw [hL] at hb'
      exact absurd ((List.mem_singleton.1 hb').trans (List.mem_singleton.1 hbr).symm) hne
  have ex : ∀ (val q : String → ℝ) (u : Prefs), 0 < val "C1" → 0 < val "C2" → 0 < val "L1" → ∃ s H,
      assemble (run {} slipSquid) b val (fun _ => 1) q ⟨false, 1⟩ pinv u = .ok s ∧ hamiltonian (s.withNodes N) = some H := by
    intro val q u h1 h2 h3
    obtain ⟨s, C, k1, -, -, -, k2⟩ := hop val (fun _ => 1) q (slipSquid_caps val h1.le h2.le) (slipSquid_conn val h1.ne' h2.ne')
      (by rw [hL]; simpa using h3.ne') hgr pinv hp u cfg o N hN
    exact ⟨s, _, k1, k2⟩
  refine ⟨b, fun _ => 1, fun c => if c = "L1" then 1 / 3 else if c = "I1" ∨ c = "V1" then 3 else 1,
    fun c => if c = "L1" then 1 / 2 else if c = "I1" ∨ c = "V1" then 2 else 1, fun _ => 1, pinv, cfg, o, N, hp, ho, hN, ⟨⟨?_, ?_⟩, ⟨?_, ?_⟩, ?_, ?_, ?_⟩, ?_, ?_, ?_, ?_⟩
  · rw [hC]; simp
  · intro n _; rw [hg, hg]
  · rw [hC]; simp
  · intro n _; rw [hg, hg]
  · rw [hL]; simp; norm_num
  · rw [hI]; simp; norm_num
  · rw [hV]; simp; norm_num
  · simp
  · rw [hL]; simp
  · intro c hc
    simp only [List.mem_cons, List.not_mem_nil, or_false] at hc
    rcases hc with rfl | rfl | rfl <;> simp <;> norm_num
  · intro q u v hv
    simp only [List.mem_cons, List.not_mem_nil, or_false] at hv
    rcases hv with rfl | rfl | rfl
    · exact ex _ q u one_pos one_pos one_pos
    · exact ex _ q u (by simp) (by simp) (by simp)
    · exact ex _ q u (by simp) (by simp) (by simp)

end Verif.Props
