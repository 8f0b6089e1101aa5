import Verif.Props.Classical
import Verif.Props.NetlistMutualExamples
import Verif.Props.NetlistLoaded
import Verif.Spec.ClassicalMutual

/-!
# C76: the classical Hamiltonian of a circuit with mutual inductances
-/

namespace Verif.Props

open Verif Verif.Circuit Verif.Sym Verif.Num Verif.Spec Matrix

/-- The inductive energy at node fluxes `φ`, from the operator identity of C103 over the numbers. -/
theorem coupled_magnetic {h : List Call} {g : CG} (hs : Settled h g) (ha : AllOk h) (hn : LoadedNetlist h) {b : Biases}
    (hb : createFluxBiases g = .ok b) (val phi : String → ℝ) (hgr : GroundedBiases phi h) (hdet : (inductanceMatrix val (biasSign h g) h).det ≠ 0)
    (pinv : Matrix (Fin (edges g).length) (Fin (edges g).length) ℝ → Matrix (Fin (edges g).length) (Fin (edges g).length) ℝ)
    (hp : ∀ M, IsPinv M (pinv M)) (L : Matrix (Fin (nodes g).length) (Fin (nodes g).length) ℝ) (hL : inverseInductance val g pinv = .ok L)
    (φ : ℕ → ℝ) (hφ : φ 0 = 0) :
    quadEnergy L (atNodes g φ) (fluxBiasNodes phi g b) = coupledEnergy val (biasSign h g) h (fun c => biasSign h g c * fluxOn phi h c) φ := by
  obtain ⟨M, hM, rfl⟩ := inverseInductance_ok hL
  set P : Fin (nodes g).length → ℂ := fun i => ((atNodes g φ i : ℝ) : ℂ) with hP
  set f : String → ℝ := fun c => biasSign h g c * fluxOn phi h c with hf
  obtain ⟨J, hJ, hJi⟩ := currents_exist (A := ℂ) (C21_names hs).1 hdet (inductorFlux (nodes g) f P)
  have key := inductive_form hs ha hn hb val phi hgr pinv hp hM P J hJ
  have hat : ∀ n ∈ nodesOf (branches h), atNumber (nodes g) P 0 n = ((φ n : ℝ) : ℂ) := by
    intro n hn'
    unfold atNumber
    split_ifs with hi
    · simp only [hP, atNodes, List.get_eq_getElem, List.getElem_idxOf]
    · rw [List.idxOf_lt_length_iff, (C29_rows h g hs).2] at hi
      have h0 : n = 0 := by
        by_contra h0
        exact hi ⟨hn', h0⟩
      rw [h0, hφ, Complex.ofReal_zero]
  have hflux : ∀ br ∈ branchesOf 'L' (branches h), inductorFlux (nodes g) f P br = ((fluxAcross f φ br : ℝ) : ℂ) := by
    intro br hbr
    have hbr' := (List.mem_filter.1 hbr).1
    have m1 : br.1 ∈ nodesOf (branches h) := List.mem_toFinset.2 (List.mem_flatMap.2 ⟨br, hbr', by simp⟩)
    have m2 : br.2.1 ∈ nodesOf (branches h) := List.mem_toFinset.2 (List.mem_flatMap.2 ⟨br, hbr', by simp⟩)
    unfold inductorFlux fluxAcross
    rw [hat _ m1, hat _ m2, smul_eq_mul, mul_one]
    push_cast
    rfl
  have hcur : ∀ i, J ((branchesOf 'L' (branches h)).get i).2.2 = ((currentIn val (biasSign h g) h f φ i : ℝ) : ℂ) := by
    intro i
    rw [hJi i]
    unfold currentIn
    push_cast
    apply Finset.sum_congr rfl
    intro j _
    rw [hflux _ (List.get_mem _ _), smul_eq_mul]
  have hright : ((branchesOf 'L' (branches h)).map fun br => J br.2.2 * inductorFlux (nodes g) f P br).sum =
      ((∑ i, currentIn val (biasSign h g) h f φ i * fluxAcross f φ ((branchesOf 'L' (branches h)).get i) : ℝ) : ℂ) := by
    rw [← Fin.sum_univ_fun_getElem]
    push_cast
    apply Finset.sum_congr rfl
    intro i _
    have h1 := hcur i
    have h2 := hflux _ (List.get_mem (branchesOf 'L' (branches h)) i)
    rw [List.get_eq_getElem] at h1 h2
    rw [h1, h2]
    rfl
  rw [hright] at key
  unfold quadEnergy coupledEnergy
  congr 1
  apply Complex.ofReal_injective
  rw [← key, fluxBiasNodes_eq hs]
  unfold quadOp
  simp only [dotProduct, Matrix.mulVec]
  have hsum : ∀ i, P i + num ℂ (atNodes g (nodeShift phi g b) i) = (((atNodes g φ + atNodes g (nodeShift phi g b)) i : ℝ) : ℂ) := by
    intro i
    rw [Pi.add_apply, Complex.ofReal_add]
    rfl
  simp only [hsum]
  push_cast
  rfl

/-- **C76 (partial)** With mutual inductances: take any netlist with flux and charge biases, resonators and, after the last branch, mutual
inductances between different inductors, without transform, its inductance matrix invertible, and the biased inductors as in C59.  At node voltages
`v` and node fluxes `φ` the classical Hamiltonian is the energy stored in the capacitors, in the inductors (half of current times flux, the currents
produced by the fluxes through self and mutual inductances) and in the junctions.  Here `sgn` tells in which direction an inductor is counted.  Missing:
transforms (`C76_false_transform`), other biased inductors (C59). -/
theorem C76_coupled_energy_partial (h : List Call) (g : CG) (hs : Settled h g) (ha : AllOk h) (hn : LoadedNetlist h) (b : Biases)
    (hb : createFluxBiases g = .ok b) :
    ∃ sgn : String → ℝ, (∀ c, sgn c = 1 ∨ sgn c = -1) ∧
    (∀ br ∈ branches h, ∀ e ∈ edges g, g.cmap.get? e = some br.2.2 → (sgn br.2.2 = 1 ↔ e.1 = br.1)) ∧
    ∀ (val : String → ℝ) (x : BiasVals) (Phi0 : ℝ) (_ : ∀ s, x.red s = 2 * Real.pi / Phi0 * x.flux s)
      (_ : (inductanceMatrix val sgn h).det ≠ 0) (_ : GroundedBiases x.flux h)
      (C : Mat ℝ) (_ : capacitance val (resonatorCap val) g = .ok C) (R Cinv : Matrix (Fin (nodes g).length) (Fin (nodes g).length) ℝ)
      (_ : inverseCapacitance ⟨false, R⟩ (C.block _ _) = some Cinv)
      (pinv : Matrix (Fin (edges g).length) (Fin (edges g).length) ℝ → Matrix (Fin (edges g).length) (Fin (edges g).length) ℝ)
      (_ : ∀ M, IsPinv M (pinv M)) (L : Matrix (Fin (nodes g).length) (Fin (nodes g).length) ℝ) (_ : inverseInductance val g pinv = .ok L)
      (v φ : ℕ → ℝ) (_ : v 0 = 0) (_ : φ 0 = 0),
    classicalHamiltonian g b val x Cinv (transformInductance ⟨false, R⟩ L)
        ⟨chargeAt g C x.charge v, atNodes g φ, atNodes g fun n => 2 * Real.pi / Phi0 * φ n⟩ =
      electricEnergy h g val v + coupledEnergy val sgn h (fun c => sgn c * fluxOn x.flux h c) φ + cosineEnergy g val Phi0 (biasVal x.flux b.flux) φ ∧
    ∀ n, n ≠ 0 → HasDerivAt (fun y => classicalHamiltonian g b val x Cinv (transformInductance ⟨false, R⟩ L)
        ⟨chargeAt g C x.charge v, atNodes g (Function.update φ n y), atNodes g fun m => 2 * Real.pi / Phi0 * Function.update φ n y m⟩)
      (coupledNodeCurrent g val sgn h (fun c => sgn c * fluxOn x.flux h c) Phi0 (biasVal x.flux b.flux) φ n) (φ n) := by
  refine ⟨biasSign h g, fun c => by unfold biasSign; split_ifs <;> simp, ?_, ?_⟩
  · intro br hbr e he hc
    have hne := hn.ends br hbr
    rcases biasSign_branch hs hn.ends hbr he hc with ⟨k1, -, k3, -⟩ | ⟨k1, -, k3, -⟩
    · rw [k1, k3]; simp
    · rw [k1, k3]
      constructor
      · intro h1; norm_num at h1
      · intro h1; exact absurd h1.symm hne
  intro val x Phi0 hred hdet hgr C hC R Cinv hCi pinv hp L hL v φ hv hφ
  have energy : ∀ φ : ℕ → ℝ, φ 0 = 0 → classicalHamiltonian g b val x Cinv (transformInductance ⟨false, R⟩ L)
        ⟨chargeAt g C x.charge v, atNodes g φ, atNodes g fun n => 2 * Real.pi / Phi0 * φ n⟩ =
      electricEnergy h g val v + coupledEnergy val (biasSign h g) h (fun c => biasSign h g c * fluxOn x.flux h c) φ +
        cosineEnergy g val Phi0 (biasVal x.flux b.flux) φ := by
    intro φ hφ
    have hredb : b.red = b.flux := addBiases_red _ _ _ rfl hb
    unfold classicalHamiltonian
    rw [classicalJosephson_eq hs b hredb val x.flux x.red Phi0 hred φ hφ]
    congr 2
    · unfold inverseCapacitance at hCi
      by_cases hdet : (C.block (nodes g).length (nodes g).length).det = 0
      · rw [if_pos hdet] at hCi; cases hCi
      rw [if_neg hdet] at hCi
      simp only [Bool.false_eq_true, if_false, Option.some.injEq] at hCi
      subst hCi
      unfold quadEnergy chargeAt
      rw [sub_add_cancel, mulVec_mulVec, Matrix.nonsing_inv_mul _ (Ne.isUnit hdet), one_mulVec, dotProduct_comm,
        C29_quadratic_form_partial h g hs val C hC (fun b hb => hn.ends b (List.mem_filter.1 hb).1) v hv]
      unfold electricEnergy
      rw [mul_add, Finset.mul_sum]
      congr 1
      apply Finset.sum_congr rfl
      intro n _
      ring
    · unfold transformInductance
      simp only [Bool.false_eq_true, if_false]
      exact coupled_magnetic hs ha hn hb val x.flux hgr hdet pinv hp L hL φ hφ
  refine ⟨energy φ hφ, fun n hn0 => ?_⟩
  have key : ∀ y, _ = _ := fun y => energy (Function.update φ n y) (by rw [Function.update_of_ne hn0.symm]; exact hφ)
  simp only [key]
  unfold coupledNodeCurrent
  refine HasDerivAt.fun_add (HasDerivAt.const_add _ ?_) ?_
  · set f : String → ℝ := fun c => biasSign h g c * fluxOn x.flux h c with hf
    set Λ := (inductanceMatrix val (biasSign h g) h)⁻¹ with hΛ
    have hsy : ∀ i j, Λ j i = Λ i j := by
      intro i j
      have := transpose_nonsing_inv (inductanceMatrix val (biasSign h g) h)
      rw [inductance_symm] at this
      exact congrFun (congrFun this i) j
    set D : Fin (branchesOf 'L' (branches h)).length → ℝ := fun i => (if ((branchesOf 'L' (branches h)).get i).1 = n then 1 else 0) - (if ((branchesOf 'L' (branches h)).get i).2.1 = n then 1 else 0) with hD
    have hX : ∀ i, HasDerivAt (fun y => fluxAcross f (Function.update φ n y) ((branchesOf 'L' (branches h)).get i)) (D i) (φ n) := by
      intro i
      have h1 : ∀ m, HasDerivAt (fun y => Function.update φ n y m) (if m = n then 1 else 0) (φ n) := by
        intro m
        by_cases hm : m = n
        · subst hm; simpa using hasDerivAt_id' (φ m)
        · simpa [hm] using hasDerivAt_const (φ n) (φ m)
      exact ((h1 _).fun_sub (h1 _)).add_const _
    have hI : ∀ i, HasDerivAt (fun y => currentIn val (biasSign h g) h f (Function.update φ n y) i) (∑ j, Λ i j * D j) (φ n) := by
      intro i
      unfold currentIn
      exact HasDerivAt.fun_sum fun j _ => (hX j).const_mul _
    have hE := (HasDerivAt.fun_sum (u := Finset.univ) fun i _ => (hI i).fun_mul (hX i)).const_mul (1 / 2 : ℝ)
    refine hE.congr_deriv ?_
    simp only [Function.update_eq_self]
    rw [Finset.sum_add_distrib]
    have e1 : ∑ i, (∑ j, Λ i j * D j) * fluxAcross f φ ((branchesOf 'L' (branches h)).get i) = ∑ i, D i * currentIn val (biasSign h g) h f φ i := by
      unfold currentIn
      simp only [Finset.sum_mul, Finset.mul_sum]
      rw [Finset.sum_comm]
      apply Finset.sum_congr rfl; intro i _
      apply Finset.sum_congr rfl; intro j _
      rw [show (inductanceMatrix val (biasSign h g) h)⁻¹ = Λ from rfl, hsy i j]
      ring
    rw [e1]
    have e2 : ∑ i, currentIn val (biasSign h g) h f φ i * D i = ∑ i, D i * currentIn val (biasSign h g) h f φ i :=
      Finset.sum_congr rfl fun i _ => mul_comm _ _
    rw [e2]
    ring
  · unfold cosineEnergy
    apply overBranches_deriv
    intro e c
    have h1 := ((flux_deriv φ n (biasVal x.flux b.flux) e (φ n)).const_mul (2 * Real.pi / Phi0)).cos.const_mul (-(val c))
    refine h1.congr_deriv ?_
    simp only [Function.update_eq_self]
    ring

/-- **C67 (partial)** With mutual inductances: take any netlist with flux biases of junctions, resonators and, after the last branch, mutual inductances
between different inductors, without transform, its inductance matrix invertible, when no inductor is biased and no junction bias has the number of a
node as its suffix.  The potential is built with the inputs of `C67_value_partial` and gives the energy of the inductors, mutual inductances included,
*minus* the energy of the junctions.  Missing as in `C67_value_partial`. -/
theorem C67_coupled_partial (ord : List String → List String) (ho : ∀ l, (ord l).Perm l) (h : List Call) (g : CG) (hs : Settled h g) (ha : AllOk h)
    (hn : LoadedNetlist h) (b : Biases) (hb : createFluxBiases g = .ok b)
    (hind : ∀ e ∈ g.wc, isEdgeOf g 'L' e = .ok true → ∀ s, b.flux.get? e ≠ some (some s))
    (hname : ∀ s ∈ biasesOn g b 'I', ∀ n ∈ nodes g, s ≠ toString n) :
    ∃ sgn : String → ℝ, (∀ c, sgn c = 1 ∨ sgn c = -1) ∧
    (∀ br ∈ branches h, ∀ e ∈ edges g, g.cmap.get? e = some br.2.2 → (sgn br.2.2 = 1 ↔ e.1 = br.1)) ∧
    ∀ (Ej El : ℝ) (val : String → ℝ) (_ : (inductanceMatrix val sgn h).det ≠ 0)
      (pinv : Matrix (Fin (edges g).length) (Fin (edges g).length) ℝ → Matrix (Fin (edges g).length) (Fin (edges g).length) ℝ)
      (_ : ∀ M, IsPinv M (pinv M)) (L : Matrix (Fin (nodes g).length) (Fin (nodes g).length) ℝ) (_ : inverseInductance val g pinv = .ok L),
    ∃ f names, classicalPotential ord g b Ej El val L = .ok (f, names) ∧
      names.Perm ((nodes g).map (fun n => "phi" ++ toString n) ++ (uniq (biasesOn g b 'I')).map ("phi" ++ ·)) ∧
      ∀ (inputs : Dict String ℝ) (φ : ℕ → ℝ) (phi : String → ℝ), φ 0 = 0 →
        (∀ n ∈ nodes g, inputs.get? ("phi" ++ toString n) = some (φ n)) →
        (∀ s ∈ biasesOn g b 'I', inputs.get? ("phi" ++ s) = some (phi s)) →
        f inputs = .ok (El * coupledEnergy val sgn h (fun _ => 0) φ - junctionEnergy g Ej val (biasVal phi b.flux) φ) := by
  refine ⟨biasSign h g, fun c => by unfold biasSign; split_ifs <;> simp, ?_, ?_⟩
  · intro br hbr e he hc
    have hne := hn.ends br hbr
    rcases biasSign_branch hs hn.ends hbr he hc with ⟨k1, -, k3, -⟩ | ⟨k1, -, k3, -⟩
    · rw [k1, k3]; simp
    · rw [k1, k3]
      constructor
      · intro h1; norm_num at h1
      · intro h1; exact absurd h1.symm hne
  intro Ej El val hdet pinv hp L hL
  obtain ⟨f, names, h1, h2, -, h4⟩ := potential_value ord ho h g hs Ej El val L b hind hname
  refine ⟨f, names, h1, h2, fun inputs φ phi h0 hφ hphi => ?_⟩
  have hz : ∀ c, fluxOn (fun _ => (0 : ℝ)) h c = 0 := by
    intro c
    unfold fluxOn
    cases hc : (h.filterMap fun x => match x with
      | .addFluxBias c' (some _) _ => if c' = c then some (0 : ℝ) else none
      | _ => none).head? with
    | none => rfl
    | some y =>
      obtain ⟨x, -, hx⟩ := List.mem_filterMap.1 (List.mem_of_mem_head? hc)
      rw [Option.getD_some]
      split at hx
      · split_ifs at hx
        exact (Option.some.inj hx).symm
      · cases hx
  have key := coupled_magnetic hs ha hn hb val (fun _ => 0) (fun br _ hne => absurd (hz _) hne) hdet pinv hp L hL φ h0
  have hsh : fluxBiasNodes (fun _ => (0 : ℝ)) g b = 0 := by
    unfold fluxBiasNodes
    have : (fun j : Fin (edges g).length => fluxBiasVectorInd (fun _ => (0 : ℝ)) g b j) = 0 := by
      funext j
      unfold fluxBiasVectorInd biasVal
      rw [List.getElem?_eq_getElem j.2]
      simp only
      split_ifs
      · cases b.flux.get? (edges g)[(j : ℕ)] with
        | none => rfl
        | some y => cases y <;> rfl
      · rfl
    rw [this, Matrix.mulVec_zero]
  rw [hsh] at key
  unfold quadEnergy at key
  rw [add_zero] at key
  simp only [hz, mul_zero] at key
  rw [h4 inputs φ phi h0 hφ hphi, ← key]
  congr 2
  ring

/-- The hypotheses of `C76_coupled_energy_partial` are met by the transformer: coupled inductors, a bias on an inductor, a junction. -/
example : ∃ (b : Biases) (val : String → ℝ) (x : BiasVals)
    (pinv : Matrix (Fin (edges (run {} transformer)).length) (Fin (edges (run {} transformer)).length) ℝ →
      Matrix (Fin (edges (run {} transformer)).length) (Fin (edges (run {} transformer)).length) ℝ) (C : Mat ℝ)
    (Cinv L : Matrix (Fin (nodes (run {} transformer)).length) (Fin (nodes (run {} transformer)).length) ℝ),
    Settled transformer (run {} transformer) ∧ AllOk transformer ∧ LoadedNetlist transformer ∧ createFluxBiases (run {} transformer) = .ok b ∧
    (∀ s, x.red s = 2 * Real.pi / 1 * x.flux s) ∧ mutualOf val transformer "L1" "L2" ≠ 0 ∧ fluxOn x.flux transformer "L2" ≠ 0 ∧
    (∀ sgn : String → ℝ, (∀ c, sgn c = 1 ∨ sgn c = -1) → (inductanceMatrix val sgn transformer).det ≠ 0) ∧ GroundedBiases x.flux transformer ∧
    capacitance val (resonatorCap val) (run {} transformer) = .ok C ∧ inverseCapacitance ⟨false, 1⟩ (C.block _ _) = some Cinv ∧
    (∀ M, IsPinv M (pinv M)) ∧ inverseInductance val (run {} transformer) pinv = .ok L := by
  choose pinv hp using fun M : Matrix (Fin (edges (run {} transformer)).length) (Fin (edges (run {} transformer)).length) ℝ => pinv_exists M
  have hb : ∃ b, createFluxBiases (run {} transformer) = .ok b := by
    cases hc : createFluxBiases (run {} transformer) with
    | ok b => exact ⟨b, rfl⟩
    | error e =>
      have : (match createFluxBiases (run {} transformer) with | .ok _ => true | .error _ => false) = true := by decide +kernel
      rw [hc] at this
      cases this
  obtain ⟨b, hb⟩ := hb
  have hL : branchesOf 'L' (branches transformer) = [(0, 1, "L1"), (0, 2, "L2")] := by rw [transformer_branches]; decide +kernel
  have hg : ∀ val n, Spec.gateCap val transformer n = 0 := by
    intro val n
    unfold Spec.gateCap transformer
    simp
  have hm : ∀ val : String → ℝ, mutualOf val transformer "L1" "L2" = val "M1" ∧ mutualOf val transformer "L2" "L1" = val "M1" := by
    intro val
    unfold mutualOf couplings transformer
    simp
  obtain ⟨C, hC, hsym, hform⟩ := coupled_capacitance transformer_settled transformer_ok transformer_netlist (fun c => if c = "M1" then (1 / 2 : ℝ) else 1)
  have hdet := (netlist_det transformer_settled (fun c => if c = "M1" then (1 / 2 : ℝ) else 1)
    ⟨fun _ _ => by positivity, fun n _ => (hg _ n).ge⟩ _ hsym hform).2 (transformer_conn _ (by simp) (by simp))
  obtain ⟨M, hM⟩ := coupled_inductance transformer_settled transformer_ok (coupled_loaded transformer_netlist) hb (fun c => if c = "M1" then (1 / 2 : ℝ) else 1)
  refine ⟨b, fun c => if c = "M1" then 1 / 2 else 1, ⟨fun _ => 0, fun _ => 1, fun _ => 2 * Real.pi⟩, pinv, C, (C.block _ _)⁻¹, toNodes _ (pinv (M.block _ _)),
    transformer_settled, transformer_ok, coupled_loaded transformer_netlist, hb, by simp, ?_, ?_, ?_, ?_, hC, ?_, hp, ?_⟩
  · rw [(hm _).1]; simp
  · unfold fluxOn transformer
    simp
  · intro sgn hsgn
    have hd := det_pair hL (inductanceOf (fun c => if c = "M1" then 1 / 2 else 1) sgn transformer)
    have hd' : (inductanceMatrix (fun c => if c = "M1" then 1 / 2 else 1) sgn transformer).det = _ := hd
    rw [hd']
    unfold inductanceOf
    simp only [(hm _).1, (hm _).2]
    rcases hsgn "L1" with h1 | h1 <;> rcases hsgn "L2" with h2 | h2 <;> rw [h1, h2] <;> simp <;> norm_num
  · intro br hbr hne
    rw [hL] at hbr
    have : br = (0, 1, "L1") ∨ br = (0, 2, "L2") := by simpa using hbr
    rcases this with rfl | rfl
    · refine ⟨1, one_ne_zero, Or.inl ⟨rfl, rfl⟩, ?_⟩
      intro b' hb' hne
      rw [hL] at hb'
      have : b' = (0, 1, "L1") ∨ b' = (0, 2, "L2") := by simpa using hb'
      rcases this with rfl | rfl
      · exact absurd rfl hne
      · exact ⟨by decide, by decide⟩
    · refine ⟨2, by decide, Or.inl ⟨rfl, rfl⟩, ?_⟩
      intro b' hb' hne
      rw [hL] at hb'
      have : b' = (0, 1, "L1") ∨ b' = (0, 2, "L2") := by simpa using hb'
      rcases this with rfl | rfl
      · exact ⟨by decide, by decide⟩
      · exact absurd rfl hne
  · unfold inverseCapacitance
    rw [if_neg hdet]
    simp
  · unfold inverseInductance
    rw [hM]

/-- Two coupled resonators, the bias on the junction. -/
def junctionTransformer : List Call :=
  [.addBranch Orc.id 0 1 "C1", .addBranch Orc.id 0 1 "L1", .addBranch Orc.id 0 2 "C2", .addBranch Orc.id 0 2 "L2", .addBranch Orc.id 0 2 "I1",
    .addFluxBias "I1" (some "z") none, .coupleBranches "L1" "L2" "M1"]

theorem junctionTransformer_branches : branches junctionTransformer = [(0, 1, "C1"), (0, 1, "L1"), (0, 2, "C2"), (0, 2, "L2"), (0, 2, "I1")] := by
  decide +kernel

theorem junctionTransformer_netlist : CoupledNetlist junctionTransformer := by
  refine ⟨?_, after_of_take ?_, ?_, ?_⟩
  · simp only [junctionTransformer, List.mem_cons, List.not_mem_nil, or_false]
    rintro x (rfl | rfl | rfl | rfl | rfl | rfl | rfl)
    all_goals first
      | exact Or.inl ⟨_, _, _, _, rfl⟩
      | exact Or.inr (Or.inl ⟨_, _, _, rfl, fun _ => rfl⟩)
      | exact Or.inr (Or.inr (Or.inr ⟨_, _, _, rfl, by decide⟩))
  · intro i
    fin_cases i <;> simp [junctionTransformer, Circuit.Call.isBranch]
  · rw [junctionTransformer_branches]; decide +kernel
  · rw [junctionTransformer_branches]; decide +kernel

/-- The hypotheses of `C67_coupled_partial` are met by a circuit with coupled inductors and a biased junction. -/
example : ∃ (b : Biases) (val : String → ℝ)
    (pinv : Matrix (Fin (edges (run {} junctionTransformer)).length) (Fin (edges (run {} junctionTransformer)).length) ℝ →
      Matrix (Fin (edges (run {} junctionTransformer)).length) (Fin (edges (run {} junctionTransformer)).length) ℝ)
    (L : Matrix (Fin (nodes (run {} junctionTransformer)).length) (Fin (nodes (run {} junctionTransformer)).length) ℝ),
    Settled junctionTransformer (run {} junctionTransformer) ∧ AllOk junctionTransformer ∧ LoadedNetlist junctionTransformer ∧
    createFluxBiases (run {} junctionTransformer) = .ok b ∧
    (∀ e ∈ (run {} junctionTransformer).wc, isEdgeOf (run {} junctionTransformer) 'L' e = .ok true → ∀ s, b.flux.get? e ≠ some (some s)) ∧
    biasesOn (run {} junctionTransformer) b 'I' = ["z"] ∧
    (∀ s ∈ biasesOn (run {} junctionTransformer) b 'I', ∀ n ∈ nodes (run {} junctionTransformer), s ≠ toString n) ∧
    (∀ sgn : String → ℝ, (∀ c, sgn c = 1 ∨ sgn c = -1) → (inductanceMatrix val sgn junctionTransformer).det ≠ 0) ∧
    mutualOf val junctionTransformer "L1" "L2" ≠ 0 ∧
    (∀ M, IsPinv M (pinv M)) ∧ inverseInductance val (run {} junctionTransformer) pinv = .ok L := by
  choose pinv hp using fun M : Matrix (Fin (edges (run {} junctionTransformer)).length) (Fin (edges (run {} junctionTransformer)).length) ℝ => pinv_exists M
  have hs : Settled junctionTransformer (run {} junctionTransformer) :=
    ⟨[.addBranch Orc.id 0 1 "C1", .addBranch Orc.id 0 1 "L1", .addBranch Orc.id 0 2 "C2", .addBranch Orc.id 0 2 "L2"], Orc.id, 0, 2, "I1",
      [.addFluxBias "I1" (some "z") none, .coupleBranches "L1" "L2" "M1"],
      rfl, by simp [junctionTransformer, Call.OK, orcId_ok], by decide +kernel, by simp, rfl⟩
  have ha : AllOk junctionTransformer := by
    apply allOk_of_prefixes
    decide +kernel
  have hall : (match createFluxBiases (run {} junctionTransformer) with
      | .ok b => decide (biasesOn (run {} junctionTransformer) b 'I' = ["z"]) && (run {} junctionTransformer).wc.all (fun e =>
        match isEdgeOf (run {} junctionTransformer) 'L' e, b.flux.get? e with
        | .ok true, some (some _) => false
        | _, _ => true) && (nodes (run {} junctionTransformer)).all (fun n => decide ("z" ≠ toString n))
      | .error _ => false) = true := by decide +kernel
  cases hb : createFluxBiases (run {} junctionTransformer) with
  | error e => rw [hb] at hall; cases hall
  | ok b =>
    rw [hb] at hall
    simp only [Bool.and_eq_true, decide_eq_true_eq, List.all_eq_true] at hall
    obtain ⟨⟨k1, k2⟩, k3⟩ := hall
    have hL : branchesOf 'L' (branches junctionTransformer) = [(0, 1, "L1"), (0, 2, "L2")] := by rw [junctionTransformer_branches]; decide +kernel
    have hm : ∀ val : String → ℝ, mutualOf val junctionTransformer "L1" "L2" = val "M1" ∧ mutualOf val junctionTransformer "L2" "L1" = val "M1" := by
      intro val
      unfold mutualOf couplings junctionTransformer
      simp
    obtain ⟨M, hM⟩ := coupled_inductance hs ha (coupled_loaded junctionTransformer_netlist) hb (fun c => if c = "M1" then (1 / 2 : ℝ) else 1)
    refine ⟨b, fun c => if c = "M1" then 1 / 2 else 1, pinv, toNodes _ (pinv (M.block _ _)), hs, ha, coupled_loaded junctionTransformer_netlist, rfl, ?_, k1,
      ?_, ?_, ?_, hp, ?_⟩
    · intro e he hi s hse
      have := k2 e he
      rw [hi, hse] at this
      cases this
    · intro s hsm n hn
      rw [k1, List.mem_singleton] at hsm
      rw [hsm]
      exact k3 n hn
    · intro sgn hsgn
      have hd := det_pair hL (inductanceOf (fun c => if c = "M1" then 1 / 2 else 1) sgn junctionTransformer)
      have hd' : (inductanceMatrix (fun c => if c = "M1" then 1 / 2 else 1) sgn junctionTransformer).det = _ := hd
      rw [hd']
      unfold inductanceOf
      simp only [(hm _).1, (hm _).2]
      rcases hsgn "L1" with h1 | h1 <;> rcases hsgn "L2" with h2 | h2 <;> rw [h1, h2] <;> simp <;> norm_num
    · rw [(hm _).1]; simp
    · unfold inverseInductance
      rw [hM]

end Verif.Props
