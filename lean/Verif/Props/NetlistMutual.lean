import Verif.Lemmas.NetlistMutual

/-!
# C103: from the calls to the operator, for circuits with mutual inductances
-/

namespace Verif.Props

open Verif Verif.Circuit Verif.Sym Verif.Num Verif.Spec Complex Matrix

theorem coupled_capacitance {h : List Call} {g : CG} (hs : Settled h g) (ha : AllOk h) (hn : CoupledNetlist h) (val : String → ℝ) :
    ∃ M, capacitance val (resonatorCap val) g = .ok M ∧ (M.block (nodes g).length (nodes g).length).transpose = M.block _ _ ∧
      ∀ v : ℕ → ℝ, v 0 = 0 → atNodes g v ⬝ᵥ (M.block (nodes g).length (nodes g).length).mulVec (atNodes g v) = electrostaticForm val h v := by
  obtain ⟨M, hM⟩ := C29_defined h g hs ha hn.ground val
  refine ⟨M, hM, C29_symmetric val g M hM, fun v hv => ?_⟩
  obtain ⟨rfl, hok⟩ := settled_run hs
  rw [C29_quadratic_form_partial h _ hs val M hM (fun b hb => hn.ends b (List.mem_filter.1 hb).1) v hv]
  unfold electrostaticForm
  congr 1
  apply Finset.sum_congr rfl
  intro n _
  have hl : resonatorLoad val (run {} h) n = 0 := by
    have := coupled_frame hn n
    unfold resonatorLoad
    cases hr : (run {} h).resonators.get? n with
    | none => rfl
    | some r => cases r with
      | none => rfl
      | some r => exact absurd hr (this r)
  rw [hl, add_zero, gateCap_stored hok ha]

theorem coupled_inductance {h : List Call} {g : CG} (hs : Settled h g) (ha : AllOk h) (hn : LoadedNetlist h) {b : Biases}
    (hb : createFluxBiases g = .ok b) (val : String → ℝ) : ∃ M, branchInductance val g = .ok M := by
  rw [C30_defined h g hs val]
  obtain ⟨rfl, hok⟩ := settled_run hs
  refine ⟨?_, (couplings_run hs ha hn).2.1⟩
  rintro e he ⟨c, hc, hL⟩ x hx
  have hbf := biasesFrom hok ha
  obtain ⟨hnd, -, -⟩ := C24_history h hok
  obtain ⟨h1, -⟩ := addBiases_get _ _ _ hnd hb
  have hwc : ∀ q ∈ (run {} h).fluxBias, q.1 ∈ (run {} h).wc := by
    intro q hq
    have := (h1 q hq).1
    rw [Dict.has_iff] at this
    simpa [Dict.keys, Function.comp_def, edges] using this
  have hmem : (e, x) ∈ (run {} h).fluxBias := Dict.mem_of_get? hx
  obtain ⟨c', m, p, k1, k2, k3⟩ := hbf.flux _ hmem
  have hcc : c = c' := by rw [← k3]; exact (names_of_carries hok k2).2.1 _ hc
  subst hcc
  obtain ⟨s', e', p', e1, e2, e3, e4⟩ := hbf.flux' _ _ _ k1
  have hee : e' = e := by
    obtain ⟨b', -, -, hc'⟩ := wc_branch hs (hwc _ e2)
    have := (names_of_carries hok e3).2.1 _ hc'
    exact wc_name_inj hs (hwc _ e2) he (hc'.trans (by rw [this, e4])) hc
  subst hee
  have hm : m = none := hn.biases _ _ _ k1 hL
  have := (Dict.get?_of_mem hnd e2).symm.trans hx
  rw [← Option.some.inj this, hm]

/-- The Hamiltonian up to the inductors. -/
theorem hamiltonian_core {h : List Call} {g : CG} (hs : Settled h g) (ha : AllOk h) (hends : ∀ b ∈ branches h, b.1 ≠ b.2.1) {b : Biases}
    (hb : createFluxBiases g = .ok b) (val phi q : String → ℝ)
    (pinv : Matrix (Fin (edges g).length) (Fin (edges g).length) ℝ → Matrix (Fin (edges g).length) (Fin (edges g).length) ℝ)
    (u : Prefs) (cfg : Fin (nodes g).length → NodeCfg) (o : ∀ i, NodeOps (cfg i).dim)
    (N : Fin (nodes g).length → BigNode cfg) (hN : ∀ i, expandNode cfg i (o i) = some (N i)) {C M : Mat ℝ}
    (hC : capacitance val (resonatorCap val) g = .ok C) (hdet : (C.block (nodes g).length (nodes g).length).det ≠ 0)
    (hM : branchInductance val g = .ok M) :
    ∃ s, assemble g b val phi q ⟨false, 1⟩ pinv u = .ok s ∧ hamiltonian (s.withNodes N) =
      some (netlistOperator (nodes g) h u.Ec 0 u.Ej u.Ep (C.block _ _) val (gateCharge q h) (fun c => biasSign h g c * fluxOn phi h c) (nodeOperators N) +
        num (BigOp cfg) (u.El * (1 / 2)) * quadOp (num (BigOp cfg)) (toNodes g (pinv (M.block _ _)))
          (fun i => (N i).P + num (BigOp cfg) (atNodes g (nodeShift phi g b) i))) := by
  have hsok : ∃ s, assemble g b val phi q ⟨false, 1⟩ pinv u = .ok s := by
    unfold assemble
    simp only [hC, hM]
    unfold inverseCapacitance
    simp [hdet]
  obtain ⟨s, hsok⟩ := hsok
  have hsok' := hsok
  unfold assemble at hsok
  simp only [hC] at hsok
  unfold inverseCapacitance at hsok
  rw [if_neg hdet] at hsok
  simp only at hsok
  rw [hM] at hsok
  have hseq := (Except.ok.inj hsok).symm
  refine ⟨s, hsok', ?_⟩
  -- the numbers
  have hu : s.u = u := by rw [hseq]
  have hCi : s.Cinv = (C.block (nodes g).length (nodes g).length)⁻¹ := by rw [hseq]; rfl
  have hL : s.Linv = toNodes g (pinv (M.block _ _)) := by rw [hseq]; rfl
  have hQb : ∀ i : Fin (nodes g).length, s.Qb i = gateCharge q h ((nodes g).get i) := by
    intro i
    rw [hseq]
    show chargeBiasVector q g i = _
    obtain ⟨rfl, hok⟩ := settled_run hs
    rw [gateCharge_eq hok ha]
    unfold chargeBiasVector
    rw [List.getElem?_eq_getElem i.2]
    rfl
  have hPbi : s.Pbi = atNodes g (nodeShift phi g b) := by
    rw [hseq]; exact fluxBiasNodes_eq hs phi b
  have ht : ∀ k, s.terms k = branchTerms g (fun i j => if i = j then 1 else 0) ((edges g).get k) := by
    intro k
    rw [hseq]
    exact identity_terms hs 1 rfl (List.get_mem _ _)
  have hcomm : ∀ i j, i ≠ j → (N i).D * (N j).Ddag = (N j).Ddag * (N i).D ∧ (N i).S * (N j).Sdag = (N j).Sdag * (N i).S := by
    intro i j hij
    obtain ⟨-, -, d1, d2, d3, d4⟩ := expandNode_some (hN i)
    obtain ⟨-, -, e1, e2, e3, e4⟩ := expandNode_some (hN j)
    exact ⟨C39_commute cfg i j hij _ _ _ _ d1 e2, C39_commute cfg i j hij _ _ _ _ d3 e4⟩
  -- the loops
  have hJ := branch_loop hs hends 'I' (by decide) val s.J s.Pb (fun _ _ c σ => σ * fluxOn phi h c) (by intros; ring)
    (by
      intro k c hc
      rw [hseq]
      show josephsonVector val g k = _
      unfold josephsonVector
      have hc' : g.cmap.get? ((edges g)[(k : ℕ)]'k.2) = some c := hc
      rw [List.getElem?_eq_getElem k.2]
      simp only [hc', ← startsWith_iff])
    (by
      intro k c hc hI
      rw [hseq]
      show fluxBiasVector phi g b k = _
      unfold fluxBiasVector
      have hc' : g.cmap.get? ((edges g)[(k : ℕ)]'k.2) = some c := hc
      rw [List.getElem?_eq_getElem k.2]
      simp only
      rw [if_pos, biasVal_eq hs ha hb phi (List.getElem_mem k.2) hc', one_mul]
      unfold isEdgeOf
      rw [hc']
      simp [(startsWith_iff _ _).1 hI])
    s.terms ht (fun i => (N i).D) (fun i => (N i).Ddag) (fun i j hij => (hcomm i j hij).1)
  have hV := branch_loop hs hends 'V' (by decide) val s.Ps s.Qbt
    (fun a b _ _ => (if a = 0 then 0 else gateCharge q h a) - if b = 0 then 0 else gateCharge q h b) (by intros; ring)
    (by
      intro k c hc
      rw [hseq]
      show phaseSlipVector val g k = _
      unfold phaseSlipVector
      have hc' : g.cmap.get? ((edges g)[(k : ℕ)]'k.2) = some c := hc
      rw [List.getElem?_eq_getElem k.2]
      simp only [hc', ← startsWith_iff])
    (by
      intro k c hc hI
      have h1 : s.Qbt = branchFluxes g s.Qb := by rw [hseq]; rfl
      have h2 : s.Qb = fun i => (fun n => if n = 0 then 0 else gateCharge q h n) ((nodes g).get i) := by
        funext i
        rw [hQb]
        have := ((C29_rows h g hs).2 ((nodes g).get i)).1 (List.get_mem _ _)
        dsimp only
        rw [if_neg this.2]
      rw [h1, h2]
      exact branchFluxes_eq hs (fun n => if n = 0 then 0 else gateCharge q h n) (by simp) k)
    s.terms ht (fun i => (N i).S) (fun i => (N i).Sdag) (fun i j hij => (hcomm i j hij).2)
  unfold hamiltonian
  have hJ' : branchSum (num (BigOp cfg) (1 / 2)) (s.withNodes N).D (s.withNodes N).Ddag ((josBranches (s.withNodes N)).map (josData (s.withNodes N))) 0 = _ := hJ
  have hV' : branchSum (num (BigOp cfg) (1 / 2)) (s.withNodes N).S (s.withNodes N).Sdag ((slipBranches (s.withNodes N)).map (slipData (s.withNodes N))) 0 = _ := hV
  rw [hJ', hV']
  dsimp only
  congr 1
  unfold netlistOperator
  have hu' : (s.withNodes N).u = u := hu
  have hzero : ((branchesOf 'L' (branches h)).map fun br => ((0 / (2 * val br.2.2) : ℝ) : ℂ) •
      (atNumber (nodes g) (nodeOperators N).P 0 br.1 - atNumber (nodes g) (nodeOperators N).P 0 br.2.1 +
        (((fun c => biasSign h g c * fluxOn phi h c) br.2.2 : ℝ) : ℂ) • (1 : BigOp cfg)) ^ 2).sum = 0 := by
    apply List.sum_eq_zero
    intro x hx
    obtain ⟨br, -, rfl⟩ := List.mem_map.1 hx
    simp
  rw [hzero, add_zero, sub_eq_add_neg, sub_eq_add_neg, hu']
  unfold linearPart
  rw [hu']
  have hLin : (s.withNodes N).Linv = toNodes g (pinv (M.block _ _)) := hL
  have hPb2 : (s.withNodes N).Pbi = atNodes g (nodeShift phi g b) := hPbi
  rw [hLin, hPb2]
  have e1 : num (BigOp cfg) (u.Ec * (1 / 2)) * quadOp (num (BigOp cfg)) (s.withNodes N).Cinv (fun i => (s.withNodes N).Q i + num (BigOp cfg) ((s.withNodes N).Qb i)) =
      ((u.Ec / 2 : ℝ) : ℂ) • (∑ i, ∑ j, (((C.block (nodes g).length (nodes g).length)⁻¹ i j : ℝ) : ℂ) •
        (((nodeOperators N).Q i + ((gateCharge q h ((nodes g).get i) : ℝ) : ℂ) • 1) * ((nodeOperators N).Q j + ((gateCharge q h ((nodes g).get j) : ℝ) : ℂ) • 1))) := by
    rw [quadOp_smul, num_smul]
    congr 1
    · congr 1; ring
    apply Finset.sum_congr rfl; intro i _
    apply Finset.sum_congr rfl; intro j _
    have h1 : (s.withNodes N).Cinv = (C.block (nodes g).length (nodes g).length)⁻¹ := hCi
    have h2 : ∀ i, (s.withNodes N).Qb i = gateCharge q h ((nodes g).get i) := hQb
    rw [h1, h2, h2, num_one, num_one]
    rfl
  rw [e1, num_smul u.Ej, num_smul u.Ep, smul_neg, smul_neg, List.smul_sum, List.smul_sum, List.map_map, List.map_map]
  have e2 : ∀ (E : ℝ) (l : List (ℕ × ℕ × String)) (F : ℕ × ℕ × String → BigOp cfg),
      (l.map ((fun x => ((E : ℝ) : ℂ) • x) ∘ fun b => ((val b.2.2 / 2 : ℝ) : ℂ) • F b)).sum =
        (l.map fun b => ((E * val b.2.2 / 2 : ℝ) : ℂ) • F b).sum := by
    intro E l F
    congr 1
    apply List.map_congr_left
    intro br _
    dsimp only [Function.comp]
    rw [smul_smul]
    congr 1
    push_cast
    ring
  rw [e2, e2]
  show _ + num (BigOp cfg) (u.El * (1 / 2)) * quadOp (num (BigOp cfg)) (toNodes g (pinv (M.block _ _)))
    (fun i => (N i).P + num (BigOp cfg) (atNodes g (nodeShift phi g b) i)) + _ + _ = _
  abel

/-- The inductors: half the form of the inverse inductance matrix is half the sum of current times flux, for currents that produce the fluxes. -/
theorem inductive_form {A : Type} [Ring A] [Algebra ℂ A] {h : List Call} {g : CG} (hs : Settled h g) (ha : AllOk h) (hn : LoadedNetlist h) {b : Biases}
    (hb : createFluxBiases g = .ok b) (val phi : String → ℝ) (hgr : GroundedBiases phi h)
    (pinv : Matrix (Fin (edges g).length) (Fin (edges g).length) ℝ → Matrix (Fin (edges g).length) (Fin (edges g).length) ℝ)
    (hp : ∀ M, IsPinv M (pinv M)) {M : Mat ℝ} (hM : branchInductance val g = .ok M) (P : Fin (nodes g).length → A) (J : String → A)
    (hJ : Produces val (biasSign h g) h J (inductorFlux (nodes g) (fun c => biasSign h g c * fluxOn phi h c) P)) :
    quadOp (num A) (toNodes g (pinv (M.block _ _))) (fun i => P i + num A (atNodes g (nodeShift phi g b) i)) =
      ((branchesOf 'L' (branches h)).map fun br => J br.2.2 * inductorFlux (nodes g) (fun c => biasSign h g c * fluxOn phi h c) P br).sum := by
  have hr : ∀ x (a : A), num A x * a = a * num A x := fun x a => Algebra.commutes _ a
  have hsg : ∀ c, biasSign h g c * biasSign h g c = 1 := by
    intro c; unfold biasSign; split_ifs <;> norm_num
  set σ := biasSign h g with hσ
  set W := M.block (edges g).length (edges g).length with hW
  set x : Fin (nodes g).length → A := fun i => P i + num A (atNodes g (nodeShift phi g b) i) with hx
  have hsym : Wᵀ = W := by
    obtain ⟨_, _, h3⟩ := branchInductance_ok hM
    ext i j; exact h3 _ _
  rw [toNodes, quadOp_conj (num A) hr]
  set y := ((Mat.block (K := ℝ) (incidence g) (nodes g).length (edges g).length)ᵀ.map (num A)) *ᵥ x with hy
  have hat : ∀ n ∈ nodesOf (branches h), ¬ (nodes g).idxOf n < (nodes g).length → n = 0 := by
    intro n hn' hi
    rw [List.idxOf_lt_length_iff, (C29_rows h g hs).2] at hi
    by_contra h0
    exact hi ⟨hn', h0⟩
  have hxn : ∀ n ∈ nodesOf (branches h), atNumber (nodes g) x 0 n = atNumber (nodes g) P 0 n + num A (nodeShift phi g b n) := by
    intro n hn1
    unfold atNumber
    split_ifs with hi
    · simp only [hx, atNodes, List.get_eq_getElem, List.getElem_idxOf]
    · rw [hat n hn1 hi]
      simp [nodeShift]
  -- the flux of an inductive edge
  have hyk : ∀ k c, g.cmap.get? ((edges g).get k) = some c → startsWith c 'L' = true →
      y k = atNumber (nodes g) P 0 ((edges g).get k).1 - atNumber (nodes g) P 0 ((edges g).get k).2.1 + num A (fluxOn phi h c) := by
    intro k c hc hcL
    have he : (edges g).get k ∈ g.wc := List.get_mem _ _
    have h1 : y k = ∑ i, num A (coef (nodes g) (((edges g).get k).1, ((edges g).get k).2.1, c) i) * x i := by
      rw [hy]
      simp only [Matrix.mulVec, dotProduct, Matrix.map_apply, Matrix.transpose_apply, incidence_eq]
      apply Finset.sum_congr rfl
      intro i _
      unfold coef
      simp only [eq_comm]
    rw [h1, coef_sum (num A) (C29_rows h g hs).1]
    obtain ⟨br, hbr, hbe, hcb⟩ := wc_branch hs he
    have hbr' := (List.mem_filter.1 hbr).1
    have m1 : br.1 ∈ nodesOf (branches h) := List.mem_toFinset.2 (List.mem_flatMap.2 ⟨br, hbr', by simp⟩)
    have m2 : br.2.1 ∈ nodesOf (branches h) := List.mem_toFinset.2 (List.mem_flatMap.2 ⟨br, hbr', by simp⟩)
    have hk := nodeShift_diff hs phi b (grounded_edges hs ha hb hgr) he ⟨_, hc, hcL⟩
    rw [biasVal_eq hs ha hb phi he hc] at hk
    rw [← hk, map_sub]
    rcases hbe with ⟨k1, k2⟩ | ⟨k1, k2⟩
    · dsimp only; rw [k1, k2, hxn _ m1, hxn _ m2]; abel
    · dsimp only; rw [k1, k2, hxn _ m1, hxn _ m2]; abel
  -- the currents
  let I : Fin (edges g).length → A := fun k => match g.cmap.get? ((edges g).get k) with
    | some c => if startsWith c 'L' = true then num A (σ c) * J c else 0
    | none => 0
  have hI : ∀ k c, g.cmap.get? ((edges g).get k) = some c → I k = if startsWith c 'L' = true then num A (σ c) * J c else 0 := by
    intro k c hc; simp only [I, hc]
  have hWI : ∀ k c, g.cmap.get? ((edges g).get k) = some c → startsWith c 'L' = true → ((W.map (num A)) *ᵥ I) k = y k := by
    intro k c hc hcL
    have he : (edges g).get k ∈ g.wc := List.get_mem _ _
    obtain ⟨br, hbr, -, hcb⟩ := wc_branch hs he
    have hbr' := (List.mem_filter.1 hbr).1
    obtain rfl : br.2.2 = c := Option.some.inj (hcb.symm.trans hc)
    have hJb := hJ br (List.mem_filter.2 ⟨hbr', hcL⟩)
    have h1 : ((W.map (num A)) *ᵥ I) k = ((branchesOf 'L' (branches h)).map fun b' =>
        num A ((if br.2.2 = b'.2.2 then val br.2.2 else mutualOf val h br.2.2 b'.2.2) * σ b'.2.2) * J b'.2.2).sum := by
      simp only [Matrix.mulVec, dotProduct, Matrix.map_apply]
      refine sum_netlist hs hn.ends 'L' (by decide) (fun _ _ c' _ =>
        num A ((if br.2.2 = c' then val br.2.2 else mutualOf val h br.2.2 c') * σ c') * J c') (fun _ _ _ _ _ => rfl) _ ?_
      intro j c' hc'
      rw [hI j c' hc']
      by_cases hL' : startsWith c' 'L' = true
      · rw [if_pos hL', if_pos hL']
        have : W k j = if br.2.2 = c' then val br.2.2 else mutualOf val h br.2.2 c' := branch_entry hs ha hn val hM k j hc hc' hcL
        rw [this, map_mul, mul_assoc]
      · rw [if_neg hL', if_neg hL', mul_zero]
    have h2 : ((W.map (num A)) *ᵥ I) k = num A (σ br.2.2) * inductorFlux (nodes g) (fun c => σ c * fluxOn phi h c) P br := by
      rw [h1, ← hJb, ← List.sum_map_mul_left]
      congr 1
      apply List.map_congr_left
      intro b' _
      rw [← num_smul, ← mul_assoc, ← map_mul]
      congr 2
      unfold inductanceOf
      by_cases hcc : br.2.2 = b'.2.2
      · rw [if_pos hcc, if_pos hcc, hcc, mul_comm]
      · rw [if_neg hcc, if_neg hcc, ← mul_assoc, ← mul_assoc, hsg, one_mul, mul_comm]
    rw [h2, hyk k _ hc hcL]
    unfold inductorFlux
    rw [← num_one]
    rcases biasSign_branch hs hn.ends hbr' he hc with ⟨k1, k2, k3, -⟩ | ⟨k1, k2, k3, -⟩
    · dsimp only; rw [k1, k2, hσ, k3]; simp
    · dsimp only; rw [k1, k2, hσ, k3]; simp; abel
  let z := y - (W.map (num A)) *ᵥ I
  have hz : (W.map (num A)) *ᵥ z = 0 := by
    funext i
    simp only [Matrix.mulVec, dotProduct, Matrix.map_apply, Pi.zero_apply]
    apply Finset.sum_eq_zero
    intro j _
    by_cases hj : IsInductor g ((edges g).get j)
    · obtain ⟨c, hc, hcL⟩ := hj
      have : z j = 0 := by simp only [z, Pi.sub_apply]; rw [hWI j c hc hcL, sub_self]
      rw [this, mul_zero]
    · have : W i j = 0 := by
        have h1 := C30_branch_matrix h g hs val M hM j i
        have h2 := h1.2.1 hj
        change M i j = 0
        rw [← h1.1, h2]
      rw [this, map_zero, zero_mul]
  have hyz : y = (W.map (num A)) *ᵥ I + z := by simp [z]
  rw [hyz, quadOp_pinv (num A) hr hsym (hp W) I z hz]
  unfold dotProduct
  rw [sum_netlist hs hn.ends 'L' (by decide) (fun a b c s => J c * (num A (σ c * s) *
    (atNumber (nodes g) P 0 a - atNumber (nodes g) P 0 b + num A (s * fluxOn phi h c))))]
  · congr 1
    apply List.map_congr_left
    intro br _
    rw [← hσ, hsg, map_one, one_mul]
    unfold inductorFlux
    rw [num_one]
  · intro a b c s _
    congr 1
    have e1 : num A (σ c * -s) = -num A (σ c * s) := by rw [mul_neg, map_neg]
    have e2 : num A (-s * fluxOn phi h c) = -num A (s * fluxOn phi h c) := by rw [neg_mul, map_neg]
    rw [e1, e2, neg_mul, ← mul_neg]
    congr 1
    abel
  · intro k c hc
    rw [hI k c hc]
    by_cases hcL : startsWith c 'L' = true
    · rw [if_pos hcL, if_pos hcL, hWI k c hc hcL, hyk k c hc hcL, hr, mul_one, one_mul, mul_assoc]
    · rw [if_neg hcL, if_neg hcL, zero_mul]

/-- **C103 (partial)** From the calls to the operator that is diagonalised, with mutual inductances: take any netlist of capacitors, inductors,
junctions and phase slips between different nodes, with flux and charge biases and, after the last branch, mutual inductances between
different inductors, all calls successful; no transform.  For all values of components and biases for which every node is connected to the
ground through capacitors, and all operators of the nodes: if the currents `J` in the inductors produce, through the self and mutual inductances,
the fluxes of the inductors (flux difference of the nodes plus bias), then the Hamiltonian exists and is the operator of the netlist without its
inductors, plus half the sum of current times flux.  Biases and mutual inductances count in the directions in which the oriented circuit graph
lists the inductors, which need not be those in which they were added (`C103_directions_false`).
Missing: biased inductors at a node with another inductor or away from the ground, for which it is false (`C59_false`); inductors coupled to
themselves and branches added after a mutual inductance (`C27_self_coupling_false`, `C27_coupled_twice_false`); transforms; resonators (`C104_operator_partial`). -/
theorem C103_currents_partial (h : List Call) (g : CG) (hs : Settled h g) (ha : AllOk h) (hn : CoupledNetlist h) (b : Biases)
    (hb : createFluxBiases g = .ok b) :
    ∃ sgn : String → ℝ, (∀ c, sgn c = 1 ∨ sgn c = -1) ∧
    (∀ br ∈ branches h, ∀ e ∈ edges g, g.cmap.get? e = some br.2.2 → (sgn br.2.2 = 1 ↔ e.1 = br.1)) ∧
    ∀ (val phi q : String → ℝ) (_ : NonnegCaps val h) (_ : ∀ n ∈ nodesOf (branches h), Conn (capacitiveNet val h) n 0)
      (_ : GroundedBiases phi h)
      (pinv : Matrix (Fin (edges g).length) (Fin (edges g).length) ℝ → Matrix (Fin (edges g).length) (Fin (edges g).length) ℝ)
      (_ : ∀ M, IsPinv M (pinv M)) (u : Prefs) (cfg : Fin (nodes g).length → NodeCfg) (o : ∀ i, NodeOps (cfg i).dim)
      (N : Fin (nodes g).length → BigNode cfg) (_ : ∀ i, expandNode cfg i (o i) = some (N i)),
    ∃ s C, assemble g b val phi q ⟨false, 1⟩ pinv u = .ok s ∧ C.transpose = C ∧ C.det ≠ 0 ∧
      (∀ v : ℕ → ℝ, v 0 = 0 → atNodes g v ⬝ᵥ C.mulVec (atNodes g v) = electrostaticForm val h v) ∧
      ∀ J : String → BigOp cfg, Produces val sgn h J (inductorFlux (nodes g) (fun c => sgn c * fluxOn phi h c) fun i => (N i).P) →
      hamiltonian (s.withNodes N) = some (netlistOperator (nodes g) h u.Ec 0 u.Ej u.Ep C val (gateCharge q h)
        (fun c => sgn c * fluxOn phi h c) (nodeOperators N) + ((u.El / 2 : ℝ) : ℂ) • ((branchesOf 'L' (branches h)).map fun br =>
          J br.2.2 * inductorFlux (nodes g) (fun c => sgn c * fluxOn phi h c) (fun i => (N i).P) br).sum) := by
  refine ⟨biasSign h g, fun c => by unfold biasSign; split_ifs <;> simp, ?_, ?_⟩
  · intro br hbr e he hc
    have hne := hn.ends br hbr
    rcases biasSign_branch hs hn.ends hbr he hc with ⟨k1, -, k3, -⟩ | ⟨k1, -, k3, -⟩
    · rw [k1, k3]; simp
    · rw [k1, k3]
      constructor
      · intro h1; norm_num at h1
      · intro h1; exact absurd h1.symm hne
  intro val phi q hv hconn hgr pinv hp u cfg o N hN
  obtain ⟨C, hC, hsym, hform⟩ := coupled_capacitance hs ha hn val
  have hdet := (netlist_det hs val hv _ hsym hform).2 hconn
  obtain ⟨M, hM⟩ := coupled_inductance hs ha (coupled_loaded hn) hb val
  obtain ⟨s, hsok, hham⟩ := hamiltonian_core hs ha hn.ends hb val phi q pinv u cfg o N hN hC hdet hM
  refine ⟨s, C.block _ _, hsok, hsym, hdet, hform, fun J hJ => ?_⟩
  rw [hham, inductive_form hs ha (coupled_loaded hn) hb val phi hgr pinv hp hM (fun i => (N i).P) J hJ, num_smul]
  congr 4
  ring

theorem mutualOf_comm (val : String → ℝ) (h : List Call) (c c' : String) : mutualOf val h c c' = mutualOf val h c' c := by
  unfold mutualOf
  congr 2
  apply List.filter_congr
  intro k _
  simp only [decide_eq_decide]
  exact or_comm

theorem inductance_symm (val sgn : String → ℝ) (h : List Call) : (inductanceMatrix val sgn h)ᵀ = inductanceMatrix val sgn h := by
  ext i j
  rw [transpose_apply]
  unfold inductanceMatrix inductanceOf
  by_cases hc : ((branchesOf 'L' (branches h)).get j).2.2 = ((branchesOf 'L' (branches h)).get i).2.2
  · rw [if_pos hc, if_pos hc.symm, hc]
  · rw [if_neg hc, if_neg (Ne.symm hc), mutualOf_comm]
    ring

/-- If the inductance matrix is invertible, there are currents that produce any given fluxes. -/
theorem currents_exist {A : Type} [Ring A] [Algebra ℂ A] {val sgn : String → ℝ} {h : List Call} (hnd : ((branches h).map fun b => b.2.2).Nodup)
    (hdet : (inductanceMatrix val sgn h).det ≠ 0) (X : ℕ × ℕ × String → A) :
    ∃ J : String → A, Produces val sgn h J X ∧ ∀ i, J ((branchesOf 'L' (branches h)).get i).2.2 =
      ∑ j, (((inductanceMatrix val sgn h)⁻¹ i j : ℝ) : ℂ) • X ((branchesOf 'L' (branches h)).get j) := by
  have hndL : ((branchesOf 'L' (branches h)).map fun b => b.2.2).Nodup := hnd.sublist (List.Sublist.map _ List.filter_sublist)
  have hinv : inductanceMatrix val sgn h * (inductanceMatrix val sgn h)⁻¹ = 1 :=
    Matrix.mul_nonsing_inv _ (isUnit_iff_ne_zero.2 hdet)
  unfold Produces
  have hdef : ∀ i j, inductanceMatrix val sgn h i j =
    inductanceOf val sgn h ((branchesOf 'L' (branches h)).get i).2.2 ((branchesOf 'L' (branches h)).get j).2.2 := fun _ _ => rfl
  revert hinv
  generalize hΛ : inductanceMatrix val sgn h = Λ at hdef ⊢
  clear hΛ hdet
  revert Λ hndL
  generalize branchesOf 'L' (branches h) = L
  intro hndL Λ hdef hinv
  let K : Fin L.length → A := fun i => ∑ j, ((Λ⁻¹ i j : ℝ) : ℂ) • X (L.get j)
  let J : String → A := fun c => ∑ i, if (L.get i).2.2 = c then K i else 0
  have hJ : ∀ i, J (L.get i).2.2 = K i := by
    intro i
    simp only [J]
    rw [Finset.sum_eq_single i]
    · rw [if_pos rfl]
    · intro j _ hji
      rw [if_neg]
      intro hc
      apply hji
      have hc' : (L.map fun b => b.2.2)[(j : ℕ)]'(by simp) = (L.map fun b => b.2.2)[(i : ℕ)]'(by simp) := by simpa using hc
      exact Fin.ext ((List.Nodup.getElem_inj_iff hndL).1 hc')
    · simp
  refine ⟨J, ?_, hJ⟩
  intro b hb
  obtain ⟨i, rfl⟩ := List.get_of_mem hb
  rw [← Fin.sum_univ_fun_getElem]
  have h1 : ∀ k : Fin L.length, ((inductanceOf val sgn h (L.get i).2.2 (L[(k : ℕ)]).2.2 : ℝ) : ℂ) • J (L[(k : ℕ)]).2.2 =
      ∑ j, ((Λ i k * Λ⁻¹ k j : ℝ) : ℂ) • X (L.get j) := by
    intro k
    have := hJ k
    rw [List.get_eq_getElem] at this
    rw [this, Finset.smul_sum, hdef]
    apply Finset.sum_congr rfl
    intro j _
    rw [smul_smul]
    push_cast
    rfl
  rw [Finset.sum_congr rfl fun k _ => h1 k, Finset.sum_comm]
  have h2 : ∀ j : Fin L.length, ∑ k, ((Λ i k * Λ⁻¹ k j : ℝ) : ℂ) • X (L.get j) = (((1 : Matrix (Fin L.length) (Fin L.length) ℝ) i j : ℝ) : ℂ) • X (L.get j) := by
    intro j
    rw [← Finset.sum_smul, ← hinv, Matrix.mul_apply]
    push_cast
    rfl
  rw [Finset.sum_congr rfl fun j _ => h2 j, Finset.sum_eq_single i]
  · simp
  · intro j _ hj
    rw [Matrix.one_apply_ne (Ne.symm hj)]
    simp
  · simp

/-- **C103 (partial)** The same with the inverse of the inductance matrix of the netlist: for all values for which this matrix (self-inductances on
the diagonal, mutual inductances elsewhere) is invertible, the Hamiltonian is the operator of the netlist without its inductors, plus
`El/2 Σ Λ⁻¹_bb' X_b X_b'` over the inductors.  Missing: as for `C103_currents_partial`. -/
theorem C103_operator_partial (h : List Call) (g : CG) (hs : Settled h g) (ha : AllOk h) (hn : CoupledNetlist h) (b : Biases)
    (hb : createFluxBiases g = .ok b) :
    ∃ sgn : String → ℝ, (∀ c, sgn c = 1 ∨ sgn c = -1) ∧
    (∀ br ∈ branches h, ∀ e ∈ edges g, g.cmap.get? e = some br.2.2 → (sgn br.2.2 = 1 ↔ e.1 = br.1)) ∧
    ∀ (val phi q : String → ℝ) (_ : NonnegCaps val h) (_ : ∀ n ∈ nodesOf (branches h), Conn (capacitiveNet val h) n 0)
      (_ : (inductanceMatrix val sgn h).det ≠ 0) (_ : GroundedBiases phi h)
      (pinv : Matrix (Fin (edges g).length) (Fin (edges g).length) ℝ → Matrix (Fin (edges g).length) (Fin (edges g).length) ℝ)
      (_ : ∀ M, IsPinv M (pinv M)) (u : Prefs) (cfg : Fin (nodes g).length → NodeCfg) (o : ∀ i, NodeOps (cfg i).dim)
      (N : Fin (nodes g).length → BigNode cfg) (_ : ∀ i, expandNode cfg i (o i) = some (N i)),
    ∃ s C, assemble g b val phi q ⟨false, 1⟩ pinv u = .ok s ∧ C.transpose = C ∧ C.det ≠ 0 ∧
      (∀ v : ℕ → ℝ, v 0 = 0 → atNodes g v ⬝ᵥ C.mulVec (atNodes g v) = electrostaticForm val h v) ∧
      hamiltonian (s.withNodes N) = some (mutualOperator (nodes g) h u.Ec u.El u.Ej u.Ep C val sgn (gateCharge q h)
        (fun c => sgn c * fluxOn phi h c) (nodeOperators N)) := by
  obtain ⟨sgn, h1, h2, h3⟩ := C103_currents_partial h g hs ha hn b hb
  refine ⟨sgn, h1, h2, ?_⟩
  intro val phi q hv hconn hdet hgr pinv hp u cfg o N hN
  obtain ⟨s, C, k1, k2, k3, k4, k5⟩ := h3 val phi q hv hconn hgr pinv hp u cfg o N hN
  refine ⟨s, C, k1, k2, k3, k4, ?_⟩
  obtain ⟨J, hJ, hJi⟩ := currents_exist (C21_names hs).1 hdet (inductorFlux (nodes g) (fun c => sgn c * fluxOn phi h c) fun i => (N i).P)
  rw [k5 J hJ]
  unfold mutualOperator
  congr 3
  rw [← Fin.sum_univ_fun_getElem]
  have e1 : ∀ i : Fin (branchesOf 'L' (branches h)).length, J ((branchesOf 'L' (branches h))[(i : ℕ)]).2.2 =
      ∑ j, (((inductanceMatrix val sgn h)⁻¹ i j : ℝ) : ℂ) • inductorFlux (nodes g) (fun c => sgn c * fluxOn phi h c) (fun i => (N i).P)
        ((branchesOf 'L' (branches h)).get j) := hJi
  rw [Finset.sum_congr rfl fun i _ => by rw [e1 i, Finset.sum_mul], Finset.sum_comm]
  apply Finset.sum_congr rfl; intro i _
  apply Finset.sum_congr rfl; intro j _
  have hsy : (inductanceMatrix val sgn h)⁻¹ j i = (inductanceMatrix val sgn h)⁻¹ i j := by
    have := transpose_nonsing_inv (inductanceMatrix val sgn h)
    rw [inductance_symm] at this
    exact congrFun (congrFun this i) j
  rw [hsy, smul_mul_assoc]
  rfl

end Verif.Props
