import Verif.Props.ApartCircuit
import Verif.Props.Parallel

/-!
# C90 for circuits with inductors and phase slips, in any basis
-/

namespace Verif.Props

open Verif Verif.Spec Verif.Circuit Verif.Sym Verif.Num Matrix Complex

/-- The same operator with the nodes in another order. -/
theorem netlistOperator_renumbered {A : Type} [Ring A] [Algebra ℂ A] (h : List Call) {ns ns' : List ℕ} (hnd : ns.Nodup) (hnd' : ns'.Nodup) (σ : Fin ns.length ≃ Fin ns'.length)
    (hσ : ∀ i, ns'.get (σ i) = ns.get i) (Ec El Ej Ep : ℝ) (C : Matrix (Fin ns.length) (Fin ns.length) ℝ) (C' : Matrix (Fin ns'.length) (Fin ns'.length) ℝ)
    (hC : C'.submatrix σ σ = C) (val : String → ℝ) (ng : ℕ → ℝ) (f : String → ℝ) (o : NodeOperators A ns.length) (o' : NodeOperators A ns'.length) (ho : SameOperators σ o' o) :
    netlistOperator ns' h Ec El Ej Ep C' val ng f o' = netlistOperator ns h Ec El Ej Ep C val ng f o := by
  have hinv : ∀ i j, C'⁻¹ (σ i) (σ j) = C⁻¹ i j := by
    intro i j
    rw [← hC, Matrix.inv_submatrix_equiv]
    rfl
  rw [netlistOperator_eq, netlistOperator_eq]
  congr 1
  · congr 1
    rw [← Equiv.sum_comp σ]
    refine Finset.sum_congr rfl fun i _ => ?_
    rw [← Equiv.sum_comp σ]
    refine Finset.sum_congr rfl fun j _ => ?_
    rw [hinv, (ho i).1, (ho j).1, hσ, hσ]
  · haveI : IsEmpty (Fin ([] : List ℕ).length) := Fin.isEmpty
    exact componentTerms_part hnd' hnd (n2 := []) ((Equiv.sumEmpty _ _).trans σ) hσ (fun i => isEmptyElim i) _ (fun _ _ => ⟨by simp, by simp⟩) El Ej Ep val ng ng (fun _ _ => ⟨rfl, rfl⟩) f f
      (fun _ _ _ => rfl) o' o ho

/-- Two circuits on the same nodes with the same energies of the capacitors and the same terms of the other components have the same levels, in any bases. -/
theorem equivalent_circuits (h h' : List Call) (g g' : CG) (hs : Settled h g) (hs' : Settled h' g') (ha : AllOk h) (ha' : AllOk h')
    (hn : CircuitNetlist h) (hn' : CircuitNetlist h') (b b' : Biases) (hb : createFluxBiases g = .ok b) (hb' : createFluxBiases g' = .ok b')
    (u : Prefs) (val val' phi q : String → ℝ) (hv : NonnegCaps val h) (hv' : NonnegCaps val' h') (hconn : ∀ n ∈ nodesOf (branches h), Conn (capacitiveNet val h) n 0)
    (hL : ∀ br ∈ branchesOf 'L' (branches h), val br.2.2 ≠ 0) (hL' : ∀ br ∈ branchesOf 'L' (branches h'), val' br.2.2 ≠ 0)
    (hgr : GroundedBiases phi h) (hgr' : GroundedBiases phi h')
    (hnodes : nodesOf (branches h') = nodesOf (branches h)) (hq : ∀ n, gateCharge q h' n = gateCharge q h n)
    (hform : ∀ v : ℕ → ℝ, v 0 = 0 → electrostaticForm val' h' v = electrostaticForm val h v)
    (pinv : Matrix (Fin (edges g).length) (Fin (edges g).length) ℝ → Matrix (Fin (edges g).length) (Fin (edges g).length) ℝ) (hp : ∀ M, IsPinv M (pinv M))
    (pinv' : Matrix (Fin (edges g').length) (Fin (edges g').length) ℝ → Matrix (Fin (edges g').length) (Fin (edges g').length) ℝ) (hp' : ∀ M, IsPinv M (pinv' M))
    (cf : ℕ → NodeCfg) (o : ∀ n, NodeOps (cf n).dim)
    (N : Fin (nodes g).length → BigNode fun i => cf ((nodes g).get i)) (hN : ∀ i, expandNode _ i (o ((nodes g).get i)) = some (N i))
    (N' : Fin (nodes g').length → BigNode fun i => cf ((nodes g').get i)) (hN' : ∀ i, expandNode _ i (o ((nodes g').get i)) = some (N' i))
    (hT : ∀ sgn sgn' : String → ℝ, (∀ c, sgn c = 1 ∨ sgn c = -1) → (∀ c, sgn' c = 1 ∨ sgn' c = -1) →
      (∀ br ∈ branches h, ∀ e ∈ edges g, g.cmap.get? e = some br.2.2 → (sgn br.2.2 = 1 ↔ e.1 = br.1)) →
      (∀ br ∈ branches h', ∀ e ∈ edges g', g'.cmap.get? e = some br.2.2 → (sgn' br.2.2 = 1 ↔ e.1 = br.1)) →
      componentTerms (nodes g) (branches h') u.El u.Ej u.Ep val' (gateCharge q h) (fun c => sgn' c * fluxOn phi h' c) (nodeOperators N) =
      componentTerms (nodes g) (branches h) u.El u.Ej u.Ep val (gateCharge q h) (fun c => sgn c * fluxOn phi h c) (nodeOperators N)) :
    ∃ s H s' H', assemble g b val phi q ⟨false, 1⟩ pinv u = .ok s ∧ hamiltonian (s.withNodes N) = some H ∧
      assemble g' b' val' phi q ⟨false, 1⟩ pinv' u = .ok s' ∧ hamiltonian (s'.withNodes N') = some H' ∧
      ∀ k E, LevelsUpTo H k E ↔ LevelsUpTo H' k E := by
  obtain ⟨hnd, hmem⟩ := C29_rows h g hs
  obtain ⟨hnd', hmem'⟩ := C29_rows h' g' hs'
  obtain ⟨σ, hσ⟩ : ∃ σ : Fin (nodes g).length ≃ Fin (nodes g').length, ∀ i, (nodes g').get (σ i) = (nodes g).get i := by
    have hlt : ∀ i : Fin (nodes g).length, (nodes g').idxOf ((nodes g).get i) < (nodes g').length := by
      intro i
      rw [List.idxOf_lt_length_iff, hmem', hnodes]
      exact (hmem _).1 (List.get_mem (nodes g) i)
    have hget : ∀ i : Fin (nodes g).length, (nodes g').get ⟨_, hlt i⟩ = (nodes g).get i := fun i => List.idxOf_get _
    refine ⟨Equiv.ofBijective (fun i => ⟨_, hlt i⟩) ⟨?_, ?_⟩, hget⟩
    · intro i j hij
      have h1 := (hget i).symm.trans ((congrArg (nodes g').get hij).trans (hget j))
      exact (List.nodup_iff_injective_get.1 hnd) h1
    · intro j
      have h1 := (hmem' _).1 (List.get_mem (nodes g') j)
      rw [hnodes] at h1
      obtain ⟨i, hi⟩ := List.get_of_mem ((hmem _).2 h1)
      refine ⟨i, ?_⟩
      apply List.nodup_iff_injective_get.1 hnd'
      rw [hget, hi]
  have hat : ∀ v : ℕ → ℝ, ∀ i, atNodes g' v (σ i) = atNodes g v i := by
    intro v i
    show v ((nodes g').get (σ i)) = v ((nodes g).get i)
    rw [hσ]
  have hmat : ∀ (C : Matrix (Fin (nodes g).length) (Fin (nodes g).length) ℝ) (C' : Matrix (Fin (nodes g').length) (Fin (nodes g').length) ℝ), Cᵀ = C → C'ᵀ = C' →
      (∀ v : ℕ → ℝ, v 0 = 0 → atNodes g' v ⬝ᵥ C'.mulVec (atNodes g' v) = atNodes g v ⬝ᵥ C.mulVec (atNodes g v)) → C'.submatrix σ σ = C := by
    intro C C' hC hC' hf
    apply symmetric_eq_of_form _ hC
    · intro x
      obtain ⟨v, h0, rfl⟩ := atNodes_surj hs x
      rw [← hf v h0]
      simp only [dotProduct, mulVec, submatrix_apply]
      rw [← Equiv.sum_comp σ]
      apply Finset.sum_congr rfl
      intro i _
      rw [hat, ← Equiv.sum_comp σ]
      congr 1
      apply Finset.sum_congr rfl
      intro j _
      rw [hat]
    · rw [transpose_submatrix, hC']
  have hconn' : ∀ n ∈ nodesOf (branches h'), Conn (capacitiveNet val' h') n 0 := by
    obtain ⟨M, hM, hsym, hf⟩ := circuit_capacitance hs ha hn val
    obtain ⟨M', hM', hsym', hf'⟩ := circuit_capacitance hs' ha' hn' val'
    have hd := (netlist_det hs val hv _ hsym hf).2 hconn
    rw [← netlist_det hs' val' hv' _ hsym' hf']
    rw [← hmat _ _ hsym hsym' (fun v h0 => by rw [hf' v h0, hf v h0, hform v h0]), det_submatrix_equiv_self] at hd
    exact hd
  obtain ⟨sgn, hsgn, hd, hE⟩ := C97_operator_partial h g hs ha hn b hb
  obtain ⟨sgn', hsgn', hd', hE'⟩ := C97_operator_partial h' g' hs' ha' hn' b' hb'
  obtain ⟨s, C, e1, e2, e3, e4, e5⟩ := hE val phi q hv hconn hL hgr pinv hp u _ _ N hN
  obtain ⟨s', C', f1, f2, f3, f4, f5⟩ := hE' val' phi q hv' hconn' hL' hgr' pinv' hp' u _ _ N' hN'
  refine ⟨s, _, s', _, e1, e5, f1, f5, ?_⟩
  have hC := hmat C C' e2 f2 (fun v h0 => by rw [e4 v h0, f4 v h0, hform v h0])
  have hcf : ∀ i, cf ((nodes g').get (σ i)) = cf ((nodes g).get i) := fun i => by rw [hσ]
  let τ : ((i : Fin (nodes g).length) → Fin (cf ((nodes g).get i)).dim) ≃ ((i : Fin (nodes g').length) → Fin (cf ((nodes g').get i)).dim) :=
    σ.piCongr fun i => finCongr (by rw [hcf i])
  have hτ : ∀ x i, ((τ x (σ i) : Fin _) : ℕ) = (x i : ℕ) := by
    intro x i
    have h2 : τ x (σ i) = finCongr (by rw [hcf i]) (x i) := Equiv.piCongr_apply_apply _ _ _ _
    rw [h2]
    rfl
  have hact : ∀ (F : ∀ n, Op (cf n).dim) (i : Fin (nodes g).length) (X : BigOp fun i => cf ((nodes g).get i)) (X' : BigOp fun i => cf ((nodes g').get i)),
      expandOp (fun i => cf ((nodes g).get i)) i (F ((nodes g).get i)) = some X → expandOp (fun i => cf ((nodes g').get i)) (σ i) (F ((nodes g').get (σ i))) = some X' →
      X' = Matrix.reindexAlgEquiv ℂ ℂ τ X := by
    intro F i X X' h1 h2
    rw [expandOp_some h1, expandOp_some h2]
    exact actsOn_renamed F σ hσ τ hτ i
  let Φ : (BigOp fun i => cf ((nodes g).get i)) →ₐ[ℂ] (BigOp fun i => cf ((nodes g').get i)) := (Matrix.reindexAlgEquiv ℂ ℂ τ).toAlgHom
  have hop : netlistOperator (nodes g') h' u.Ec u.El u.Ej u.Ep C' val' (gateCharge q h') (fun c => sgn' c * fluxOn phi h' c) (nodeOperators N') =
      Φ (netlistOperator (nodes g) h u.Ec u.El u.Ej u.Ep C val (gateCharge q h) (fun c => sgn c * fluxOn phi h c) (nodeOperators N)) := by
    rw [netlistOperator_renumbered h' hnd hnd' σ hσ u.Ec u.El u.Ej u.Ep C C' hC val' (gateCharge q h') _ (mapOperators Φ (nodeOperators N)) (nodeOperators N') (by
      intro i
      obtain ⟨a1, a2, a3, a4, a5, a6⟩ := expandNode_some (hN i)
      obtain ⟨b1, b2, b3, b4, b5, b6⟩ := expandNode_some (hN' (σ i))
      exact ⟨hact (fun n => (o n).Q) i _ _ a1 b1, hact (fun n => (o n).P) i _ _ a2 b2, hact (fun n => (o n).D) i _ _ a3 b3, hact (fun n => (o n).Ddag) i _ _ a4 b4,
        hact (fun n => (o n).S) i _ _ a5 b5, hact (fun n => (o n).Sdag) i _ _ a6 b6⟩), ← netlistOperator_map, funext hq, netlistOperator_eq, netlistOperator_eq,
      hT sgn sgn' hsgn hsgn' hd hd']
  have hAB : ∀ x y, netlistOperator (nodes g') h' u.Ec u.El u.Ej u.Ep C' val' (gateCharge q h') (fun c => sgn' c * fluxOn phi h' c) (nodeOperators N') (τ x) (τ y) =
      netlistOperator (nodes g) h u.Ec u.El u.Ej u.Ep C val (gateCharge q h) (fun c => sgn c * fluxOn phi h c) (nodeOperators N) x y := by
    intro x y
    rw [hop]
    show Matrix.reindexAlgEquiv ℂ ℂ τ _ (τ x) (τ y) = _
    rw [Matrix.reindexAlgEquiv_apply, Matrix.reindex_apply, Matrix.submatrix_apply, Equiv.symm_apply_apply, Equiv.symm_apply_apply]
  intro k E
  refine ⟨levelsUpTo_reindex τ hAB k E, levelsUpTo_reindex τ.symm (fun x y => ?_) k E⟩
  rw [← hAB, τ.apply_symm_apply, τ.apply_symm_apply]

/-- The terms of the components depend on the values and fluxes of these components alone. -/
theorem componentTerms_congr {A : Type} [Ring A] [Algebra ℂ A] (ns : List ℕ) (bs : List (ℕ × ℕ × String)) (El Ej Ep : ℝ) {val val' : String → ℝ} (ng : ℕ → ℝ) {f f' : String → ℝ}
    (hv : ∀ b ∈ bs, startsWith b.2.2 'C' = false → val' b.2.2 = val b.2.2) (hf : ∀ b ∈ bs, startsWith b.2.2 'L' = true ∨ startsWith b.2.2 'I' = true → f' b.2.2 = f b.2.2)
    (o : NodeOperators A ns.length) : componentTerms ns bs El Ej Ep val' ng f' o = componentTerms ns bs El Ej Ep val ng f o := by
  have hnc : ∀ (c : String) (p : Char), p ≠ 'C' → startsWith c p = true → startsWith c 'C' = false := by
    intro c p hp h1
    by_contra hcon
    exact hp (startsWith_unique h1 (by simpa using hcon))
  unfold componentTerms
  congr 1
  · congr 1
    · congr 1
      refine List.map_congr_left fun b hb => ?_
      obtain ⟨hb, hp⟩ := List.mem_filter.1 hb
      rw [hf b hb (Or.inl hp), hv b hb (hnc _ _ (by decide) hp)]
    · congr 1
      refine List.map_congr_left fun b hb => ?_
      obtain ⟨hb, hp⟩ := List.mem_filter.1 hb
      rw [hf b hb (Or.inr hp), hv b hb (hnc _ _ (by decide) hp)]
  · congr 1
    refine List.map_congr_left fun b hb => ?_
    obtain ⟨hb, hp⟩ := List.mem_filter.1 hb
    dsimp only
    rw [hv b hb (hnc _ _ (by decide) hp)]

/-- The terms of one component. -/
theorem componentTerms_one {A : Type} [Ring A] [Algebra ℂ A] (ns : List ℕ) (b : ℕ × ℕ × String) (El Ej Ep : ℝ) (val : String → ℝ) (ng : ℕ → ℝ) (f : String → ℝ)
    (o : NodeOperators A ns.length) : componentTerms ns [b] El Ej Ep val ng f o =
      (if startsWith b.2.2 'L' = true then ((El / (2 * val b.2.2) : ℝ) : ℂ) • (atNumber ns o.P 0 b.1 - atNumber ns o.P 0 b.2.1 + ((f b.2.2 : ℝ) : ℂ) • 1) ^ 2 else 0) -
      (if startsWith b.2.2 'I' = true then ((Ej * val b.2.2 / 2 : ℝ) : ℂ) • (exp (2 * Real.pi * f b.2.2 * I) • (atNumber ns o.D 1 b.1 * atNumber ns o.Ddag 1 b.2.1) +
        exp (-(2 * Real.pi * f b.2.2 * I)) • (atNumber ns o.Ddag 1 b.1 * atNumber ns o.D 1 b.2.1)) else 0) -
      (if startsWith b.2.2 'V' = true then
        ((Ep * val b.2.2 / 2 : ℝ) : ℂ) • (exp (2 * Real.pi * ((if b.1 = 0 then 0 else ng b.1) - if b.2.1 = 0 then 0 else ng b.2.1 : ℝ) * I) • (atNumber ns o.S 1 b.1 * atNumber ns o.Sdag 1 b.2.1) +
          exp (-(2 * Real.pi * ((if b.1 = 0 then 0 else ng b.1) - if b.2.1 = 0 then 0 else ng b.2.1 : ℝ) * I)) • (atNumber ns o.Sdag 1 b.1 * atNumber ns o.S 1 b.2.1)) else 0) := by
  unfold componentTerms
  rw [sum_branchesOf, sum_branchesOf, sum_branchesOf]
  simp only [List.map_cons, List.map_nil, List.sum_cons, List.sum_nil, add_zero]

theorem componentTerms_cons {A : Type} [Ring A] [Algebra ℂ A] (ns : List ℕ) (b : ℕ × ℕ × String) (l : List (ℕ × ℕ × String)) (El Ej Ep : ℝ) (val : String → ℝ) (ng : ℕ → ℝ) (f : String → ℝ)
    (o : NodeOperators A ns.length) : componentTerms ns (b :: l) El Ej Ep val ng f o = componentTerms ns [b] El Ej Ep val ng f o + componentTerms ns l El Ej Ep val ng f o :=
  componentTerms_append ns [b] l El Ej Ep val ng f o

/-- The component without bias from its other end. -/
theorem componentTerms_flip {A : Type} [Ring A] [Algebra ℂ A] (ns : List ℕ) (a b : ℕ) (c : String) (El Ej Ep : ℝ) (val : String → ℝ) (ng : ℕ → ℝ) (f : String → ℝ) (hf : f c = 0)
    (o : NodeOperators A ns.length) (hD : ∀ a b, a ≠ b → atNumber ns o.D 1 a * atNumber ns o.Ddag 1 b = atNumber ns o.Ddag 1 b * atNumber ns o.D 1 a)
    (hS : ∀ a b, a ≠ b → atNumber ns o.S 1 a * atNumber ns o.Sdag 1 b = atNumber ns o.Sdag 1 b * atNumber ns o.S 1 a) :
    componentTerms ns [(b, a, c)] El Ej Ep val ng f o = componentTerms ns [(a, b, c)] El Ej Ep val ng f o := by
  by_cases hab : a = b
  · rw [hab]
  rw [componentTerms_one, componentTerms_one]
  dsimp only
  congr 1
  · congr 1
    · refine if_congr Iff.rfl ?_ rfl
      congr 1
      rw [hf, ← neg_sq]
      congr 1
      simp
    · refine if_congr Iff.rfl ?_ rfl
      congr 1
      rw [hf, hD _ _ hab, ← hD _ _ (Ne.symm hab)]
      simp only [ofReal_zero, mul_zero, zero_mul, neg_zero]
      rw [add_comm]
  · refine if_congr Iff.rfl ?_ rfl
    congr 1
    rw [← neg_sub (if a = 0 then (0 : ℝ) else ng a), hS _ _ hab, ← hS _ _ (Ne.symm hab)]
    push_cast
    simp only [mul_neg, neg_mul, neg_neg]
    rw [add_comm]

/-- Two components without biases between the same nodes. -/
theorem componentTerms_merge {A : Type} [Ring A] [Algebra ℂ A] (ns : List ℕ) (a b : ℕ) (x y : String) (p : Char) (hx : startsWith x p = true) (hy : startsWith y p = true) (El Ej Ep : ℝ)
    (val : String → ℝ) (hL : p = 'L' → val x ≠ 0 ∧ val y ≠ 0) (ng : ℕ → ℝ) (f f' : String → ℝ) (hfx : f x = 0) (hfy : f y = 0) (hfx' : f' x = 0)
    (o : NodeOperators A ns.length) :
    componentTerms ns [(a, b, x)] El Ej Ep (merged val x y) ng f' o = componentTerms ns [(a, b, x)] El Ej Ep val ng f o + componentTerms ns [(a, b, y)] El Ej Ep val ng f o := by
  have hiff : ∀ c, startsWith x c = startsWith y c := by
    intro c
    by_cases hc : p = c
    · subst hc; rw [hx, hy]
    · have : ∀ z, startsWith z p = true → startsWith z c = false := by
        intro z hz
        by_contra hcon
        exact hc (startsWith_unique hz (by simpa using hcon))
      rw [this x hx, this y hy]
  rw [componentTerms_one, componentTerms_one, componentTerms_one]
  dsimp only
  rw [← hiff, ← hiff, ← hiff, hfx, hfy, hfx']
  have hm : merged val x y x = if startsWith x 'L' = true then (1 / val x + 1 / val y)⁻¹ else val x + val y := if_pos rfl
  by_cases h1 : startsWith x 'L' = true
  · have h2 : ¬ startsWith x 'I' = true := fun h => absurd (startsWith_unique h1 h) (by decide)
    have h3 : ¬ startsWith x 'V' = true := fun h => absurd (startsWith_unique h1 h) (by decide)
    obtain ⟨k1, k2⟩ := hL (startsWith_unique hx h1)
    simp only [if_pos h1, if_neg h2, if_neg h3, sub_zero, hm]
    rw [← add_smul]
    congr 1
    rw [← ofReal_add]
    congr 1
    rw [div_eq_mul_inv, mul_inv, inv_inv]
    field_simp
  · by_cases h2 : startsWith x 'I' = true
    · have h3 : ¬ startsWith x 'V' = true := fun h => absurd (startsWith_unique h2 h) (by decide)
      simp only [if_neg h1, if_pos h2, if_neg h3, sub_zero, zero_sub, hm]
      rw [← neg_add, ← add_smul]
      congr 2
      rw [← ofReal_add]
      congr 1
      ring
    · by_cases h3 : startsWith x 'V' = true
      · simp only [if_neg h1, if_neg h2, if_pos h3, sub_zero, zero_sub, hm]
        rw [← neg_add, ← add_smul]
        congr 2
        rw [← ofReal_add]
        congr 1
        ring
      · simp only [if_neg h1, if_neg h2, if_neg h3, sub_zero, add_zero]

/-- **C90** Two components of the same kind without biases between the same nodes of any circuit, in any bases, act as one: two capacitors as one with the sum of the capacitances, two
inductors as one with the inverse of the sum of the inverses, two junctions as one with the sum of the critical currents, two phase slips as one with the sum of their energies.  Leaving out the second and changing
the first in this way leaves all levels as they are.  The oriented graphs of the two circuits list the biased components in the same directions. -/
theorem C90_circuit (h h' : List Call) (g g' : CG) (hs : Settled h g) (hs' : Settled h' g') (ha : AllOk h) (ha' : AllOk h')
    (hn : CircuitNetlist h) (hn' : CircuitNetlist h') (b b' : Biases) (hb : createFluxBiases g = .ok b) (hb' : createFluxBiases g' = .ok b')
    (x y : String) (a c : ℕ) (l : List (ℕ × ℕ × String)) (hpar : Parallel h h' x y a c l) (p : Char) (hx : startsWith x p = true) (hy : startsWith y p = true)
    (u : Prefs) (val phi q : String → ℝ) (hv : NonnegCaps val h) (hconn : ∀ n ∈ nodesOf (branches h), Conn (capacitiveNet val h) n 0)
    (hL : ∀ br ∈ branchesOf 'L' (branches h), 0 < val br.2.2) (hgr : GroundedBiases phi h) (hfx : fluxOn phi h x = 0) (hfy : fluxOn phi h y = 0)
    (hflux : ∀ c, fluxOn phi h' c = fluxOn phi h c)
    (hdir : ∀ c, fluxOn phi h c ≠ 0 → ∀ e ∈ edges g, ∀ e' ∈ edges g', g.cmap.get? e = some c → g'.cmap.get? e' = some c → e'.1 = e.1)
    (pinv : Matrix (Fin (edges g).length) (Fin (edges g).length) ℝ → Matrix (Fin (edges g).length) (Fin (edges g).length) ℝ) (hp : ∀ M, IsPinv M (pinv M))
    (pinv' : Matrix (Fin (edges g').length) (Fin (edges g').length) ℝ → Matrix (Fin (edges g').length) (Fin (edges g').length) ℝ) (hp' : ∀ M, IsPinv M (pinv' M))
    (cf : ℕ → NodeCfg) (o : ∀ n, NodeOps (cf n).dim)
    (N : Fin (nodes g).length → BigNode fun i => cf ((nodes g).get i)) (hN : ∀ i, expandNode _ i (o ((nodes g).get i)) = some (N i))
    (N' : Fin (nodes g').length → BigNode fun i => cf ((nodes g').get i)) (hN' : ∀ i, expandNode _ i (o ((nodes g').get i)) = some (N' i)) :
    ∃ s H s' H', assemble g b val phi q ⟨false, 1⟩ pinv u = .ok s ∧ hamiltonian (s.withNodes N) = some H ∧
      assemble g' b' (merged val x y) phi q ⟨false, 1⟩ pinv' u = .ok s' ∧ hamiltonian (s'.withNodes N') = some H' ∧
      ∀ k E, LevelsUpTo H k E ↔ LevelsUpTo H' k E := by
  obtain ⟨hnd, -, -⟩ := C21_names hs
  obtain ⟨hne, hl⟩ := parallel_names hpar hnd
  have hval : ∀ d, d ≠ x → merged val x y d = val d := fun d hd => if_neg hd
  have hinx : (a, c, x) ∈ branches h := by rcases hpar.both with h1 | h1 <;> exact h1.symm.subset (by simp)
  have hinl : ∀ d ∈ l, d ∈ branches h := by intro d hd; rcases hpar.both with h1 | h1 <;> exact h1.symm.subset (by simp [hd])
  have hiny : (a, c, y) ∈ branches h ∨ (c, a, y) ∈ branches h := by
    rcases hpar.both with h1 | h1
    · exact .inl (h1.symm.subset (by simp))
    · exact .inr (h1.symm.subset (by simp))
  have hsub : ∀ d ∈ branches h', d ∈ branches h := by
    intro d hd
    rcases List.mem_cons.1 (hpar.one.subset hd) with rfl | h3
    · exact hinx
    · exact hinl d h3
  have hCx : startsWith x 'C' = true → merged val x y x = val x + val y := by
    intro hc
    unfold merged
    rw [if_pos rfl, if_neg fun hh => absurd (startsWith_unique hc hh) (by decide)]
  have hCC : startsWith x 'C' = startsWith y 'C' := by
    by_cases hc : p = 'C'
    · subst hc; rw [hx, hy]
    · have : ∀ z, startsWith z p = true → startsWith z 'C' = false := by
        intro z hz
        by_contra hcon
        exact hc (startsWith_unique hz (by simpa using hcon))
      rw [this x hx, this y hy]
  have hLpos : p = 'L' → 0 < val x ∧ 0 < val y := by
    rintro rfl
    refine ⟨hL _ (List.mem_filter.2 ⟨hinx, hx⟩), ?_⟩
    rcases hiny with h1 | h1
    · exact hL _ (List.mem_filter.2 ⟨h1, hy⟩)
    · exact hL _ (List.mem_filter.2 ⟨h1, hy⟩)
  refine equivalent_circuits h h' g g' hs hs' ha ha' hn hn' b b' hb hb' u val (merged val x y) phi q hv (parallel_nonneg hpar hnd val _ hval hCx hCC hv) hconn
    (fun d hd => (hL d hd).ne') ?_ hgr ?_ (parallel_nodes hpar) (hpar.charge q) (fun v _ => parallel_energy hpar hnd val _ hval hCx hCC v) pinv hp pinv' hp' cf o N hN N' hN' ?_
  · intro d hd
    obtain ⟨h1, h2⟩ := List.mem_filter.1 hd
    by_cases hdx : d.2.2 = x
    · have hxL : startsWith x 'L' = true := by rw [← hdx]; exact h2
      obtain ⟨k1, k2⟩ := hLpos (startsWith_unique hx hxL)
      rw [hdx]
      unfold merged
      rw [if_pos rfl, if_pos hxL]
      positivity
    · rw [hval _ hdx]
      exact (hL d (List.mem_filter.2 ⟨hsub d h1, h2⟩)).ne'
  · intro d hd hf
    obtain ⟨h1, h2⟩ := List.mem_filter.1 hd
    rw [hflux] at hf
    obtain ⟨n, k1, k2, k3⟩ := hgr d (List.mem_filter.2 ⟨hsub d h1, h2⟩) hf
    refine ⟨n, k1, k2, fun d' hd' hne' => ?_⟩
    obtain ⟨m1, m2⟩ := List.mem_filter.1 hd'
    exact k3 d' (List.mem_filter.2 ⟨hsub d' m1, m2⟩) hne'
  · intro sgn sgn' hsgn hsgn' hd hd'
    have hcomm : ∀ i j, i ≠ j → (N i).D * (N j).Ddag = (N j).Ddag * (N i).D ∧ (N i).S * (N j).Sdag = (N j).Sdag * (N i).S := by
      intro i j hij
      obtain ⟨-, -, d1, -, d3, -⟩ := expandNode_some (hN i)
      obtain ⟨-, -, -, d2, -, d4⟩ := expandNode_some (hN j)
      exact ⟨C39_commute _ i j hij _ _ _ _ d1 d2, C39_commute _ i j hij _ _ _ _ d3 d4⟩
    have hrest : componentTerms (nodes g) l u.El u.Ej u.Ep (merged val x y) (gateCharge q h) (fun c => sgn' c * fluxOn phi h' c) (nodeOperators N) =
        componentTerms (nodes g) l u.El u.Ej u.Ep val (gateCharge q h) (fun c => sgn c * fluxOn phi h c) (nodeOperators N) :=
      componentTerms_congr (nodes g) l u.El u.Ej u.Ep (gateCharge q h) (fun d hd _ => hval _ (hl d hd).1) (fun d hdl hLI =>
        (same_sign hs' hs hn' hsgn' hsgn hd' hd phi (fun c hc e' he' e he h1 h2 => (hdir c hc e he e' he' h2 h1).symm) d (hpar.one.symm.subset (List.mem_cons_of_mem _ hdl)) (hinl d hdl) hLI (hflux _)))
        (nodeOperators N)
    have hone : componentTerms (nodes g) (branches h') u.El u.Ej u.Ep (merged val x y) (gateCharge q h) (fun c => sgn' c * fluxOn phi h' c) (nodeOperators N) =
        componentTerms (nodes g) [(a, c, x)] u.El u.Ej u.Ep val (gateCharge q h) (fun c => sgn c * fluxOn phi h c) (nodeOperators N) +
        (componentTerms (nodes g) [(a, c, y)] u.El u.Ej u.Ep val (gateCharge q h) (fun c => sgn c * fluxOn phi h c) (nodeOperators N) +
          componentTerms (nodes g) l u.El u.Ej u.Ep val (gateCharge q h) (fun c => sgn c * fluxOn phi h c) (nodeOperators N)) := by
      rw [componentTerms_perm (nodes g) hpar.one, componentTerms_cons (nodes g) (a, c, x) l, hrest,
        componentTerms_merge (nodes g) a c x y p hx hy u.El u.Ej u.Ep val (fun hpL => ⟨(hLpos hpL).1.ne', (hLpos hpL).2.ne'⟩) (gateCharge q h) (fun c => sgn c * fluxOn phi h c)
          (fun c => sgn' c * fluxOn phi h' c) (by simp only [hfx, mul_zero]) (by simp only [hfy, mul_zero]) (by simp only [hflux, hfx, mul_zero]), add_assoc]
    rw [hone]
    rcases hpar.both with h3 | h3
    · rw [componentTerms_perm (nodes g) h3, componentTerms_cons (nodes g) (a, c, x) ((a, c, y) :: l), componentTerms_cons (nodes g) (a, c, y) l]
    · rw [componentTerms_perm (nodes g) h3, componentTerms_cons (nodes g) (a, c, x) ((c, a, y) :: l), componentTerms_cons (nodes g) (c, a, y) l,
        componentTerms_flip (nodes g) a c y u.El u.Ej u.Ep val (gateCharge q h) (fun c => sgn c * fluxOn phi h c) (by simp only [hfy, mul_zero]) (nodeOperators N)
          (fun a c hac => atNumber_comm _ _ (fun i j hij => (hcomm i j hij).1) hac) (fun a c hac => atNumber_comm _ _ (fun i j hij => (hcomm i j hij).2) hac)]

/-- **C90** Networks of capacitors that store the same energy at all node voltages are interchangeable in any circuit, in any bases: two circuits on the same nodes, with the same inductors,
junctions, phase slips, charge biases and flux biases, have the same levels if their capacitors and gate capacitors store the same energies.  The second can be quantised if the first can. -/
theorem C90_circuit_networks (h h' : List Call) (g g' : CG) (hs : Settled h g) (hs' : Settled h' g') (ha : AllOk h) (ha' : AllOk h')
    (hn : CircuitNetlist h) (hn' : CircuitNetlist h') (b b' : Biases) (hb : createFluxBiases g = .ok b) (hb' : createFluxBiases g' = .ok b')
    (u : Prefs) (val val' phi q : String → ℝ) (hv : NonnegCaps val h) (hv' : NonnegCaps val' h') (hconn : ∀ n ∈ nodesOf (branches h), Conn (capacitiveNet val h) n 0)
    (hnodes : nodesOf (branches h') = nodesOf (branches h)) (hcond : (conductors (branches h')).Perm (conductors (branches h)))
    (hval : ∀ d ∈ conductors (branches h), val' d.2.2 = val d.2.2) (hq : ∀ n, gateCharge q h' n = gateCharge q h n)
    (hform : ∀ v : ℕ → ℝ, v 0 = 0 → electrostaticForm val' h' v = electrostaticForm val h v)
    (hL : ∀ br ∈ branchesOf 'L' (branches h), val br.2.2 ≠ 0) (hgr : GroundedBiases phi h) (hflux : ∀ c, fluxOn phi h' c = fluxOn phi h c)
    (hdir : ∀ c, fluxOn phi h c ≠ 0 → ∀ e ∈ edges g, ∀ e' ∈ edges g', g.cmap.get? e = some c → g'.cmap.get? e' = some c → e'.1 = e.1)
    (pinv : Matrix (Fin (edges g).length) (Fin (edges g).length) ℝ → Matrix (Fin (edges g).length) (Fin (edges g).length) ℝ) (hp : ∀ M, IsPinv M (pinv M))
    (pinv' : Matrix (Fin (edges g').length) (Fin (edges g').length) ℝ → Matrix (Fin (edges g').length) (Fin (edges g').length) ℝ) (hp' : ∀ M, IsPinv M (pinv' M))
    (cf : ℕ → NodeCfg) (o : ∀ n, NodeOps (cf n).dim)
    (N : Fin (nodes g).length → BigNode fun i => cf ((nodes g).get i)) (hN : ∀ i, expandNode _ i (o ((nodes g).get i)) = some (N i))
    (N' : Fin (nodes g').length → BigNode fun i => cf ((nodes g').get i)) (hN' : ∀ i, expandNode _ i (o ((nodes g').get i)) = some (N' i)) :
    ∃ s H s' H', assemble g b val phi q ⟨false, 1⟩ pinv u = .ok s ∧ hamiltonian (s.withNodes N) = some H ∧
      assemble g' b' val' phi q ⟨false, 1⟩ pinv' u = .ok s' ∧ hamiltonian (s'.withNodes N') = some H' ∧
      ∀ k E, LevelsUpTo H k E ↔ LevelsUpTo H' k E := by
  have hnc : ∀ (c : String) (p : Char), p ≠ 'C' → startsWith c p = true → startsWith c 'C' = false := by
    intro c p hp h1
    by_contra hcon
    exact hp (startsWith_unique h1 (by simpa using hcon))
  have hmem : ∀ (hh : List Call) d, d ∈ branches hh → startsWith d.2.2 'C' = false → d ∈ conductors (branches hh) := fun hh d hd hc => List.mem_filter.2 ⟨hd, by simp [hc]⟩
  have hsub : ∀ d ∈ branchesOf 'L' (branches h'), d ∈ branchesOf 'L' (branches h) := by
    intro d hd
    obtain ⟨h1, h2⟩ := List.mem_filter.1 hd
    exact List.mem_filter.2 ⟨(List.mem_filter.1 (hcond.subset (hmem h' d h1 (hnc _ _ (by decide) h2)))).1, h2⟩
  refine equivalent_circuits h h' g g' hs hs' ha ha' hn hn' b b' hb hb' u val val' phi q hv hv' hconn hL ?_ hgr ?_ hnodes hq hform pinv hp pinv' hp' cf o N hN N' hN' ?_
  · intro d hd
    have h1 := hsub d hd
    obtain ⟨h2, h3⟩ := List.mem_filter.1 h1
    rw [hval d (hmem h d h2 (hnc _ _ (by decide) h3))]
    exact hL d h1
  · intro d hd hf
    rw [hflux] at hf
    obtain ⟨n, k1, k2, k3⟩ := hgr d (hsub d hd) hf
    exact ⟨n, k1, k2, fun d' hd' hne' => k3 d' (hsub d' hd') hne'⟩
  · intro sgn sgn' hsgn hsgn' hd hd'
    have hbr : ∀ (bs : List (ℕ × ℕ × String)) (p : Char), p ≠ 'C' → branchesOf p bs = branchesOf p (conductors bs) := by
      intro bs p hp
      unfold branchesOf conductors
      rw [List.filter_filter]
      refine List.filter_congr fun d hd => ?_
      cases hs : startsWith d.2.2 p with
      | false => rfl
      | true => simp [hnc _ _ hp hs]
    have hct : ∀ (bs : List (ℕ × ℕ × String)) (v f : String → ℝ), componentTerms (nodes g) bs u.El u.Ej u.Ep v (gateCharge q h) f (nodeOperators N) =
        componentTerms (nodes g) (conductors bs) u.El u.Ej u.Ep v (gateCharge q h) f (nodeOperators N) := by
      intro bs v f
      unfold componentTerms
      rw [hbr bs 'L' (by decide), hbr bs 'I' (by decide), hbr bs 'V' (by decide)]
    rw [hct, hct (branches h), componentTerms_perm (nodes g) hcond]
    refine componentTerms_congr (nodes g) _ u.El u.Ej u.Ep (gateCharge q h) (fun d hd _ => hval d hd) (fun d hdl hLI => ?_) (nodeOperators N)
    exact same_sign hs' hs hn' hsgn' hsgn hd' hd phi (fun c hc e' he' e he h1 h2 => (hdir c hc e he e' he' h2 h1).symm) d (List.mem_filter.1 (hcond.symm.subset hdl)).1 (List.mem_filter.1 hdl).1 hLI
      (hflux _)

/-! ### The hypotheses are met -/

/-- A junction, biased by a flux, with a capacitor and two inductors in parallel. -/
def twoInductors : List Call :=
  [.addBranch Orc.id 0 1 "C1", .addBranch Orc.id 0 1 "L1", .addBranch Orc.id 1 0 "L2", .addBranch Orc.id 0 1 "I1", .addFluxBias "I1" (some "z") none]

/-- The same with one inductor. -/
def oneInductor : List Call := [.addBranch Orc.id 0 1 "C1", .addBranch Orc.id 0 1 "L1", .addBranch Orc.id 0 1 "I1", .addFluxBias "I1" (some "z") none]

/-- The same with a second capacitor. -/
def moreCapacitors : List Call :=
  [.addBranch Orc.id 0 1 "C1", .addBranch Orc.id 1 0 "C2", .addBranch Orc.id 0 1 "L1", .addBranch Orc.id 0 1 "I1", .addFluxBias "I1" (some "z") none]

theorem circuitExamples : (Settled twoInductors (run {} twoInductors) ∧ AllOk twoInductors ∧ CircuitNetlist twoInductors ∧ ∃ b, createFluxBiases (run {} twoInductors) = .ok b) ∧
    (Settled oneInductor (run {} oneInductor) ∧ AllOk oneInductor ∧ CircuitNetlist oneInductor ∧ ∃ b, createFluxBiases (run {} oneInductor) = .ok b) ∧
    (Settled moreCapacitors (run {} moreCapacitors) ∧ AllOk moreCapacitors ∧ CircuitNetlist moreCapacitors ∧ ∃ b, createFluxBiases (run {} moreCapacitors) = .ok b) := by
  have hbs : ∀ g : CG, (createFluxBiases g).toOption.isSome = true → ∃ b, createFluxBiases g = .ok b := by
    intro g hg
    cases hc : createFluxBiases g with
    | ok b => exact ⟨b, rfl⟩
    | error e => rw [hc] at hg; cases hg
  have b1 : branches twoInductors = [(0, 1, "C1"), (0, 1, "L1"), (1, 0, "L2"), (0, 1, "I1")] := by decide +kernel
  have b2 : branches oneInductor = [(0, 1, "C1"), (0, 1, "L1"), (0, 1, "I1")] := by decide +kernel
  have b3 : branches moreCapacitors = [(0, 1, "C1"), (1, 0, "C2"), (0, 1, "L1"), (0, 1, "I1")] := by decide +kernel
  refine ⟨⟨⟨[.addBranch Orc.id 0 1 "C1", .addBranch Orc.id 0 1 "L1", .addBranch Orc.id 1 0 "L2"], Orc.id, 0, 1, "I1", [.addFluxBias "I1" (some "z") none], rfl,
      by simp [twoInductors, Call.OK, orcId_ok], by decide +kernel, by simp, rfl⟩, ?_, ?_, hbs _ (by decide +kernel)⟩,
    ⟨⟨[.addBranch Orc.id 0 1 "C1", .addBranch Orc.id 0 1 "L1"], Orc.id, 0, 1, "I1", [.addFluxBias "I1" (some "z") none], rfl,
      by simp [oneInductor, Call.OK, orcId_ok], by decide +kernel, by simp, rfl⟩, ?_, ?_, hbs _ (by decide +kernel)⟩,
    ⟨⟨[.addBranch Orc.id 0 1 "C1", .addBranch Orc.id 1 0 "C2", .addBranch Orc.id 0 1 "L1"], Orc.id, 0, 1, "I1", [.addFluxBias "I1" (some "z") none], rfl,
      by simp [moreCapacitors, Call.OK, orcId_ok], by decide +kernel, by simp, rfl⟩, ?_, ?_, hbs _ (by decide +kernel)⟩⟩
  · apply allOk_of_prefixes; decide +kernel
  · refine ⟨by simp [twoInductors], ?_, ?_⟩ <;> rw [b1] <;> decide +kernel
  · apply allOk_of_prefixes; decide +kernel
  · refine ⟨by simp [oneInductor], ?_, ?_⟩ <;> rw [b2] <;> decide +kernel
  · apply allOk_of_prefixes; decide +kernel
  · refine ⟨by simp [moreCapacitors], ?_, ?_⟩ <;> rw [b3] <;> decide +kernel

/-- Those of `C90_circuit` on the two circuits are met by the circuits with two inductors and with one. -/
example (phi : String → ℝ) : Parallel twoInductors oneInductor "L1" "L2" 0 1 [(0, 1, "C1"), (0, 1, "I1")] ∧ startsWith "L1" 'L' = true ∧ startsWith "L2" 'L' = true ∧
    GroundedBiases phi twoInductors ∧ fluxOn phi twoInductors "L1" = 0 ∧ fluxOn phi twoInductors "L2" = 0 ∧ fluxOn phi twoInductors "I1" = phi "z" ∧
    (∀ c, fluxOn phi oneInductor c = fluxOn phi twoInductors c) ∧
    ∀ c, fluxOn phi twoInductors c ≠ 0 → ∀ e ∈ edges (run {} twoInductors), ∀ e' ∈ edges (run {} oneInductor), (run {} twoInductors).cmap.get? e = some c →
      (run {} oneInductor).cmap.get? e' = some c → e'.1 = e.1 := by
  have b1 : branches twoInductors = [(0, 1, "C1"), (0, 1, "L1"), (1, 0, "L2"), (0, 1, "I1")] := by decide +kernel
  have b2 : branches oneInductor = [(0, 1, "C1"), (0, 1, "L1"), (0, 1, "I1")] := by decide +kernel
  have hz : ∀ c, c ≠ "I1" → fluxOn phi twoInductors c = 0 := by intro c hc; simp [fluxOn, twoInductors, Ne.symm hc]
  refine ⟨⟨.inr ?_, ?_, fun q n => ?_, fun val val' hv n => ?_⟩, by decide, by decide, ?_, hz _ (by decide), hz _ (by decide), ?_, fun c => ?_, ?_⟩
  · rw [b1]; decide +kernel
  · rw [b2]; decide +kernel
  · simp [gateCharge, twoInductors, oneInductor]
  · simp [Spec.gateCap, twoInductors, oneInductor]
  · intro d hd hf
    refine absurd (hz _ ?_) hf
    rintro h1
    obtain ⟨-, h2⟩ := List.mem_filter.1 hd
    rw [h1] at h2
    exact absurd h2 (by decide)
  · simp [fluxOn, twoInductors]
  · by_cases hc : "I1" = c <;> simp [fluxOn, twoInductors, oneInductor, hc]
  · intro c hc
    have : c = "I1" := by by_contra hne; exact hc (hz c hne)
    subst this
    decide +kernel

/-- Those of `C90_circuit_networks` are met by the circuits with one capacitor and with two. -/
example (val val' phi q : String → ℝ) (h1 : val' "C1" + val' "C2" = val "C1") :
    nodesOf (branches moreCapacitors) = nodesOf (branches oneInductor) ∧ (conductors (branches moreCapacitors)).Perm (conductors (branches oneInductor)) ∧
    (∀ n, gateCharge q moreCapacitors n = gateCharge q oneInductor n) ∧ (∀ c, fluxOn phi moreCapacitors c = fluxOn phi oneInductor c) ∧
    ∀ v : ℕ → ℝ, v 0 = 0 → electrostaticForm val' moreCapacitors v = electrostaticForm val oneInductor v := by
  have b3 : branches moreCapacitors = [(0, 1, "C1"), (1, 0, "C2"), (0, 1, "L1"), (0, 1, "I1")] := by decide +kernel
  have b2 : branches oneInductor = [(0, 1, "C1"), (0, 1, "L1"), (0, 1, "I1")] := by decide +kernel
  rw [b2, b3]
  refine ⟨by decide +kernel, by decide +kernel, fun n => ?_, fun c => ?_, fun v h0 => ?_⟩
  · simp [gateCharge, moreCapacitors, oneInductor]
  · simp [fluxOn, moreCapacitors, oneInductor]
  · unfold electrostaticForm
    have s1 : startsWith "C1" 'C' = true := by decide
    have s2 : startsWith "C2" 'C' = true := by decide
    have s3 : ¬ startsWith "I1" 'C' = true := by decide
    have s4 : ¬ startsWith "L1" 'C' = true := by decide
    have g2 : ∀ n, Spec.gateCap val oneInductor n = 0 := by intro n; simp [Spec.gateCap, oneInductor]
    have g3 : ∀ n, Spec.gateCap val' moreCapacitors n = 0 := by intro n; simp [Spec.gateCap, moreCapacitors]
    rw [b2, b3, capacitorForm_cons, capacitorForm_cons, capacitorForm_cons, capacitorForm_cons, capacitorForm_cons, capacitorForm_cons, capacitorForm_cons]
    simp only [if_pos s1, if_pos s2, if_neg s3, if_neg s4, g2, g3, zero_mul, Finset.sum_const_zero, h0, ← h1]
    unfold capacitorForm
    simp [branchesOf]
    ring

end Verif.Props
