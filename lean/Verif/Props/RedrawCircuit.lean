import Verif.Props.NetlistOp
import Verif.Props.Redraw
import Verif.Lemmas.OperatorMap
import Mathlib.LinearAlgebra.Matrix.Reindex

/-!
# C87 for circuits with inductors and phase slips, in any basis
-/

namespace Verif.Props

open Verif Verif.Spec Verif.Circuit Verif.Sym Verif.Num Matrix Complex

/-- An operator of a node, when the nodes are renamed. -/
theorem actsOn_renamed {n n' : ℕ} {cf : ℕ → NodeCfg} (F : ∀ m, Op (cf m).dim) {a : Fin n → ℕ} {a' : Fin n' → ℕ} (σ : Fin n ≃ Fin n') (hσ : ∀ i, a' (σ i) = a i)
    (τ : ((i : Fin n) → Fin (cf (a i)).dim) ≃ ((i : Fin n') → Fin (cf (a' i)).dim))
    (hτ : ∀ x i, ((τ x (σ i) : Fin _) : ℕ) = (x i : ℕ)) (i : Fin n) :
    actsOn (fun i => cf (a' i)) (σ i) (F (a' (σ i))) = Matrix.reindexAlgEquiv ℂ ℂ τ (actsOn (fun i => cf (a i)) i (F (a i))) := by
  ext x' y'
  obtain ⟨x, rfl⟩ := τ.surjective x'
  obtain ⟨y, rfl⟩ := τ.surjective y'
  rw [Matrix.reindexAlgEquiv_apply, Matrix.reindex_apply, Matrix.submatrix_apply, Equiv.symm_apply_apply, Equiv.symm_apply_apply]
  unfold actsOn
  have hF : ∀ m m' (hm : m' = m) (x y : Fin (cf m).dim) (x' y' : Fin (cf m').dim), (x' : ℕ) = x → (y' : ℕ) = y → F m' x' y' = F m x y := by
    rintro m _ rfl x y x' y' h1 h2
    rw [Fin.ext h1, Fin.ext h2]
  have hall : (∀ j, j ≠ σ i → τ x j = τ y j) ↔ ∀ j, j ≠ i → x j = y j := by
    constructor
    · intro h j hj
      have := h (σ j) (fun hh => hj (σ.injective hh))
      apply Fin.ext
      rw [← hτ, ← hτ, this]
    · intro h j hj
      obtain ⟨j, rfl⟩ := σ.surjective j
      have := h j (fun hh => hj (by rw [hh]))
      apply Fin.ext
      rw [hτ, hτ, this]
  simp only [hall, hF _ _ (hσ i) (x i) (y i) _ _ (hτ x i) (hτ y i)]

theorem redrawn_inductors {ρ : ℕ → ℕ} {h h' : List Call} (hr : Redrawn ρ h h') {val : String → ℝ} (hL : ∀ br ∈ branchesOf 'L' (branches h), val br.2.2 ≠ 0) :
    ∀ br ∈ branchesOf 'L' (branches h'), val br.2.2 ≠ 0 := by
  intro b' hb'
  obtain ⟨h1, h2⟩ := List.mem_filter.1 hb'
  obtain ⟨b, hb, h3⟩ := mem_redrawn hr b' h1
  rw [h3.1]
  exact hL b (List.mem_filter.2 ⟨hb, by rw [← h3.1]; exact h2⟩)

theorem redrawn_grounded {ρ : ℕ → ℕ} {h h' : List Call} {g g' : CG} (hs : Settled h g) (hs' : Settled h' g') (hr : Redrawn ρ h h') {φ : String → ℝ} (hg : GroundedBiases φ h) : GroundedBiases φ h' := by
  obtain ⟨hnames, -, -⟩ := C21_names hs
  obtain ⟨hnames', -, -⟩ := C21_names hs'
  intro b' hb' hf
  obtain ⟨h1, h2⟩ := List.mem_filter.1 hb'
  obtain ⟨b, hb, h3, h4⟩ := mem_redrawn hr b' h1
  rw [hr.flux, h3] at hf
  obtain ⟨n, hn0, hn1, hn2⟩ := hg b (List.mem_filter.2 ⟨hb, by rw [← h3]; exact h2⟩) hf
  refine ⟨ρ n, fun h0 => hn0 (hr.inj (h0.trans hr.ground.symm)), ?_, ?_⟩
  · rcases hn1 with ⟨k1, k2⟩ | ⟨k1, k2⟩ <;> rcases h4 with ⟨k3, k4⟩ | ⟨k3, k4⟩ <;> rw [k3, k4, k1, k2, hr.ground] <;> simp
  · intro d' hd' hne
    obtain ⟨l1, l2⟩ := List.mem_filter.1 hd'
    obtain ⟨d, hd, l3, l4⟩ := mem_redrawn hr d' l1
    have hdb : d ≠ b := by
      rintro rfl
      exact hne (List.inj_on_of_nodup_map hnames' l1 h1 (l3.trans h3.symm))
    obtain ⟨m1, m2⟩ := hn2 d (List.mem_filter.2 ⟨hd, by rw [← l3]; exact l2⟩) hdb
    rcases l4 with ⟨k3, k4⟩ | ⟨k3, k4⟩ <;> rw [k3, k4]
    · exact ⟨fun hh => m1 (hr.inj hh), fun hh => m2 (hr.inj hh)⟩
    · exact ⟨fun hh => m2 (hr.inj hh), fun hh => m1 (hr.inj hh)⟩

/-- **C87** Redrawing any circuit of capacitors, inductors, junctions and phase slips does not change its energies, in any bases: rename the nodes, add the branches in another order and
from either end, with the same biases, the same truncations, bases and operators at each node.  Then the redrawn circuit can be quantised as well, and the two Hamiltonians have the same
levels with the same multiplicities.  Missing for the full claim: biased components that the oriented graphs of the two circuits list in opposite directions (`C87_levels_partial` for one of them in
the charge basis; false for several, `C87_false_order`), biased inductors that are not alone at a node (`C59_false`), transforms. -/
theorem C87_circuit_partial (ρ : ℕ → ℕ) (h h' : List Call) (hr : Redrawn ρ h h') (g g' : CG) (hs : Settled h g) (hs' : Settled h' g') (ha : AllOk h) (ha' : AllOk h')
    (hn : CircuitNetlist h) (hn' : CircuitNetlist h') (b b' : Biases) (hb : createFluxBiases g = .ok b) (hb' : createFluxBiases g' = .ok b')
    (val phi q : String → ℝ) (hv : NonnegCaps val h) (hconn : ∀ n ∈ nodesOf (branches h), Conn (capacitiveNet val h) n 0)
    (hL : ∀ br ∈ branchesOf 'L' (branches h), val br.2.2 ≠ 0) (hgr : GroundedBiases phi h)
    (hdir : ∀ c, fluxOn phi h c ≠ 0 → ∀ e ∈ edges g, ∀ e' ∈ edges g', g.cmap.get? e = some c → g'.cmap.get? e' = some c → e'.1 = ρ e.1)
    (pinv : Matrix (Fin (edges g).length) (Fin (edges g).length) ℝ → Matrix (Fin (edges g).length) (Fin (edges g).length) ℝ)
    (hp : ∀ M, IsPinv M (pinv M))
    (pinv' : Matrix (Fin (edges g').length) (Fin (edges g').length) ℝ → Matrix (Fin (edges g').length) (Fin (edges g').length) ℝ)
    (hp' : ∀ M, IsPinv M (pinv' M)) (u : Prefs) (cf : ℕ → NodeCfg) (o : ∀ n, NodeOps (cf n).dim)
    (N : Fin (nodes g).length → BigNode fun i => cf (ρ ((nodes g).get i))) (hN : ∀ i, expandNode _ i (o (ρ ((nodes g).get i))) = some (N i))
    (N' : Fin (nodes g').length → BigNode fun i => cf ((nodes g').get i)) (hN' : ∀ i, expandNode _ i (o ((nodes g').get i)) = some (N' i)) :
    ∃ s H s' H', assemble g b val phi q ⟨false, 1⟩ pinv u = .ok s ∧ hamiltonian (s.withNodes N) = some H ∧
      assemble g' b' val phi q ⟨false, 1⟩ pinv' u = .ok s' ∧ hamiltonian (s'.withNodes N') = some H' ∧
      ∀ k E, LevelsUpTo H k E ↔ LevelsUpTo H' k E := by
  obtain ⟨σ, hσ⟩ := node_bijection hs hs' hr
  have hconn' : ∀ n ∈ nodesOf (branches h'), Conn (capacitiveNet val h') n 0 := by
    obtain ⟨M, hM, hsym, hform⟩ := circuit_capacitance hs ha hn val
    obtain ⟨M', hM', hsym', hform'⟩ := circuit_capacitance hs' ha' hn' val
    have hd := (netlist_det hs val hv _ hsym hform).2 hconn
    rw [← netlist_det hs' val (redrawn_caps hr hv) _ hsym' hform']
    rw [← redrawn_matrix hs hr σ hσ val _ hsym _ hsym' hform hform', det_submatrix_equiv_self] at hd
    exact hd
  obtain ⟨sgn, hsgn, hd, hE⟩ := C97_operator_partial h g hs ha hn b hb
  obtain ⟨sgn', hsgn', hd', hE'⟩ := C97_operator_partial h' g' hs' ha' hn' b' hb'
  obtain ⟨s, C, e1, e2, e3, e4, e5⟩ := hE val phi q hv hconn hL hgr pinv hp u _ _ N hN
  obtain ⟨s', C', f1, f2, f3, f4, f5⟩ := hE' val phi q (redrawn_caps hr hv) hconn' (redrawn_inductors hr hL) (redrawn_grounded hs hs' hr hgr) pinv' hp' u _ _ N' hN'
  refine ⟨s, _, s', _, e1, e5, f1, f5, ?_⟩
  have hC := redrawn_matrix hs hr σ hσ _ C e2 C' f2 e4 f4
  have hcf : ∀ i, cf ((nodes g').get (σ i)) = cf (ρ ((nodes g).get i)) := fun i => by rw [hσ]
  obtain ⟨hnd, -⟩ := C29_rows h g hs
  obtain ⟨hnd', -⟩ := C29_rows h' g' hs'
  let τ : ((i : Fin (nodes g).length) → Fin (cf (ρ ((nodes g).get i))).dim) ≃ ((i : Fin (nodes g').length) → Fin (cf ((nodes g').get i)).dim) :=
    σ.piCongr fun i => finCongr (by rw [hcf i])
  have hτ : ∀ x i, ((τ x (σ i) : Fin _) : ℕ) = (x i : ℕ) := by
    intro x i
    have h2 : τ x (σ i) = finCongr (by rw [hcf i]) (x i) := Equiv.piCongr_apply_apply _ _ _ _
    rw [h2]
    rfl
  have hact : ∀ (F : ∀ n, Op (cf n).dim) (i : Fin (nodes g).length) (X : BigOp fun i => cf (ρ ((nodes g).get i))) (X' : BigOp fun i => cf ((nodes g').get i)),
      expandOp (fun i => cf (ρ ((nodes g).get i))) i (F (ρ ((nodes g).get i))) = some X → expandOp (fun i => cf ((nodes g').get i)) (σ i) (F ((nodes g').get (σ i))) = some X' →
      X' = Matrix.reindexAlgEquiv ℂ ℂ τ X := by
    intro F i X X' h1 h2
    rw [expandOp_some h1, expandOp_some h2]
    exact actsOn_renamed F σ hσ τ hτ i
  have hcomm : ∀ i j, i ≠ j → (N i).D * (N j).Ddag = (N j).Ddag * (N i).D ∧ (N i).S * (N j).Sdag = (N j).Sdag * (N i).S := by
    intro i j hij
    obtain ⟨-, -, d1, -, d3, -⟩ := expandNode_some (hN i)
    obtain ⟨-, -, -, d2, -, d4⟩ := expandNode_some (hN j)
    exact ⟨C39_commute _ i j hij _ _ _ _ d1 d2, C39_commute _ i j hij _ _ _ _ d3 d4⟩
  let Φ : (BigOp fun i => cf (ρ ((nodes g).get i))) →ₐ[ℂ] (BigOp fun i => cf ((nodes g').get i)) := (Matrix.reindexAlgEquiv ℂ ℂ τ).toAlgHom
  have hmap := netlistOperator_map Φ (nodes g) h u.Ec u.El u.Ej u.Ep C val (gateCharge q h) (fun c => sgn c * fluxOn phi h c) (nodeOperators N)
  have hop := netlistOperator_redrawn hr hn.ends hnd hnd' σ hσ u.Ec u.El u.Ej u.Ep C C' hC val q (fun c => sgn c * fluxOn phi h c) (fun c => sgn' c * fluxOn phi h' c) (by
      intro br hbr hLI br' hbr' hnm
      by_cases hz : fluxOn phi h br.2.2 = 0
      · simp only [hr.flux, hz, mul_zero, neg_zero, implies_true, and_self]
      · have hcond : ∀ {h : List Call} (br : ℕ × ℕ × String), br ∈ branches h → startsWith br.2.2 'L' = true ∨ startsWith br.2.2 'I' = true → br ∈ conductors (branches h) := by
          intro h br hbr hLI
          refine List.mem_filter.2 ⟨hbr, ?_⟩
          have : startsWith br.2.2 'C' ≠ true := by
            intro hh
            rcases hLI with hc | hc <;> exact absurd (startsWith_unique hh hc) (by decide)
          simpa using this
        obtain ⟨e, he, hce⟩ := conductor_in_wc_ne hs (hcond br hbr hLI) (hn.ends br hbr)
        obtain ⟨e', he', hce'⟩ := conductor_in_wc_ne hs' (hcond br' hbr' (by rw [hnm]; exact hLI)) (hn'.ends br' hbr')
        have k1 := hd br hbr e he hce
        have k2 := hd' br' hbr' e' he' hce'
        rw [hnm] at k2 hce'
        rw [hdir _ hz e he e' he' hce hce'] at k2
        have k3 : e.1 = br.1 ∨ e.1 = br.2.1 := by
          obtain ⟨d, hd1, hd2, hd3⟩ := wc_branch hs he
          have : d = br := List.inj_on_of_nodup_map (C21_names hs).1 (List.mem_filter.1 hd1).1 hbr (Option.some.inj (hd3.symm.trans hce))
          rw [this] at hd2
          rcases hd2 with ⟨h1, -⟩ | ⟨h1, -⟩
          · exact Or.inl h1
          · exact Or.inr h1
        have hne := hn.ends br hbr
        simp only [hr.flux]
        refine ⟨fun h1 _ => ?_, fun h1 _ => ?_⟩
        · rw [h1] at k2
          congr 1
          have : sgn' br.2.2 = 1 ↔ sgn br.2.2 = 1 := by rw [k1, k2]; exact hr.inj.eq_iff
          rcases hsgn br.2.2 with a1 | a1 <;> rcases hsgn' br.2.2 with a2 | a2 <;> rw [a1, a2] at this ⊢ <;> norm_num at this
        · rw [h1] at k2
          have : sgn' br.2.2 = 1 ↔ ¬ sgn br.2.2 = 1 := by
            rw [k1, k2, hr.inj.eq_iff]
            constructor
            · intro m1 m2; exact hne (m2.symm.trans m1)
            · intro m1; exact k3.resolve_left m1
          rw [← neg_mul]
          congr 1
          rcases hsgn br.2.2 with a1 | a1 <;> rcases hsgn' br.2.2 with a2 | a2 <;> rw [a1, a2] at this ⊢ <;> first | (exfalso; norm_num at this; done) | norm_num) (mapOperators Φ (nodeOperators N)) (nodeOperators N') (by
      intro i
      obtain ⟨a1, a2, a3, a4, a5, a6⟩ := expandNode_some (hN i)
      obtain ⟨b1, b2, b3, b4, b5, b6⟩ := expandNode_some (hN' (σ i))
      exact ⟨hact (fun n => (o n).Q) i _ _ a1 b1, hact (fun n => (o n).P) i _ _ a2 b2, hact (fun n => (o n).D) i _ _ a3 b3, hact (fun n => (o n).Ddag) i _ _ a4 b4,
        hact (fun n => (o n).S) i _ _ a5 b5, hact (fun n => (o n).Sdag) i _ _ a6 b6⟩)
    (fun a c hac => atNumber_comm _ _ (fun i j hij => by
      show Φ (N i).D * Φ (N j).Ddag = Φ (N j).Ddag * Φ (N i).D
      rw [← map_mul, ← map_mul, (hcomm i j hij).1]) hac)
    (fun a c hac => atNumber_comm _ _ (fun i j hij => by
      show Φ (N i).S * Φ (N j).Sdag = Φ (N j).Sdag * Φ (N i).S
      rw [← map_mul, ← map_mul, (hcomm i j hij).2]) hac)
  rw [← hmap] at hop
  have hAB : ∀ x y, netlistOperator (nodes g') h' u.Ec u.El u.Ej u.Ep C' val (gateCharge q h') (fun c => sgn' c * fluxOn phi h' c) (nodeOperators N') (τ x) (τ y) =
      netlistOperator (nodes g) h u.Ec u.El u.Ej u.Ep C val (gateCharge q h) (fun c => sgn c * fluxOn phi h c) (nodeOperators N) x y := by
    intro x y
    rw [hop]
    show Matrix.reindexAlgEquiv ℂ ℂ τ _ (τ x) (τ y) = _
    rw [Matrix.reindexAlgEquiv_apply, Matrix.reindex_apply, Matrix.submatrix_apply, Equiv.symm_apply_apply, Equiv.symm_apply_apply]
  intro k E
  refine ⟨levelsUpTo_reindex τ hAB k E, levelsUpTo_reindex τ.symm (fun x y => ?_) k E⟩
  rw [← hAB, τ.apply_symm_apply, τ.apply_symm_apply]

/-- The circuit `slipSquid` with node 3 in place of node 1, its branches in another order and some of them from the other end. -/
def redrawnSlip : List Call :=
  [.addBranch Orc.id 3 2 "V1", .addBranch Orc.id 2 3 "C2", .addBranch Orc.id 3 0 "I1", .addBranch Orc.id 0 3 "L1", .addBranch Orc.id 3 0 "C1",
    .addChargeBias 2 (some "g") none, .addFluxBias "L1" (some "z") none]

/-- The hypotheses of `C87_circuit_partial` on the two descriptions are met (for the others see `C97_operator_partial`). -/
example : Redrawn (Equiv.swap 1 3) slipSquid redrawnSlip ∧ Settled redrawnSlip (run {} redrawnSlip) ∧ AllOk redrawnSlip ∧ CircuitNetlist redrawnSlip ∧
    (∃ b, createFluxBiases (run {} redrawnSlip) = .ok b) ∧
    ∀ c, c = "L1" → ∀ e ∈ edges (run {} slipSquid), ∀ e' ∈ edges (run {} redrawnSlip), (run {} slipSquid).cmap.get? e = some c → (run {} redrawnSlip).cmap.get? e' = some c →
      e'.1 = Equiv.swap 1 3 e.1 := by
  have hb' : branches redrawnSlip = [(3, 2, "V1"), (2, 3, "C2"), (3, 0, "I1"), (0, 3, "L1"), (3, 0, "C1")] := by decide +kernel
  have h0 : Equiv.swap 1 3 0 = 0 := by decide
  have h1 : Equiv.swap 1 3 1 = 3 := by decide
  have h2 : Equiv.swap 1 3 2 = 2 := by decide
  have hsw : ∀ n : ℕ, 2 = Equiv.swap 1 3 n ↔ 2 = n := fun n => by
    exact ⟨fun h => (Equiv.swap 1 3).injective (h2.trans h), fun h => h ▸ h2.symm⟩
  refine ⟨⟨(Equiv.swap 1 3).injective, h0, ⟨[(3, 0, "C1"), (0, 3, "L1"), (3, 0, "I1"), (2, 3, "C2"), (3, 2, "V1")], ?_, ?_⟩, ?_, ?_, ?_⟩, ?_, ?_, ?_, ?_, ?_⟩
  · rw [hb']
    exact List.reverse_perm [(3, 2, "V1"), (2, 3, "C2"), (3, 0, "I1"), (0, 3, "L1"), (3, 0, "C1")]
  · rw [slipSquid_branches]
    exact .cons ⟨rfl, Or.inr ⟨h1.symm, h0.symm⟩⟩ (.cons ⟨rfl, Or.inl ⟨h0.symm, h1.symm⟩⟩ (.cons ⟨rfl, Or.inr ⟨h1.symm, h0.symm⟩⟩
      (.cons ⟨rfl, Or.inr ⟨h2.symm, h1.symm⟩⟩ (.cons ⟨rfl, Or.inl ⟨h1.symm, h2.symm⟩⟩ .nil))))
  · intro φ c
    by_cases hc : "L1" = c <;> simp [fluxOn, slipSquid, redrawnSlip, hc]
  · intro q n
    have hsw' : ((2 : ℕ) = Equiv.swap 1 3 n) = (2 = n) := propext (hsw n)
    by_cases hc : 2 = n
    · subst hc; simp [gateCharge, slipSquid, redrawnSlip, h2]
    · simp [gateCharge, slipSquid, redrawnSlip, hsw', hc]
  · intro val n
    simp [Spec.gateCap, slipSquid, redrawnSlip]
  · exact ⟨[.addBranch Orc.id 3 2 "V1", .addBranch Orc.id 2 3 "C2", .addBranch Orc.id 3 0 "I1", .addBranch Orc.id 0 3 "L1"], Orc.id, 3, 0, "C1",
      [.addChargeBias 2 (some "g") none, .addFluxBias "L1" (some "z") none], rfl, by simp [redrawnSlip, Call.OK, orcId_ok], by decide +kernel, by simp, rfl⟩
  · apply allOk_of_prefixes
    decide +kernel
  · refine ⟨by simp [redrawnSlip], ?_, ?_⟩ <;> rw [hb'] <;> decide +kernel
  · cases hc : createFluxBiases (run {} redrawnSlip) with
    | ok b => exact ⟨b, rfl⟩
    | error e =>
      have : (createFluxBiases (run {} redrawnSlip)).toOption.isSome = true := by decide +kernel
      rw [hc] at this
      cases this
  · rintro c rfl
    decide +kernel

end Verif.Props
