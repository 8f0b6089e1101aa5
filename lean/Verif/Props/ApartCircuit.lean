import Verif.Props.CircuitResponse
import Verif.Props.Apart
import Verif.Props.RedrawCircuit
import Verif.Lemmas.ApartOperator

/-!
# C93 for circuits with inductors and phase slips, in any basis
-/

namespace Verif.Props

open Verif Verif.Spec Verif.Circuit Verif.Sym Verif.Num Matrix Complex

/-- The Hamiltonian of a circuit is Hermitian. -/
theorem circuit_hermitian {h : List Call} {g : CG} (hs : Settled h g) (ha : AllOk h) (hn : CircuitNetlist h) {b : Biases} {val phi q : String → ℝ}
    (hL : ∀ br ∈ branchesOf 'L' (branches h), val br.2.2 ≠ 0) {t : Transform ℝ (nodes g).length}
    {pinv : Matrix (Fin (edges g).length) (Fin (edges g).length) ℝ → Matrix (Fin (edges g).length) (Fin (edges g).length) ℝ}
    (hp : ∀ M, IsPinv M (pinv M)) {u : Prefs} {cfg : Fin (nodes g).length → NodeCfg} {o : ∀ i, NodeOps (cfg i).dim} (ho : ∀ i, Adjoint (o i))
    {N : Fin (nodes g).length → BigNode cfg} (hN : ∀ i, expandNode cfg i (o i) = some (N i)) {s : Sys PUnit (nodes g).length (edges g).length} {H : BigOp cfg}
    (h1 : assemble g b val phi q t pinv u = .ok s) (h2 : hamiltonian (s.withNodes N) = some H) : H.IsHermitian := by
  obtain ⟨C, L, e1, e2, e3, e4, e5, e6, e7, e8, e9, e10, e11, e12, e13, e14, e15⟩ := assembled hs ha hn hL hp h1
  have hsym := C33_symmetric t C L s.Cinv e1 e5 e4
  exact C66_hermitian (s.withNodes N) (goodOps_withNodes s N o ho hN fun i => by rw [e14]; exact branchTerms_good g _ _) hsym.1
    (by show s.Linvᵀ = s.Linv; rw [e7]; exact hsym.2) H h2

/-- The states of the circuit are the pairs of states of its parts. -/
theorem apart_spaces {ns n1 n2 : List ℕ} (cf : ℕ → NodeCfg) (σ : Fin n1.length ⊕ Fin n2.length ≃ Fin ns.length)
    (hσ1 : ∀ i, ns.get (σ (.inl i)) = n1.get i) (hσ2 : ∀ i, ns.get (σ (.inr i)) = n2.get i) :
    ∃ τ : ((i : Fin n1.length) → Fin (cf (n1.get i)).dim) × ((i : Fin n2.length) → Fin (cf (n2.get i)).dim) ≃ ((i : Fin ns.length) → Fin (cf (ns.get i)).dim),
      ∀ x, (∀ i, ((τ x (σ (.inl i)) : Fin _) : ℕ) = x.1 i) ∧ ∀ i, ((τ x (σ (.inr i)) : Fin _) : ℕ) = x.2 i := by
  have htr : ∀ k, cf (ns.get (σ k)) = cf (Sum.elim n1.get n2.get k) := by
    rintro (i | i)
    · rw [hσ1]; rfl
    · rw [hσ2]; rfl
  let ψ := (Equiv.sumPiEquivProdPi (fun k => Fin (cf (Sum.elim n1.get n2.get k)).dim)).symm
  let ρ : ((k : Fin n1.length ⊕ Fin n2.length) → Fin (cf (Sum.elim n1.get n2.get k)).dim) ≃ ((i : Fin ns.length) → Fin (cf (ns.get i)).dim) :=
    σ.piCongr fun k => finCongr (by rw [htr k])
  have hρ : ∀ z k, ((ρ z (σ k) : Fin _) : ℕ) = ((z k : Fin _) : ℕ) := by
    intro z k
    have h2 : ρ z (σ k) = finCongr (by rw [htr k]) (z k) := Equiv.piCongr_apply_apply _ _ _ _
    rw [h2]
    rfl
  exact ⟨ψ.trans ρ, fun x => ⟨fun i => hρ (ψ x) _, fun i => hρ (ψ x) _⟩⟩

/-- An operator of a node of the first part. -/
theorem actsOn_part {ns n1 n2 : List ℕ} {cf : ℕ → NodeCfg} (F : ∀ m, Op (cf m).dim) (σ : Fin n1.length ⊕ Fin n2.length ≃ Fin ns.length)
    (hσ1 : ∀ i, ns.get (σ (.inl i)) = n1.get i) (x y : (i : Fin ns.length) → Fin (cf (ns.get i)).dim)
    (x1 y1 : (i : Fin n1.length) → Fin (cf (n1.get i)).dim) (x2 y2 : (i : Fin n2.length) → Fin (cf (n2.get i)).dim)
    (hx1 : ∀ i, ((x (σ (.inl i)) : Fin _) : ℕ) = x1 i) (hy1 : ∀ i, ((y (σ (.inl i)) : Fin _) : ℕ) = y1 i)
    (hx2 : ∀ i, ((x (σ (.inr i)) : Fin _) : ℕ) = x2 i) (hy2 : ∀ i, ((y (σ (.inr i)) : Fin _) : ℕ) = y2 i) (i : Fin n1.length) :
    actsOn (fun i => cf (ns.get i)) (σ (.inl i)) (F (ns.get (σ (.inl i)))) x y =
      if x2 = y2 then actsOn (fun i => cf (n1.get i)) i (F (n1.get i)) x1 y1 else 0 := by
  unfold actsOn
  have hF : ∀ m m' (hm : m' = m) (x y : Fin (cf m).dim) (x' y' : Fin (cf m').dim), (x' : ℕ) = x → (y' : ℕ) = y → F m' x' y' = F m x y := by
    rintro m _ rfl x y x' y' h1 h2
    rw [Fin.ext h1, Fin.ext h2]
  have hall : (∀ j, j ≠ σ (.inl i) → x j = y j) ↔ x2 = y2 ∧ ∀ j, j ≠ i → x1 j = y1 j := by
    constructor
    · intro h
      refine ⟨funext fun j => ?_, fun j hj => ?_⟩
      · have := h (σ (.inr j)) (fun hh => by have := σ.injective hh; cases this)
        apply Fin.ext
        rw [← hx2, ← hy2, this]
      · have := h (σ (.inl j)) (fun hh => hj (Sum.inl_injective (σ.injective hh)))
        apply Fin.ext
        rw [← hx1, ← hy1, this]
    · rintro ⟨h, h'⟩ j hj
      obtain ⟨j | j, rfl⟩ := σ.surjective j
      · have := h' j (fun hh => hj (by rw [hh]))
        apply Fin.ext
        rw [hx1, hy1, this]
      · apply Fin.ext
        rw [hx2, hy2, h]
  simp only [hall, hF _ _ (hσ1 i) (x1 i) (y1 i) _ _ (hx1 i) (hy1 i), ite_and]

/-- The sign with which a biased component enters is the same in two circuits that list it in the same direction. -/
theorem same_sign {h h1 : List Call} {g g1 : CG} (hs : Settled h g) (hs1 : Settled h1 g1) (hn : CircuitNetlist h) {sgn sgn1 : String → ℝ}
    (hsgn : ∀ c, sgn c = 1 ∨ sgn c = -1) (hsgn1 : ∀ c, sgn1 c = 1 ∨ sgn1 c = -1)
    (hd : ∀ br ∈ branches h, ∀ e ∈ edges g, g.cmap.get? e = some br.2.2 → (sgn br.2.2 = 1 ↔ e.1 = br.1))
    (hd1 : ∀ br ∈ branches h1, ∀ e ∈ edges g1, g1.cmap.get? e = some br.2.2 → (sgn1 br.2.2 = 1 ↔ e.1 = br.1)) (phi : String → ℝ)
    (hdir : ∀ c, fluxOn phi h1 c ≠ 0 → ∀ e ∈ edges g, ∀ e1 ∈ edges g1, g.cmap.get? e = some c → g1.cmap.get? e1 = some c → e1.1 = e.1)
    (br : ℕ × ℕ × String) (hbr : br ∈ branches h) (hbr1 : br ∈ branches h1) (hLI : startsWith br.2.2 'L' = true ∨ startsWith br.2.2 'I' = true)
    (hfl : fluxOn phi h br.2.2 = fluxOn phi h1 br.2.2) : sgn br.2.2 * fluxOn phi h br.2.2 = sgn1 br.2.2 * fluxOn phi h1 br.2.2 := by
  rw [hfl]
  by_cases hz : fluxOn phi h1 br.2.2 = 0
  · rw [hz, mul_zero, mul_zero]
  have hcond : ∀ {h : List Call}, br ∈ branches h → br ∈ conductors (branches h) := by
    intro h hbr
    refine List.mem_filter.2 ⟨hbr, ?_⟩
    have : startsWith br.2.2 'C' ≠ true := by
      intro hh
      rcases hLI with hc | hc <;> exact absurd (startsWith_unique hh hc) (by decide)
    simpa using this
  obtain ⟨e, he, hce⟩ := conductor_in_wc_ne hs (hcond hbr) (hn.ends br hbr)
  obtain ⟨e1, he1, hce1⟩ := conductor_in_wc_ne hs1 (hcond hbr1) (hn.ends br hbr)
  have k1 := hd br hbr e he hce
  have k2 := hd1 br hbr1 e1 he1 hce1
  rw [hdir _ hz e he e1 he1 hce hce1, ← k1] at k2
  congr 1
  rcases hsgn br.2.2 with a1 | a1 <;> rcases hsgn1 br.2.2 with a2 | a2 <;> rw [a1, a2] at k2 ⊢ <;> norm_num at k2

theorem apart_nonneg {h h1 h2 : List Call} (hap : Apart h h1 h2) {val : String → ℝ} (hv1 : NonnegCaps val h1) (hv2 : NonnegCaps val h2) : NonnegCaps val h := by
  refine ⟨fun d hd => ?_, fun n hn => ?_⟩
  · obtain ⟨hd1, hd2⟩ := List.mem_filter.1 hd
    rcases List.mem_append.1 (hap.branches.subset hd1) with hd3 | hd3
    · exact hv1.1 d (List.mem_filter.2 ⟨hd3, hd2⟩)
    · exact hv2.1 d (List.mem_filter.2 ⟨hd3, hd2⟩)
  · rw [apart_nodes hap, Finset.mem_union] at hn
    rcases hn with hn | hn
    · rw [hap.caps1 val n hn]; exact hv1.2 n hn
    · rw [hap.caps2 val n hn]; exact hv2.2 n hn

theorem ends_nodes {bs : List (ℕ × ℕ × String)} {b : ℕ × ℕ × String} (hb : b ∈ bs) : b.1 ∈ nodesOf bs ∧ b.2.1 ∈ nodesOf bs := by
  simp only [nodesOf, List.mem_toFinset, List.mem_flatMap]
  exact ⟨⟨b, hb, by simp⟩, ⟨b, hb, by simp⟩⟩

theorem apart_grounded {h h1 h2 : List Call} (hap : Apart h h1 h2) {phi : String → ℝ} (hg1 : GroundedBiases phi h1) (hg2 : GroundedBiases phi h2) :
    GroundedBiases phi h := by
  intro b hb hf
  obtain ⟨hb1, hb2⟩ := List.mem_filter.1 hb
  rcases List.mem_append.1 (hap.branches.subset hb1) with hb3 | hb3
  · rw [hap.flux1 phi b hb3] at hf
    obtain ⟨n, hn0, hn1, hn2⟩ := hg1 b (List.mem_filter.2 ⟨hb3, hb2⟩) hf
    have hn : n ∈ nodesOf (branches h1) := by rcases hn1 with ⟨-, k⟩ | ⟨k, -⟩ <;> rw [← k]; exacts [(ends_nodes hb3).2, (ends_nodes hb3).1]
    refine ⟨n, hn0, hn1, fun d hd hne => ?_⟩
    obtain ⟨hd1, hd2⟩ := List.mem_filter.1 hd
    rcases List.mem_append.1 (hap.branches.subset hd1) with hd3 | hd3
    · exact hn2 d (List.mem_filter.2 ⟨hd3, hd2⟩) hne
    · exact ⟨fun hc => hn0 (hap.common n hn (hc ▸ (ends_nodes hd3).1)), fun hc => hn0 (hap.common n hn (hc ▸ (ends_nodes hd3).2))⟩
  · rw [hap.flux2 phi b hb3] at hf
    obtain ⟨n, hn0, hn1, hn2⟩ := hg2 b (List.mem_filter.2 ⟨hb3, hb2⟩) hf
    have hn : n ∈ nodesOf (branches h2) := by rcases hn1 with ⟨-, k⟩ | ⟨k, -⟩ <;> rw [← k]; exacts [(ends_nodes hb3).2, (ends_nodes hb3).1]
    refine ⟨n, hn0, hn1, fun d hd hne => ?_⟩
    obtain ⟨hd1, hd2⟩ := List.mem_filter.1 hd
    rcases List.mem_append.1 (hap.branches.subset hd1) with hd3 | hd3
    · exact ⟨fun hc => hn0 (hap.common n (hc ▸ (ends_nodes hd3).1) hn), fun hc => hn0 (hap.common n (hc ▸ (ends_nodes hd3).2) hn)⟩
    · exact hn2 d (List.mem_filter.2 ⟨hd3, hd2⟩) hne

/-- **C93** The levels of any circuit of capacitors, inductors, junctions and phase slips of two parts that share only the ground, in any bases, are the sums of a level of one part and a
level of the other, with the multiplicities this gives; the circuit can be quantised if its parts can.  A biased inductor goes from the ground to a node without other inductors, and the
oriented graph of the circuit lists the biased components in the direction in which those of the parts do. -/
theorem C93_circuit (h h1 h2 : List Call) (g g1 g2 : CG) (hs : Settled h g) (hs1 : Settled h1 g1) (hs2 : Settled h2 g2) (ha : AllOk h) (ha1 : AllOk h1) (ha2 : AllOk h2)
    (hn : CircuitNetlist h) (hn1 : CircuitNetlist h1) (hn2 : CircuitNetlist h2) (b b1 b2 : Biases) (hb : createFluxBiases g = .ok b) (hb1 : createFluxBiases g1 = .ok b1)
    (hb2 : createFluxBiases g2 = .ok b2) (hap : Apart h h1 h2) (u : Prefs) (val phi q : String → ℝ) (hv1 : NonnegCaps val h1) (hv2 : NonnegCaps val h2)
    (hconn1 : ∀ n ∈ nodesOf (branches h1), Conn (capacitiveNet val h1) n 0) (hconn2 : ∀ n ∈ nodesOf (branches h2), Conn (capacitiveNet val h2) n 0)
    (hL1 : ∀ br ∈ branchesOf 'L' (branches h1), val br.2.2 ≠ 0) (hL2 : ∀ br ∈ branchesOf 'L' (branches h2), val br.2.2 ≠ 0)
    (hg1 : GroundedBiases phi h1) (hg2 : GroundedBiases phi h2)
    (hdir1 : ∀ c, fluxOn phi h1 c ≠ 0 → ∀ e ∈ edges g, ∀ e1 ∈ edges g1, g.cmap.get? e = some c → g1.cmap.get? e1 = some c → e1.1 = e.1)
    (hdir2 : ∀ c, fluxOn phi h2 c ≠ 0 → ∀ e ∈ edges g, ∀ e2 ∈ edges g2, g.cmap.get? e = some c → g2.cmap.get? e2 = some c → e2.1 = e.1)
    (pinv : Matrix (Fin (edges g).length) (Fin (edges g).length) ℝ → Matrix (Fin (edges g).length) (Fin (edges g).length) ℝ) (hp : ∀ M, IsPinv M (pinv M))
    (pinv1 : Matrix (Fin (edges g1).length) (Fin (edges g1).length) ℝ → Matrix (Fin (edges g1).length) (Fin (edges g1).length) ℝ) (hp1 : ∀ M, IsPinv M (pinv1 M))
    (pinv2 : Matrix (Fin (edges g2).length) (Fin (edges g2).length) ℝ → Matrix (Fin (edges g2).length) (Fin (edges g2).length) ℝ) (hp2 : ∀ M, IsPinv M (pinv2 M))
    (cf : ℕ → NodeCfg) (o : ∀ n, NodeOps (cf n).dim) (ho : ∀ n, Adjoint (o n))
    (N : Fin (nodes g).length → BigNode fun i => cf ((nodes g).get i)) (hN : ∀ i, expandNode _ i (o ((nodes g).get i)) = some (N i))
    (N1 : Fin (nodes g1).length → BigNode fun i => cf ((nodes g1).get i)) (hN1 : ∀ i, expandNode _ i (o ((nodes g1).get i)) = some (N1 i))
    (N2 : Fin (nodes g2).length → BigNode fun i => cf ((nodes g2).get i)) (hN2 : ∀ i, expandNode _ i (o ((nodes g2).get i)) = some (N2 i)) :
    ∃ s H s1 H1 s2 H2, assemble g b val phi q ⟨false, 1⟩ pinv u = .ok s ∧ hamiltonian (s.withNodes N) = some H ∧
      assemble g1 b1 val phi q ⟨false, 1⟩ pinv1 u = .ok s1 ∧ hamiltonian (s1.withNodes N1) = some H1 ∧
      assemble g2 b2 val phi q ⟨false, 1⟩ pinv2 u = .ok s2 ∧ hamiltonian (s2.withNodes N2) = some H2 ∧
      ∃ (a : ((i : Fin (nodes g1).length) → Fin (cf ((nodes g1).get i)).dim) → ℝ) (c : ((i : Fin (nodes g2).length) → Fin (cf ((nodes g2).get i)).dim) → ℝ),
        (∀ k E, LevelsUpTo H1 k E ↔ k ≤ (Finset.univ.filter fun x => a x ≤ E).card) ∧ (∀ k E, LevelsUpTo H2 k E ↔ k ≤ (Finset.univ.filter fun x => c x ≤ E).card) ∧
        ∀ k E, LevelsUpTo H k E ↔ k ≤ (Finset.univ.filter fun x : ((i : Fin (nodes g1).length) → Fin (cf ((nodes g1).get i)).dim) ×
          ((i : Fin (nodes g2).length) → Fin (cf ((nodes g2).get i)).dim) => a x.1 + c x.2 ≤ E).card := by
  classical
  have hL : ∀ br ∈ branchesOf 'L' (branches h), val br.2.2 ≠ 0 := by
    intro d hd
    obtain ⟨hd1, hd2⟩ := List.mem_filter.1 hd
    rcases List.mem_append.1 (hap.branches.subset hd1) with hd3 | hd3
    · exact hL1 d (List.mem_filter.2 ⟨hd3, hd2⟩)
    · exact hL2 d (List.mem_filter.2 ⟨hd3, hd2⟩)
  obtain ⟨sgn, hsgn, hd, hE⟩ := C97_operator_partial h g hs ha hn b hb
  obtain ⟨sgn1, hsgn1, hd1, hE1⟩ := C97_operator_partial h1 g1 hs1 ha1 hn1 b1 hb1
  obtain ⟨sgn2, hsgn2, hd2, hE2⟩ := C97_operator_partial h2 g2 hs2 ha2 hn2 b2 hb2
  obtain ⟨s, C, e1, e2, e3, e4, e5⟩ := hE val phi q (apart_nonneg hap hv1 hv2) (apart_conn hap val hconn1 hconn2) hL (apart_grounded hap hg1 hg2) pinv hp u _ _ N hN
  obtain ⟨s1, C1, f1, f2, f3, f4, f5⟩ := hE1 val phi q hv1 hconn1 hL1 hg1 pinv1 hp1 u _ _ N1 hN1
  obtain ⟨s2, C2, k1, k2, k3, k4, k5⟩ := hE2 val phi q hv2 hconn2 hL2 hg2 pinv2 hp2 u _ _ N2 hN2
  refine ⟨s, _, s1, _, s2, _, e1, e5, f1, f5, k1, k5, ?_⟩
  have hA := circuit_hermitian hs1 ha1 hn1 hL1 hp1 (fun i => ho _) hN1 f1 f5
  have hB := circuit_hermitian hs2 ha2 hn2 hL2 hp2 (fun i => ho _) hN2 k1 k5
  obtain ⟨σ, hσ1, hσ2⟩ := apart_equiv hs hs1 hs2 hap
  have hC := apart_inverse σ C C1 C2 (apart_matrix hs hap σ hσ1 hσ2 _ C C1 C2 e2 f2 k2 e4 f4 k4) f3 k3
  obtain ⟨τ, hτ⟩ := apart_spaces cf σ hσ1 hσ2
  obtain ⟨hnd, -⟩ := C29_rows h g hs
  obtain ⟨hnd1, hmem1⟩ := C29_rows h1 g1 hs1
  obtain ⟨hnd2, hmem2⟩ := C29_rows h2 g2 hs2
  refine levelsUpTo_sum hA hB τ fun x y => ?_
  let Ψ : (BigOp fun i => cf ((nodes g).get i)) →ₐ[ℂ] Matrix (((i : Fin (nodes g1).length) → Fin (cf ((nodes g1).get i)).dim) × ((i : Fin (nodes g2).length) → Fin (cf ((nodes g2).get i)).dim))
      (((i : Fin (nodes g1).length) → Fin (cf ((nodes g1).get i)).dim) × ((i : Fin (nodes g2).length) → Fin (cf ((nodes g2).get i)).dim)) ℂ := (Matrix.reindexAlgEquiv ℂ ℂ τ.symm).toAlgHom
  have hΨ : ∀ (X : BigOp fun i => cf ((nodes g).get i)) x y, Ψ X x y = X (τ x) (τ y) := fun X x y => rfl
  have hop := netlistOperator_apart hap.branches hnd hnd1 hnd2 σ hσ1 hσ2
    (fun d hd => ⟨fun hc => ((hmem2 _).1 hc).2 (hap.common _ (ends_nodes hd).1 ((hmem2 _).1 hc).1), fun hc => ((hmem2 _).1 hc).2 (hap.common _ (ends_nodes hd).2 ((hmem2 _).1 hc).1)⟩)
    (fun d hd => ⟨fun hc => ((hmem1 _).1 hc).2 (hap.common _ ((hmem1 _).1 hc).1 (ends_nodes hd).1), fun hc => ((hmem1 _).1 hc).2 (hap.common _ ((hmem1 _).1 hc).1 (ends_nodes hd).2)⟩)
    u.Ec u.El u.Ej u.Ep C C1 C2 hC val (gateCharge q h) (gateCharge q h1) (gateCharge q h2)
    (fun n hn => hap.charge1 q n ((hmem1 n).1 hn).1) (fun n hn => hap.charge2 q n ((hmem2 n).1 hn).1)
    (fun d hd => ⟨hap.charge1 q _ (ends_nodes hd).1, hap.charge1 q _ (ends_nodes hd).2⟩) (fun d hd => ⟨hap.charge2 q _ (ends_nodes hd).1, hap.charge2 q _ (ends_nodes hd).2⟩)
    (fun c => sgn c * fluxOn phi h c) (fun c => sgn1 c * fluxOn phi h1 c) (fun c => sgn2 c * fluxOn phi h2 c)
    (fun d hd' hLI => same_sign hs hs1 hn hsgn hsgn1 hd hd1 phi hdir1 d (hap.branches.symm.subset (List.mem_append_left _ hd')) hd' hLI (hap.flux1 phi d hd'))
    (fun d hd' hLI => same_sign hs hs2 hn hsgn hsgn2 hd hd2 phi hdir2 d (hap.branches.symm.subset (List.mem_append_right _ hd')) hd' hLI (hap.flux2 phi d hd'))
    (mapOperators Ψ (nodeOperators N)) (mapOperators (leftHom _ _) (nodeOperators N1)) (mapOperators (rightHom _ _) (nodeOperators N2))
    (by
      have key : ∀ (F : ∀ n, Op (cf n).dim) (i : Fin (nodes g1).length) (X : BigOp fun i => cf ((nodes g).get i)) (X1 : BigOp fun i => cf ((nodes g1).get i)),
          expandOp (fun i => cf ((nodes g).get i)) (σ (.inl i)) (F ((nodes g).get (σ (.inl i)))) = some X → expandOp (fun i => cf ((nodes g1).get i)) i (F ((nodes g1).get i)) = some X1 →
          Ψ X = leftHom _ _ X1 := by
        intro F i X X1 h1 h2
        ext x y
        rw [hΨ, leftHom_apply, expandOp_some h1, expandOp_some h2]
        exact actsOn_part F σ hσ1 (τ x) (τ y) x.1 y.1 x.2 y.2 (hτ x).1 (hτ y).1 (hτ x).2 (hτ y).2 i
      intro i
      obtain ⟨a1, a2, a3, a4, a5, a6⟩ := expandNode_some (hN (σ (.inl i)))
      obtain ⟨b1, b2, b3, b4, b5, b6⟩ := expandNode_some (hN1 i)
      exact ⟨key (fun n => (o n).Q) i _ _ a1 b1, key (fun n => (o n).P) i _ _ a2 b2, key (fun n => (o n).D) i _ _ a3 b3, key (fun n => (o n).Ddag) i _ _ a4 b4,
        key (fun n => (o n).S) i _ _ a5 b5, key (fun n => (o n).Sdag) i _ _ a6 b6⟩)
    (by
      have key : ∀ (F : ∀ n, Op (cf n).dim) (i : Fin (nodes g2).length) (X : BigOp fun i => cf ((nodes g).get i)) (X1 : BigOp fun i => cf ((nodes g2).get i)),
          expandOp (fun i => cf ((nodes g).get i)) (σ (.inr i)) (F ((nodes g).get (σ (.inr i)))) = some X → expandOp (fun i => cf ((nodes g2).get i)) i (F ((nodes g2).get i)) = some X1 →
          Ψ X = rightHom _ _ X1 := by
        intro F i X X1 h1 h2
        ext x y
        rw [hΨ, rightHom_apply, expandOp_some h1, expandOp_some h2]
        exact actsOn_part F ((Equiv.sumComm _ _).trans σ) hσ2 (τ x) (τ y) x.2 y.2 x.1 y.1 (hτ x).2 (hτ y).2 (hτ x).1 (hτ y).1 i
      intro i
      obtain ⟨a1, a2, a3, a4, a5, a6⟩ := expandNode_some (hN (σ (.inr i)))
      obtain ⟨b1, b2, b3, b4, b5, b6⟩ := expandNode_some (hN2 i)
      exact ⟨key (fun n => (o n).Q) i _ _ a1 b1, key (fun n => (o n).P) i _ _ a2 b2, key (fun n => (o n).D) i _ _ a3 b3, key (fun n => (o n).Ddag) i _ _ a4 b4,
        key (fun n => (o n).S) i _ _ a5 b5, key (fun n => (o n).Sdag) i _ _ a6 b6⟩)
  rw [← netlistOperator_map, ← netlistOperator_map, ← netlistOperator_map] at hop
  refine (hΨ _ x y).symm.trans ?_
  rw [hop, Matrix.add_apply, leftHom_apply, rightHom_apply]

/-- A transmon on node 3. -/
def thirdTransmon : List Call := [.addBranch Orc.id 3 0 "C3", .addBranch Orc.id 0 3 "I3", .addChargeBias 3 (some "g3") none]

/-- The circuit `slipSquid` and the transmon on node 3. -/
def slipAndTransmon : List Call :=
  [.addBranch Orc.id 0 1 "C1", .addBranch Orc.id 0 1 "L1", .addBranch Orc.id 0 1 "I1", .addBranch Orc.id 1 2 "C2", .addBranch Orc.id 1 2 "V1",
    .addBranch Orc.id 3 0 "C3", .addBranch Orc.id 0 3 "I3",
    .addFluxBias "L1" (some "z") none, .addChargeBias 2 (some "g") none, .addChargeBias 3 (some "g3") none]

/-- The hypotheses of `C93_circuit` on the descriptions are met (for the others see `C97_operator_partial`). -/
example (phi : String → ℝ) : (Settled thirdTransmon (run {} thirdTransmon) ∧ AllOk thirdTransmon ∧ CircuitNetlist thirdTransmon ∧
      ∃ b, createFluxBiases (run {} thirdTransmon) = .ok b) ∧
    (Settled slipAndTransmon (run {} slipAndTransmon) ∧ AllOk slipAndTransmon ∧ CircuitNetlist slipAndTransmon ∧
      ∃ b, createFluxBiases (run {} slipAndTransmon) = .ok b) ∧
    Apart slipAndTransmon slipSquid thirdTransmon ∧ GroundedBiases phi thirdTransmon ∧ fluxOn phi slipSquid "L1" = phi "z" ∧
    (∀ c, fluxOn phi slipSquid c ≠ 0 → ∀ e ∈ edges (run {} slipAndTransmon), ∀ e1 ∈ edges (run {} slipSquid), (run {} slipAndTransmon).cmap.get? e = some c →
      (run {} slipSquid).cmap.get? e1 = some c → e1.1 = e.1) ∧ ∀ c, fluxOn phi thirdTransmon c = 0 := by
  have hbs : ∀ g : CG, (createFluxBiases g).toOption.isSome = true → ∃ b, createFluxBiases g = .ok b := by
    intro g hg
    cases hc : createFluxBiases g with
    | ok b => exact ⟨b, rfl⟩
    | error e => rw [hc] at hg; cases hg
  have hb2 : branches thirdTransmon = [(3, 0, "C3"), (0, 3, "I3")] := by decide +kernel
  have hb : branches slipAndTransmon = [(0, 1, "C1"), (0, 1, "L1"), (0, 1, "I1"), (1, 2, "C2"), (1, 2, "V1"), (3, 0, "C3"), (0, 3, "I3")] := by decide +kernel
  have n1 : ∀ n, n ∈ nodesOf (branches slipSquid) → n = 0 ∨ n = 1 ∨ n = 2 := by
    intro n hn; rw [slipSquid_branches] at hn; simp [nodesOf] at hn; tauto
  have n2 : ∀ n, n ∈ nodesOf (branches thirdTransmon) → n = 0 ∨ n = 3 := by
    intro n hn; rw [hb2] at hn; simp [nodesOf] at hn; tauto
  refine ⟨⟨⟨[.addBranch Orc.id 3 0 "C3"], Orc.id, 0, 3, "I3", [.addChargeBias 3 (some "g3") none], rfl,
      by simp [thirdTransmon, Call.OK, orcId_ok], by decide +kernel, by simp, rfl⟩, ?_, ?_, hbs _ (by decide +kernel)⟩,
    ⟨⟨[.addBranch Orc.id 0 1 "C1", .addBranch Orc.id 0 1 "L1", .addBranch Orc.id 0 1 "I1", .addBranch Orc.id 1 2 "C2", .addBranch Orc.id 1 2 "V1", .addBranch Orc.id 3 0 "C3"], Orc.id, 0, 3, "I3",
      [.addFluxBias "L1" (some "z") none, .addChargeBias 2 (some "g") none, .addChargeBias 3 (some "g3") none], rfl,
      by simp [slipAndTransmon, Call.OK, orcId_ok], by decide +kernel, by simp, rfl⟩, ?_, ?_, hbs _ (by decide +kernel)⟩,
    ⟨?_, fun n h1 h2 => ?_, fun q n hn => ?_, fun q n hn => ?_, fun q n hn => ?_, fun q n hn => ?_, fun q d hd => ?_, fun q d hd => ?_⟩, ?_, ?_, ?_, ?_⟩
  · apply allOk_of_prefixes; decide +kernel
  · refine ⟨by simp [thirdTransmon], ?_, ?_⟩ <;> rw [hb2] <;> decide +kernel
  · apply allOk_of_prefixes; decide +kernel
  · refine ⟨by simp [slipAndTransmon], ?_, ?_⟩ <;> rw [hb] <;> decide +kernel
  · rw [hb, slipSquid_branches, hb2]; exact List.Perm.refl _
  · rcases n1 n h1 with h | h | h
    · exact h
    · rcases n2 n h2 with h' | h' <;> omega
    · rcases n2 n h2 with h' | h' <;> omega
  · rcases n1 n hn with rfl | rfl | rfl <;> simp [gateCharge, slipSquid, slipAndTransmon]
  · rcases n2 n hn with rfl | rfl <;> simp [gateCharge, thirdTransmon, slipAndTransmon]
  · rcases n1 n hn with rfl | rfl | rfl <;> simp [Spec.gateCap, slipSquid, slipAndTransmon]
  · rcases n2 n hn with rfl | rfl <;> simp [Spec.gateCap, thirdTransmon, slipAndTransmon]
  · by_cases hc : "L1" = d.2.2 <;> simp [fluxOn, slipSquid, slipAndTransmon, hc]
  · rw [hb2] at hd
    simp only [List.mem_cons, List.not_mem_nil, or_false] at hd
    rcases hd with rfl | rfl <;> simp [fluxOn, thirdTransmon, slipAndTransmon]
  · intro d hd
    rw [hb2] at hd
    rw [show branchesOf 'L' [(3, 0, "C3"), (0, 3, "I3")] = [] by decide +kernel] at hd
    cases hd
  · simp [fluxOn, slipSquid]
  · intro c hc
    have : c = "L1" := by
      by_contra hne
      apply hc
      simp [fluxOn, slipSquid, Ne.symm hne]
    subst this
    decide +kernel
  · intro c
    simp [fluxOn, thirdTransmon]

end Verif.Props
