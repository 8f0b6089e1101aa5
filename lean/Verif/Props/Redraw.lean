import Verif.Props.Assembly
import Verif.Lemmas.Redraw
import Verif.Lemmas.LevelCount

/-!
# C87: The energies do not depend on how the circuit is written down
-/

namespace Verif.Props

open Verif Verif.Spec Verif.Circuit Verif.Sym Verif.Num Verif.Units Matrix Complex

theorem node_bijection {ρ : ℕ → ℕ} {h h' : List Call} {g g' : CG} (hs : Settled h g) (hs' : Settled h' g') (hr : Redrawn ρ h h') :
    ∃ σ : Fin (nodes g).length ≃ Fin (nodes g').length, ∀ i, (nodes g').get (σ i) = ρ ((nodes g).get i) := by
  obtain ⟨hnd, hmem⟩ := C29_rows h g hs
  obtain ⟨hnd', hmem'⟩ := C29_rows h' g' hs'
  have hno := nodesOf_redrawn hr
  have hlt : ∀ i : Fin (nodes g).length, (nodes g').idxOf (ρ ((nodes g).get i)) < (nodes g').length := by
    intro i
    rw [List.idxOf_lt_length_iff, hmem', hno]
    obtain ⟨h1, h2⟩ := (hmem _).1 (List.get_mem (nodes g) i)
    exact ⟨Finset.mem_image_of_mem _ h1, fun h => h2 (hr.inj (h.trans hr.ground.symm))⟩
  have hget : ∀ i : Fin (nodes g).length, (nodes g').get ⟨_, hlt i⟩ = ρ ((nodes g).get i) := fun i => List.idxOf_get _
  refine ⟨Equiv.ofBijective (fun i => ⟨_, hlt i⟩) ⟨?_, ?_⟩, hget⟩
  · intro i j hij
    have h1 := (hget i).symm.trans ((congrArg (nodes g').get hij).trans (hget j))
    exact (List.nodup_iff_injective_get.1 hnd) (hr.inj h1)
  · intro j
    obtain ⟨h1, h2⟩ := (hmem' _).1 (List.get_mem (nodes g') j)
    rw [hno] at h1
    obtain ⟨n, hn, hnj⟩ := Finset.mem_image.1 h1
    have hn' : n ∈ nodes g := (hmem n).2 ⟨hn, fun h0 => h2 (by rw [← hnj, h0, hr.ground])⟩
    obtain ⟨i, hi⟩ := List.get_of_mem hn'
    refine ⟨i, ?_⟩
    apply List.nodup_iff_injective_get.1 hnd'
    rw [hget, hi, hnj]

theorem mem_redrawn {ρ : ℕ → ℕ} {h h' : List Call} (hr : Redrawn ρ h h') : ∀ b' ∈ branches h', ∃ b ∈ branches h, SameBranch ρ b b' := by
  obtain ⟨l, hp, hf⟩ := hr.branches
  intro b' hb'
  have hl := hp.symm.subset hb'
  generalize branches h = bs at hf
  clear hp hr
  induction hf with
  | nil => cases hl
  | @cons b d bs l hb _ ih =>
    rcases List.mem_cons.1 hl with rfl | hl
    · exact ⟨b, by simp, hb⟩
    · obtain ⟨c, hc, h1⟩ := ih hl
      exact ⟨c, List.mem_cons_of_mem _ hc, h1⟩

theorem redrawn_caps {ρ : ℕ → ℕ} {h h' : List Call} (hr : Redrawn ρ h h') {val : String → ℝ} (hv : NonnegCaps val h) : NonnegCaps val h' := by
  refine ⟨fun b' hb' => ?_, fun n' hn' => ?_⟩
  · obtain ⟨h1, h2⟩ := List.mem_filter.1 hb'
    obtain ⟨b, hb, h3⟩ := mem_redrawn hr b' h1
    have := hv.1 b (List.mem_filter.2 ⟨hb, by rw [← h3.1]; exact h2⟩)
    rwa [h3.1]
  · rw [nodesOf_redrawn hr] at hn'
    obtain ⟨n, hn, rfl⟩ := Finset.mem_image.1 hn'
    rw [hr.caps]
    exact hv.2 n hn

/-- The capacitance matrix of the redrawn circuit is that of the circuit, with the nodes renamed. -/
theorem redrawn_matrix {ρ : ℕ → ℕ} {h h' : List Call} {g g' : CG} (hs : Settled h g) (hr : Redrawn ρ h h')
    (σ : Fin (nodes g).length ≃ Fin (nodes g').length) (hσ : ∀ i, (nodes g').get (σ i) = ρ ((nodes g).get i)) (val : String → ℝ)
    (C : Matrix (Fin (nodes g).length) (Fin (nodes g).length) ℝ) (hC : Cᵀ = C) (C' : Matrix (Fin (nodes g').length) (Fin (nodes g').length) ℝ) (hC' : C'ᵀ = C')
    (hf : ∀ v : ℕ → ℝ, v 0 = 0 → atNodes g v ⬝ᵥ C.mulVec (atNodes g v) = electrostaticForm val h v)
    (hf' : ∀ v : ℕ → ℝ, v 0 = 0 → atNodes g' v ⬝ᵥ C'.mulVec (atNodes g' v) = electrostaticForm val h' v) : C'.submatrix σ σ = C := by
  apply symmetric_eq_of_form _ hC
  · intro x
    obtain ⟨v, h0, rfl⟩ := atNodes_surj hs x
    have hinv : ∀ n, Function.invFun ρ (ρ n) = n := Function.leftInverse_invFun hr.inj
    have hv' : (v ∘ Function.invFun ρ) ∘ ρ = v := by funext n; simp [hinv]
    have h0' : (v ∘ Function.invFun ρ) 0 = 0 := by
      have := hinv 0
      rw [hr.ground] at this
      simp [this, h0]
    rw [hf v h0, ← hv', ← electrostatic_redrawn hr val, ← hf' _ h0', hv']
    have ha : ∀ i, atNodes g' (v ∘ Function.invFun ρ) (σ i) = atNodes g v i := by
      intro i
      show v (Function.invFun ρ ((nodes g').get (σ i))) = v ((nodes g).get i)
      rw [hσ, hinv]
    simp only [dotProduct, mulVec, submatrix_apply]
    rw [← Equiv.sum_comp σ]
    apply Finset.sum_congr rfl
    intro i _
    rw [ha, ← Equiv.sum_comp σ]
    congr 1
    apply Finset.sum_congr rfl
    intro j _
    rw [ha]
  · rw [transpose_submatrix, hC']

/-- **C87** Redrawing a circuit does not change its energies: rename the nodes, add the branches in another order and from either end, let
Python order its sets as it likes, and describe the same biases, of which at most one is a flux different from zero.  Then the redrawn circuit can
be quantised as well, and the two Hamiltonians have the same levels with the same multiplicities.  Missing for the full claim: several flux biases, for which it
is false (`C87_false_order`). -/
theorem C87_levels_partial (ρ : ℕ → ℕ) (h h' : List Call) (hr : Redrawn ρ h h') (g g' : CG) (hs : Settled h g) (hs' : Settled h' g') (ha : AllOk h) (ha' : AllOk h')
    (hn : JosephsonNetlist h) (hn' : JosephsonNetlist h') (b b' : Biases) (hb : createFluxBiases g = .ok b) (hb' : createFluxBiases g' = .ok b')
    (w : List UCall) (hw : ∀ c ∈ w, c.Clean) (i : ℕ) (U : Spec.System) (hU : Uses (runU w) i U) (h2e : U.C = 2 * Units.pc_e) (hphi : U.Wb = Units.pc_phi0)
    (u : Prefs) (hEc : Units.getPrefactor (runU w) i "Ec" = .ok u.Ec) (hEj : Units.getPrefactor (runU w) i "Ej" = .ok u.Ej)
    (val phi q : String → ℝ) (hv : NonnegCaps val h) (hconn : ∀ n ∈ nodesOf (branches h), Conn (capacitiveNet val h) n 0) (hone : OneBias phi h)
    (pinv : Matrix (Fin (edges g).length) (Fin (edges g).length) ℝ → Matrix (Fin (edges g).length) (Fin (edges g).length) ℝ)
    (hp : ∀ M, IsPinv M (pinv M))
    (pinv' : Matrix (Fin (edges g').length) (Fin (edges g').length) ℝ → Matrix (Fin (edges g').length) (Fin (edges g').length) ℝ)
    (hp' : ∀ M, IsPinv M (pinv' M)) (tr : ℕ → ℕ)
    (N : Fin (nodes g).length → BigNode fun i => NodeCfg.mk (tr ((nodes g).get i)) .charge) (hN : ChargeNodes (fun i => tr ((nodes g).get i)) N) (tr' : ℕ → ℕ)
    (htr : ∀ n, tr' (ρ n) = tr n)
    (N' : Fin (nodes g').length → BigNode fun i => NodeCfg.mk (tr' ((nodes g').get i)) .charge) (hN' : ChargeNodes (fun i => tr' ((nodes g').get i)) N') :
    ∃ s H s' H', assemble g b val phi q ⟨false, 1⟩ pinv u = .ok s ∧ hamiltonian (s.withNodes N) = some H ∧
      assemble g' b' val phi q ⟨false, 1⟩ pinv' u = .ok s' ∧ hamiltonian (s'.withNodes N') = some H' ∧
      ∀ k E, LevelsUpTo H k E ↔ LevelsUpTo H' k E := by
  obtain ⟨σ, hσ⟩ := node_bijection hs hs' hr
  -- the redrawn circuit is grounded through capacitors as well
  have hconn' : ∀ n ∈ nodesOf (branches h'), Conn (capacitiveNet val h') n 0 := by
    obtain ⟨M, hM, hsym, hform⟩ := netlist_capacitance hs ha hn val
    obtain ⟨M', hM', hsym', hform'⟩ := netlist_capacitance hs' ha' hn' val
    have hd := (netlist_det hs val hv _ hsym hform).2 hconn
    rw [← netlist_det hs' val (redrawn_caps hr hv) _ hsym' hform']
    rw [← redrawn_matrix hs hr σ hσ val _ hsym _ hsym' hform hform', det_submatrix_equiv_self] at hd
    exact hd
  obtain ⟨sgn, hsgn, -, hE⟩ := C86_hamiltonian h g hs ha hn b hb
  obtain ⟨sgn', hsgn', -, hE'⟩ := C86_hamiltonian h' g' hs' ha' hn' b' hb'
  obtain ⟨s, H, C, e1, e2, e3, e4, e5, e6⟩ := hE w hw i U hU h2e hphi u hEc hEj val phi q hv hconn pinv hp _ N hN
  obtain ⟨s', H', C', e1', e2', e3', e4', e5', e6'⟩ := hE' w hw i U hU h2e hphi u hEc hEj val phi q (redrawn_caps hr hv) hconn' pinv' hp' _ N' hN'
  refine ⟨s, H, s', H', e1, e2, e1', e2', ?_⟩
  have hC := redrawn_matrix hs hr σ hσ _ C e3 C' e3' e5 e5'
  have htr' : ∀ i, tr' ((nodes g').get (σ i)) = tr ((nodes g).get i) := fun i => by rw [hσ, htr]
  let τ : ChargeState (fun i => tr ((nodes g).get i)) ≃ ChargeState (fun i => tr' ((nodes g').get i)) :=
    σ.piCongr fun i => finCongr (by dsimp only; rw [htr' i])
  have hτ : ∀ x i, excess (τ x) (σ i) = excess x i := by
    intro x i
    have h1 : ((τ x (σ i) : Fin _) : ℕ) = (x i : ℕ) := by
      have h2 : τ x (σ i) = finCongr (by dsimp only; rw [htr' i]) (x i) := Equiv.piCongr_apply_apply _ _ _ _
      rw [h2]
      rfl
    show (tr' ((nodes g').get (σ i)) : ℤ) - (((τ x (σ i) : Fin _) : ℕ) : ℤ) = (tr ((nodes g).get i) : ℤ) - ((x i : ℕ) : ℤ)
    rw [htr', h1]
  obtain ⟨hnames, -, -⟩ := C21_names hs
  obtain ⟨hnames', -, -⟩ := C21_names hs'
  -- the sign with which the one bias enters
  obtain ⟨t, ht, hf⟩ : ∃ t : ℝ, (t = 1 ∨ t = -1) ∧ ∀ b ∈ branches h, ∀ b' ∈ branches h', b'.2.2 = b.2.2 →
      (b'.1 = ρ b.1 → b'.2.1 = ρ b.2.1 → sgn' b.2.2 * fluxOn phi h' b.2.2 = t * (sgn b.2.2 * fluxOn phi h b.2.2)) ∧
      (b'.1 = ρ b.2.1 → b'.2.1 = ρ b.1 → sgn' b.2.2 * fluxOn phi h' b.2.2 = -(t * (sgn b.2.2 * fluxOn phi h b.2.2))) := by
    by_cases hz : ∃ b0 ∈ branches h, fluxOn phi h b0.2.2 ≠ 0
    · obtain ⟨b0, hb0, h0⟩ := hz
      have hss : sgn b0.2.2 * sgn b0.2.2 = 1 := by rcases hsgn b0.2.2 with h | h <;> rw [h] <;> ring
      have hpm : sgn b0.2.2 * sgn' b0.2.2 = 1 ∨ sgn b0.2.2 * sgn' b0.2.2 = -1 := by
        rcases hsgn b0.2.2 with h | h <;> rcases hsgn' b0.2.2 with h' | h' <;> rw [h, h'] <;> norm_num
      have hsame : ∀ d ∈ branches h, fluxOn phi h d.2.2 ≠ 0 → d = b0 := fun d hd hdf =>
        List.inj_on_of_nodup_map hnames hd hb0 (hone _ _ hdf h0)
      by_cases hal : (ρ b0.1, ρ b0.2.1, b0.2.2) ∈ branches h'
      · refine ⟨sgn b0.2.2 * sgn' b0.2.2, hpm, fun d hd d' hd' hdc => ⟨fun _ _ => ?_, fun h1 h2 => ?_⟩⟩
        · by_cases hdf : fluxOn phi h d.2.2 = 0
          · rw [hr.flux, hdf]; ring
          · rw [hsame d hd hdf, hr.flux]; linear_combination (-(sgn' b0.2.2 * fluxOn phi h b0.2.2)) * hss
        · by_cases hdf : fluxOn phi h d.2.2 = 0
          · rw [hr.flux, hdf]; ring
          · have := hsame d hd hdf
            subst this
            have h3 : d' = (ρ d.1, ρ d.2.1, d.2.2) := List.inj_on_of_nodup_map hnames' hd' hal hdc
            rw [h3] at h1
            exact absurd (hr.inj h1) (hn.ends d hd)
      · refine ⟨-(sgn b0.2.2 * sgn' b0.2.2), ?_, fun d hd d' hd' hdc => ⟨fun h1 h2 => ?_, fun _ _ => ?_⟩⟩
        · rcases hpm with h | h <;> rw [h] <;> norm_num
        · by_cases hdf : fluxOn phi h d.2.2 = 0
          · rw [hr.flux, hdf]; ring
          · have := hsame d hd hdf
            subst this
            exact absurd (by rw [← h1, ← h2, ← hdc]; exact hd') hal
        · by_cases hdf : fluxOn phi h d.2.2 = 0
          · rw [hr.flux, hdf]; ring
          · rw [hsame d hd hdf, hr.flux]; linear_combination (-(sgn' b0.2.2 * fluxOn phi h b0.2.2)) * hss
    · push Not at hz
      refine ⟨1, Or.inl rfl, fun d hd d' _ _ => ⟨fun _ _ => ?_, fun _ _ => ?_⟩⟩ <;> rw [hr.flux, hz d hd] <;> ring
  have hel : ∀ x y, H' (τ x) (τ y) = (U.E : ℂ) * netlistElement (nodes g) h (2 * Units.pc_e) C (gateCharge q h)
      (fun c => Units.pc_phi0 * (val c * U.A) / (2 * Real.pi)) (fun c => t * (sgn c * fluxOn phi h c)) x y := by
    intro x y
    rw [e6']
    congr 1
    exact netlistElement_redrawn hr σ hσ C C' hC q _ _ _ _ hf x y (τ x) (τ y) (hτ x) (hτ y) τ.injective.eq_iff
  rcases ht with rfl | rfl
  · have hAB : ∀ x y, H' (τ x) (τ y) = H x y := by
      intro x y
      rw [hel, e6]
      simp only [one_mul]
    intro k E
    refine ⟨levelsUpTo_reindex τ hAB k E, levelsUpTo_reindex τ.symm (fun x y => ?_) k E⟩
    rw [← hAB, τ.apply_symm_apply, τ.apply_symm_apply]
  · have hAB : ∀ x y, H' (τ x) (τ y) = (starRingEnd ℂ) (H x y) := by
      intro x y
      rw [hel, e6, map_mul, Complex.conj_ofReal, ← netlistElement_conj]
      simp only [neg_mul, one_mul]
    intro k E
    refine ⟨levelsUpTo_conj τ hAB k E, levelsUpTo_conj τ.symm (fun x y => ?_) k E⟩
    rw [← Complex.conj_conj (H (τ.symm x) (τ.symm y)), ← hAB, τ.apply_symm_apply, τ.apply_symm_apply]

/-- The biased SQUID with node 2 in place of node 1, the branches in another order and one of them from its other end. -/
def redrawnSquid : List Call :=
  [.addBranch Orc.id 2 0 "I2", .addBranch Orc.id 0 2 "I1", .addBranch Orc.id 0 2 "C1", .addChargeBias 2 (some "g") (some "Cg"), .addFluxBias "I2" (some "z") none]

/-- The hypotheses of `C87_levels_partial` on the two descriptions are met (for the others see `C86_hamiltonian`). -/
example : Redrawn (Equiv.swap 1 2) biasedSquid redrawnSquid ∧ Settled redrawnSquid (run {} redrawnSquid) ∧ AllOk redrawnSquid ∧ JosephsonNetlist redrawnSquid ∧
    (∃ b, createFluxBiases (run {} redrawnSquid) = .ok b) ∧ ∀ φ, OneBias φ biasedSquid := by
  have hb : branches biasedSquid = [(0, 1, "C1"), (0, 1, "I1"), (0, 1, "I2")] := by decide +kernel
  have hb' : branches redrawnSquid = [(2, 0, "I2"), (0, 2, "I1"), (0, 2, "C1")] := by decide +kernel
  have h0 : Equiv.swap 1 2 0 = 0 := by decide
  have h1 : Equiv.swap 1 2 1 = 2 := by decide
  have hsw : ∀ n : ℕ, 2 = Equiv.swap 1 2 n ↔ 1 = n := fun n => by
    exact ⟨fun h => (Equiv.swap 1 2).injective (h1.trans h), fun h => h ▸ h1.symm⟩
  refine ⟨⟨(Equiv.swap 1 2).injective, h0, ⟨[(0, 2, "C1"), (0, 2, "I1"), (2, 0, "I2")], ?_, ?_⟩, ?_, ?_, ?_⟩, ?_, ?_, ?_, ?_, ?_⟩
  · rw [hb']
    exact List.reverse_perm [(2, 0, "I2"), (0, 2, "I1"), (0, 2, "C1")]
  · rw [hb]
    refine .cons ⟨rfl, Or.inl ⟨h0.symm, h1.symm⟩⟩ (.cons ⟨rfl, Or.inl ⟨h0.symm, h1.symm⟩⟩ (.cons ⟨rfl, Or.inr ⟨h1.symm, h0.symm⟩⟩ .nil))
  · intro φ c
    by_cases hc : "I2" = c <;> simp [fluxOn, biasedSquid, redrawnSquid, hc]
  · intro q n
    by_cases hc : 1 = n <;> simp [gateCharge, biasedSquid, redrawnSquid, hsw, hc]
  · intro val n
    by_cases hc : 1 = n <;> simp [Spec.gateCap, biasedSquid, redrawnSquid, hsw, hc]
  · exact ⟨[.addBranch Orc.id 2 0 "I2", .addBranch Orc.id 0 2 "I1"], Orc.id, 0, 2, "C1", [.addChargeBias 2 (some "g") (some "Cg"), .addFluxBias "I2" (some "z") none],
      rfl, by simp [redrawnSquid, Call.OK, orcId_ok], by decide +kernel, by simp, rfl⟩
  · apply allOk_of_prefixes
    decide +kernel
  · refine ⟨by simp [redrawnSquid], ?_, ?_, ?_⟩ <;> rw [hb'] <;> decide +kernel
  · cases hc : createFluxBiases (run {} redrawnSquid) with
    | ok b => exact ⟨b, rfl⟩
    | error e =>
      have : (createFluxBiases (run {} redrawnSquid)).toOption.isSome = true := by decide +kernel
      rw [hc] at this
      cases this
  · intro φ c c' hc hc'
    have key : ∀ c, fluxOn φ biasedSquid c ≠ 0 → c = "I2" := by
      intro c hc
      by_contra hne
      apply hc
      simp [fluxOn, biasedSquid, Ne.symm hne]
    rw [key c hc, key c' hc']

/-! ### Several flux biases -/

/-- Three junctions in parallel, two of them biased; the first two are added in the given order. -/
def threeJunctions (a b : String) : List Call :=
  [.addBranch Orc.id 0 1 "C1", .addBranch Orc.id 0 1 a, .addBranch Orc.id 0 1 b, .addBranch Orc.id 0 1 "I3", .addFluxBias "I1" (some "z") none,
    .addFluxBias "I3" (some "w") none]

theorem threeJunctions_settled (a b : String) (hok : (addBranch Orc.id (run {} [.addBranch Orc.id 0 1 "C1", .addBranch Orc.id 0 1 a, .addBranch Orc.id 0 1 b])
    0 1 "I3").2 = .ok ()) : Settled (threeJunctions a b) (run {} (threeJunctions a b)) :=
  ⟨[.addBranch Orc.id 0 1 "C1", .addBranch Orc.id 0 1 a, .addBranch Orc.id 0 1 b], Orc.id, 0, 1, "I3",
    [.addFluxBias "I1" (some "z") none, .addFluxBias "I3" (some "w") none], rfl, by simp [threeJunctions, Call.OK, orcId_ok], hok, by simp, rfl⟩

theorem threeJunctions_netlist (a b : String) (hb : branches (threeJunctions a b) = [(0, 1, "C1"), (0, 1, a), (0, 1, b), (0, 1, "I3")])
    (ha : startsWith a 'I' = true) (hb' : startsWith b 'I' = true) : JosephsonNetlist (threeJunctions a b) := by
  refine ⟨by simp [threeJunctions], ?_, ?_, ?_⟩
  · rw [hb]
    intro d hd
    simp only [List.mem_cons, List.not_mem_nil, or_false] at hd
    rcases hd with rfl | rfl | rfl | rfl
    · left; decide
    · right; exact ha
    · right; exact hb'
    · right; decide
  · rw [hb]
    simp
  · rw [hb]
    simp [nodesOf]

/-- The biases of the three junctions. -/
noncomputable def threeFlux (c : String) : ℝ := if c = "I1" ∨ c = "I3" then 1 / 3 else 0

theorem threeJunctions_flux (a b : String) (c : String) : fluxOn (fun _ => 1 / 3) (threeJunctions a b) c = threeFlux c := by
  unfold fluxOn threeJunctions threeFlux
  by_cases h1 : c = "I1"
  · subst h1; simp
  · by_cases h3 : c = "I3"
    · subst h3; simp
    · simp [h1, h3, Ne.symm h1, Ne.symm h3]

open Classical in
theorem threeJunctions_hamiltonian (a b : String) (hs : Settled (threeJunctions a b) (run {} (threeJunctions a b))) (ha : AllOk (threeJunctions a b))
    (hbr : branches (threeJunctions a b) = [(0, 1, "C1"), (0, 1, a), (0, 1, b), (0, 1, "I3")]) (haI : startsWith a 'I' = true)
    (hbI : startsWith b 'I' = true) (bs : Biases) (hbs : createFluxBiases (run {} (threeJunctions a b)) = .ok bs)
    (w : List UCall) (hw : ∀ c ∈ w, c.Clean) (i : ℕ) (U : Spec.System) (hU : Uses (runU w) i U) (h2e : U.C = 2 * Units.pc_e) (hphi : U.Wb = Units.pc_phi0)
    (u : Prefs) (hEc : Units.getPrefactor (runU w) i "Ec" = .ok u.Ec) (hEj : Units.getPrefactor (runU w) i "Ej" = .ok u.Ej) :
    ∃ sgn : String → ℝ, (∀ c, sgn c = 1 ∨ sgn c = -1) ∧
    (∀ br ∈ branches (threeJunctions a b), ∀ e ∈ edges (run {} (threeJunctions a b)), (run {} (threeJunctions a b)).cmap.get? e = some br.2.2 →
      (sgn br.2.2 = 1 ↔ e.1 = br.1)) ∧
    ∀ pinv (_ : ∀ M, IsPinv M (pinv M)) N (_ : ChargeNodes (fun _ : Fin (nodes (run {} (threeJunctions a b))).length => 1) N),
    ∃ s H, assemble (run {} (threeJunctions a b)) bs (fun _ => 1) (fun _ => 1 / 3) (fun _ => 0) ⟨false, 1⟩ pinv u = .ok s ∧
      hamiltonian (s.withNodes N) = some H ∧ H.IsHermitian ∧
      ∃ (d : ChargeState (fun _ : Fin (nodes (run {} (threeJunctions a b))).length => 1) → ℝ) (J : ℝ), (∀ x, 0 ≤ d x) ∧ (∀ x, (∀ i, excess x i = 0) → d x = 0) ∧ 0 < J ∧
        ∀ x y, H x y = (if x = y then (d x : ℂ) else 0) -
          (J : ℂ) * (([a, b, "I3"].map fun c => (if Crossed (nodes (run {} (threeJunctions a b))) (0, 1, 0) x y then
              exp (2 * Real.pi * ((sgn c * threeFlux c : ℝ) : ℂ) * I) else 0) +
            (if Crossed (nodes (run {} (threeJunctions a b))) (0, 1, 0) y x then
              exp (-(2 * Real.pi * ((sgn c * threeFlux c : ℝ) : ℂ) * I)) else 0)).sum) := by
  have hn := threeJunctions_netlist a b hbr haI hbI
  obtain ⟨sgn, h1, h2, h3⟩ := C86_hamiltonian _ _ hs ha hn bs hbs
  refine ⟨sgn, h1, h2, fun pinv hp N hN => ?_⟩
  have hv : ∀ r : ℝ, 0 ≤ r → NonnegCaps (fun _ => r) (threeJunctions a b) := by
    intro r hr
    refine ⟨fun _ _ => hr, fun n _ => ?_⟩
    unfold Spec.gateCap threeJunctions
    simp
  have hconn : ∀ n ∈ nodesOf (branches (threeJunctions a b)), Conn (capacitiveNet (fun _ => 1) (threeJunctions a b)) n 0 := by
    intro n hn
    rw [hbr] at hn
    have hn' : n = 0 ∨ n = 1 := by
      simp [nodesOf] at hn
      omega
    rcases hn' with rfl | rfl
    · exact Conn.refl _ _
    · refine Conn.symm (Conn.edge (e := (0, 1, 0)) ?_)
      unfold capacitiveNet
      rw [hbr]
      have : startsWith "C1" 'C' = true := by decide
      simp [branchesOf, wires, this]
  obtain ⟨s, H, C, e1, e2, e3, e4, e5, e6⟩ := h3 w hw i U hU h2e hphi u hEc hEj (fun _ => 1) (fun _ => 1 / 3) (fun _ => 0) (hv 1 zero_le_one) hconn pinv hp _ N hN
  obtain ⟨hF, -, -, hA, -, -, -, -, -, -, -, hE, -⟩ := uses_pos (Units.uinv_runU w hw) hU
  have hpos : C.PosSemidef := by
    apply Matrix.PosSemidef.of_dotProduct_mulVec_nonneg
    · show Cᴴ = C
      rw [conjTranspose_eq_transpose_of_trivial, e3]
    · intro x
      obtain ⟨v, h0, rfl⟩ := atNodes_surj hs x
      rw [star_trivial, e5 v h0]
      exact electrostatic_nonneg (hv _ (by rw [one_mul]; exact hF.le)) v
  have hng : ∀ n, gateCharge (fun _ => 0) (threeJunctions a b) n = 0 := by
    intro n
    unfold gateCharge threeJunctions
    simp
  have hH : H.IsHermitian := by
    ext x y
    rw [conjTranspose_apply, e6, e6, netlistElement_swap, star_mul', RCLike.star_def, Complex.conj_ofReal, Complex.conj_conj]
  refine ⟨s, H, e1, e2, hH, fun x => U.E * (1 / 2 * ∑ i, ∑ j, (2 * Units.pc_e) ^ 2 * C⁻¹ i j * excess x i * excess x j),
    U.E * (Units.pc_phi0 * (1 * U.A) / (2 * Real.pi) / 2), ?_, ?_, ?_, ?_⟩
  · intro x
    have h4 := hpos.inv.dotProduct_mulVec_nonneg (fun i => (excess x i : ℝ))
    have h5 : ∑ i, ∑ j, (2 * Units.pc_e) ^ 2 * C⁻¹ i j * excess x i * excess x j =
        (2 * Units.pc_e) ^ 2 * (star (fun i => (excess x i : ℝ)) ⬝ᵥ C⁻¹.mulVec fun i => (excess x i : ℝ)) := by
      rw [star_trivial]
      simp only [dotProduct, mulVec, Finset.mul_sum]
      apply Finset.sum_congr rfl; intro i _
      apply Finset.sum_congr rfl; intro j _
      ring
    dsimp only
    rw [h5]
    exact mul_nonneg hE.le (mul_nonneg (by norm_num) (mul_nonneg (sq_nonneg _) h4))
  · intro x hx
    simp [hx]
  · have : (0 : ℝ) < Units.pc_phi0 := by unfold Units.pc_phi0; norm_num
    exact mul_pos hE (div_pos (div_pos (mul_pos this (by rw [one_mul]; exact hA)) Real.two_pi_pos) two_pos)
  · intro x y
    rw [e6]
    unfold netlistElement
    rw [mul_sub]
    refine congrArg₂ (· - ·) ?_ ?_
    · by_cases hxy : x = y
      · rw [if_pos hxy, if_pos hxy]
        push_cast
        simp only [hng, Complex.ofReal_zero, add_zero]
      · rw [if_neg hxy, if_neg hxy, mul_zero]
    · have hI : branchesOf 'I' (branches (threeJunctions a b)) = [(0, 1, a), (0, 1, b), (0, 1, "I3")] := by
        rw [hbr]
        have h6 : startsWith "C1" 'I' = false := by decide
        have h7 : startsWith "I3" 'I' = true := by decide
        simp [branchesOf, haI, hbI, h6, h7]
      rw [hI]
      simp only [List.map_cons, List.map_nil, List.sum_cons, List.sum_nil, threeJunctions_flux]
      push_cast
      ring

theorem three_ok12 : AllOk (threeJunctions "I1" "I2") := by
  apply allOk_of_prefixes
  decide +kernel

theorem three_ok21 : AllOk (threeJunctions "I2" "I1") := by
  apply allOk_of_prefixes
  decide +kernel

theorem three_redrawn : Redrawn id (threeJunctions "I1" "I2") (threeJunctions "I2" "I1") := by
  have hb12 : branches (threeJunctions "I1" "I2") = [(0, 1, "C1"), (0, 1, "I1"), (0, 1, "I2"), (0, 1, "I3")] := by decide +kernel
  have hb21 : branches (threeJunctions "I2" "I1") = [(0, 1, "C1"), (0, 1, "I2"), (0, 1, "I1"), (0, 1, "I3")] := by decide +kernel
  refine ⟨Function.injective_id, rfl, ⟨branches (threeJunctions "I1" "I2"), ?_, ?_⟩, fun φ c => rfl, fun q n => rfl, fun val n => rfl⟩
  · rw [hb12, hb21]
    exact List.Perm.cons _ (List.Perm.swap _ _ _)
  · rw [List.forall₂_same]
    exact fun b _ => ⟨rfl, Or.inl ⟨rfl, rfl⟩⟩

theorem cube_roots : 1 + exp (2 * Real.pi * ((1 / 3 : ℝ) : ℂ) * I) + exp (-(2 * Real.pi * ((1 / 3 : ℝ) : ℂ) * I)) = 0 := by
  set z := exp (2 * Real.pi * ((1 / 3 : ℝ) : ℂ) * I) with hz
  have h3 : z ^ 3 = 1 := by
    rw [hz, ← Complex.exp_nat_mul, Complex.exp_eq_one_iff]
    exact ⟨1, by push_cast; ring⟩
  have h1 : z ≠ 1 := by
    rw [hz, Ne, Complex.exp_eq_one_iff]
    rintro ⟨n, hn⟩
    have h4 : (2 * Real.pi * I : ℂ) ≠ 0 := Complex.two_pi_I_ne_zero
    have h5 : (2 * Real.pi * I : ℂ) * (1 / 3 - n) = 0 := by push_cast at hn; linear_combination hn
    have h6 : (1 : ℂ) = 3 * n := by
      have := (mul_eq_zero.1 h5).resolve_left h4
      linear_combination 3 * this
    have h7 : (1 : ℤ) = 3 * n := by exact_mod_cast h6
    omega
  have h0 : z ≠ 0 := Complex.exp_ne_zero _
  rw [Complex.exp_neg, ← hz]
  have h8 : (z - 1) * (1 + z + z ^ 2) = 0 := by linear_combination h3
  have h9 := (mul_eq_zero.1 h8).resolve_left (sub_ne_zero.2 h1)
  have h10 : z⁻¹ = z ^ 2 := by field_simp; rw [← h3]
  rw [h10]
  exact h9

open scoped ComplexOrder in
/-- A Hermitian matrix with a vanishing diagonal element and a non-vanishing element beside it has a negative level. -/
theorem negative_level {ι : Type} [Fintype ι] [DecidableEq ι] {H : Matrix ι ι ℂ} (hH : H.IsHermitian) (x y : ι) (h0 : H x x = 0) (h1 : H x y ≠ 0) :
    ∃ E : ℝ, E < 0 ∧ LevelsUpTo H 1 E := by
  by_contra hcon
  push Not at hcon
  have hpos : H.PosSemidef := by
    rw [hH.posSemidef_iff_eigenvalues_nonneg]
    intro i
    by_contra hi
    push Not at hi
    refine hcon _ hi ?_
    rw [levelsUpTo_hermitian hH]
    exact Finset.card_pos.2 ⟨i, by simp⟩
  have h2 := (hpos.submatrix ![x, y]).det_nonneg
  rw [det_fin_two] at h2
  simp only [submatrix_apply, cons_val_zero, cons_val_one, h0, zero_mul, zero_sub] at h2
  have h3 : H y x = star (H x y) := (congrFun (congrFun hH.eq y) x).symm
  rw [h3] at h2
  have h4 : (H x y * star (H x y)) = ((Complex.normSq (H x y) : ℝ) : ℂ) := Complex.mul_conj _
  rw [h4, ← Complex.ofReal_neg] at h2
  have h5 : (0 : ℝ) ≤ - Complex.normSq (H x y) := by exact_mod_cast h2
  have h6 := Complex.normSq_pos.2 h1
  linarith

/-- **C87** is false with several flux biases: of three junctions in parallel, bias the first and the third with a third of a flux quantum.  The
energies are not the same if the first two junctions are added in the other order: the direction in which a bias counts depends on the order of the calls. -/
theorem C87_false_order : ∃ (h h' : List Call) (b b' : Biases) (U : Spec.System) (u : Prefs) (val phi q : String → ℝ) (pinv : _) (pinv' : _) (N : _) (N' : _)
    (s : _) (H : _) (s' : _) (H' : _), Redrawn id h h' ∧ Settled h (run {} h) ∧ Settled h' (run {} h') ∧ AllOk h ∧ AllOk h' ∧ JosephsonNetlist h ∧ JosephsonNetlist h' ∧
    createFluxBiases (run {} h) = .ok b ∧ createFluxBiases (run {} h') = .ok b' ∧ Uses (runU [.new "CQED1"]) 0 U ∧
    U.C = 2 * Units.pc_e ∧ U.Wb = Units.pc_phi0 ∧ Units.getPrefactor (runU [.new "CQED1"]) 0 "Ec" = .ok u.Ec ∧
    Units.getPrefactor (runU [.new "CQED1"]) 0 "Ej" = .ok u.Ej ∧ NonnegCaps val h ∧ (∀ M, IsPinv M (pinv M)) ∧ (∀ M, IsPinv M (pinv' M)) ∧
    ChargeNodes (fun _ : Fin (nodes (run {} h)).length => 1) N ∧ ChargeNodes (fun _ : Fin (nodes (run {} h')).length => 1) N' ∧
    assemble (run {} h) b val phi q ⟨false, 1⟩ pinv u = .ok s ∧ hamiltonian (s.withNodes N) = some H ∧
    assemble (run {} h') b' val phi q ⟨false, 1⟩ pinv' u = .ok s' ∧ hamiltonian (s'.withNodes N') = some H' ∧
    ∃ E, LevelsUpTo H' 1 E ∧ ¬ LevelsUpTo H 1 E := by
  classical
  obtain ⟨w, o, hw, hinv, ho, hH, -⟩ := one_instance "CQED1"
  have hst : startUnits "CQED1" = CQED1 := by unfold startUnits; rw [if_pos rfl]
  rw [hst] at hH
  have hU : Uses (runU [.new "CQED1"]) 0 CQED1 := by
    rw [hw, Units.uses_iff (o := o) (by rw [ho]; rfl)]; exact hH
  have hcl : ∀ c ∈ [UCall.new "CQED1"], c.Clean := by simp [UCall.Clean]
  obtain ⟨c1, -, c3, -⟩ := uses_consistent (Units.uinv_runU _ hcl) hU
  have hb12 : branches (threeJunctions "I1" "I2") = [(0, 1, "C1"), (0, 1, "I1"), (0, 1, "I2"), (0, 1, "I3")] := by decide +kernel
  have hb21 : branches (threeJunctions "I2" "I1") = [(0, 1, "C1"), (0, 1, "I2"), (0, 1, "I1"), (0, 1, "I3")] := by decide +kernel
  have hs12 := threeJunctions_settled "I1" "I2" (by decide +kernel)
  have hs21 := threeJunctions_settled "I2" "I1" (by decide +kernel)
  have he12 : edges (run {} (threeJunctions "I1" "I2")) = [(0, 1, 1), (1, 0, 2), (1, 0, 3)] := by decide +kernel
  have he21 : edges (run {} (threeJunctions "I2" "I1")) = [(0, 1, 1), (1, 0, 2), (1, 0, 3)] := by decide +kernel
  let u : Prefs := ⟨CQED1.E * CQED1.C ^ 2 / CQED1.F, 0, CQED1.E * CQED1.Wb * CQED1.A / (2 * Real.pi), 0, 0, 0, 0⟩
  obtain ⟨sg, g1, g2, g3⟩ := threeJunctions_hamiltonian "I1" "I2" hs12 three_ok12 hb12 (by decide) (by decide)
    ⟨[((0, 1, 1), some "z"), ((1, 0, 2), none), ((1, 0, 3), some "w")], [((0, 1, 1), some "z"), ((1, 0, 2), none), ((1, 0, 3), some "w")]⟩ (by decide +kernel)
    _ hcl 0 CQED1 hU rfl rfl u c1 c3
  obtain ⟨sg', g1', g2', g3'⟩ := threeJunctions_hamiltonian "I2" "I1" hs21 three_ok21 hb21 (by decide) (by decide)
    ⟨[((0, 1, 1), none), ((1, 0, 2), some "z"), ((1, 0, 3), some "w")], [((0, 1, 1), none), ((1, 0, 2), some "z"), ((1, 0, 3), some "w")]⟩ (by decide +kernel)
    _ hcl 0 CQED1 hU rfl rfl u c1 c3
  have s1 : sg "I1" = 1 := (g2 (0, 1, "I1") (by rw [hb12]; simp) (0, 1, 1) (by rw [he12]; simp) (by decide +kernel)).2 rfl
  have s3 : sg "I3" = -1 := (g1 "I3").resolve_left fun h => by
    have := (g2 (0, 1, "I3") (by rw [hb12]; simp) (1, 0, 3) (by rw [he12]; simp) (by decide +kernel)).1 h
    simp at this
  have s1' : sg' "I1" = -1 := (g1' "I1").resolve_left fun h => by
    have := (g2' (0, 1, "I1") (by rw [hb21]; simp) (1, 0, 2) (by rw [he21]; simp) (by decide +kernel)).1 h
    simp at this
  have s3' : sg' "I3" = -1 := (g1' "I3").resolve_left fun h => by
    have := (g2' (0, 1, "I3") (by rw [hb21]; simp) (1, 0, 3) (by rw [he21]; simp) (by decide +kernel)).1 h
    simp at this
  choose pinv hp using fun M : Matrix (Fin (edges (run {} (threeJunctions "I1" "I2"))).length) (Fin (edges (run {} (threeJunctions "I1" "I2"))).length) ℝ => pinv_exists M
  choose pinv' hp' using fun M : Matrix (Fin (edges (run {} (threeJunctions "I2" "I1"))).length) (Fin (edges (run {} (threeJunctions "I2" "I1"))).length) ℝ => pinv_exists M
  obtain ⟨N, hN⟩ := charge_nodes_exist (fun _ : Fin (nodes (run {} (threeJunctions "I1" "I2"))).length => 1)
  obtain ⟨N', hN'⟩ := charge_nodes_exist (fun _ : Fin (nodes (run {} (threeJunctions "I2" "I1"))).length => 1)
  obtain ⟨s, H, e1, e2, -, d, J, hd, -, hJ, e3⟩ := g3 pinv hp N hN
  obtain ⟨s', H', e1', e2', hH', d', J', hd', hd0, hJ', e3'⟩ := g3' pinv' hp' N' hN'
  have hdiag : H = diagonal fun x => (d x : ℂ) := by
    ext x y
    rw [e3, diagonal_apply]
    have hsum : ([("I1" : String), "I2", "I3"].map fun c => (if Crossed (nodes (run {} (threeJunctions "I1" "I2"))) (0, 1, 0) x y then
              exp (2 * Real.pi * ((sg c * threeFlux c : ℝ) : ℂ) * I) else 0) +
            (if Crossed (nodes (run {} (threeJunctions "I1" "I2"))) (0, 1, 0) y x then
              exp (-(2 * Real.pi * ((sg c * threeFlux c : ℝ) : ℂ) * I)) else 0)).sum = 0 := by
      have hc := cube_roots
      have t1 : ((1 * (1 / 3) : ℝ) : ℂ) = ((1 / 3 : ℝ) : ℂ) := by norm_num
      have t3 : ((-(1 * (1 / 3)) : ℝ) : ℂ) = -((1 / 3 : ℝ) : ℂ) := by push_cast; ring
      have i1 : threeFlux "I1" = 1 / 3 := if_pos (Or.inl rfl)
      have i2 : threeFlux "I2" = 0 := if_neg (by decide)
      have i3 : threeFlux "I3" = 1 / 3 := if_pos (Or.inr rfl)
      simp only [List.map_cons, List.map_nil, List.sum_cons, List.sum_nil, s1, s3, i1, i2, i3, t1, t3, mul_zero, Complex.ofReal_zero, zero_mul, Complex.exp_zero,
        neg_zero, mul_neg, neg_mul, neg_neg]
      split_ifs
      · linear_combination 2 * hc
      · linear_combination hc
      · linear_combination hc
      · ring
    rw [hsum, mul_zero, sub_zero]
  have hn' : nodes (run {} (threeJunctions "I2" "I1")) = [1] := by decide +kernel
  have hg : ∀ i, gains (0, 1, 0) ((nodes (run {} (threeJunctions "I2" "I1"))).get i) = -1 := by
    intro i
    have : (nodes (run {} (threeJunctions "I2" "I1"))).get i ∈ ([1] : List ℕ) := hn' ▸ List.get_mem _ _
    rw [List.mem_singleton.1 this]
    rfl
  have i0 : 0 < (nodes (run {} (threeJunctions "I2" "I1"))).length := by rw [hn']; decide
  let z : ChargeState (fun _ : Fin (nodes (run {} (threeJunctions "I2" "I1"))).length => 1) := fun _ => ⟨1, show 1 < 3 by decide⟩
  let y : ChargeState (fun _ : Fin (nodes (run {} (threeJunctions "I2" "I1"))).length => 1) := fun _ => ⟨2, show 2 < 3 by decide⟩
  have hz : ∀ i, excess z i = 0 := fun i => by simp [excess, z]
  have hy : ∀ i, excess y i = -1 := fun i => by simp [excess, y]
  have hyz : Crossed (nodes (run {} (threeJunctions "I2" "I1"))) (0, 1, 0) y z := fun i => by rw [hz, hy, hg]; rfl
  have hzy : ¬ Crossed (nodes (run {} (threeJunctions "I2" "I1"))) (0, 1, 0) z y := fun h => by
    have := h ⟨0, i0⟩
    rw [hz, hy, hg] at this
    omega
  have hzz : ¬ Crossed (nodes (run {} (threeJunctions "I2" "I1"))) (0, 1, 0) z z := fun h => by
    have := h ⟨0, i0⟩
    rw [hz, hg] at this
    omega
  have hne : z ≠ y := fun h => by
    have := congrArg (fun x => excess x ⟨0, i0⟩) h
    simp only [hz, hy] at this
    omega
  obtain ⟨E, hE, hlev⟩ := negative_level hH' z y (by
    rw [e3', if_pos rfl, hd0 z hz]
    simp only [if_neg hzz]
    simp) (by
    rw [e3', if_neg hne]
    simp only [if_neg hzy, if_pos hyz]
    have hc := cube_roots
    have t3 : ((-(1 * (1 / 3)) : ℝ) : ℂ) = -((1 / 3 : ℝ) : ℂ) := by push_cast; ring
    have i1 : threeFlux "I1" = 1 / 3 := if_pos (Or.inl rfl)
    have i2 : threeFlux "I2" = 0 := if_neg (by decide)
    have i3 : threeFlux "I3" = 1 / 3 := if_pos (Or.inr rfl)
    simp only [List.map_cons, List.map_nil, List.sum_cons, List.sum_nil, s1', s3', i1, i2, i3, t3, mul_zero, Complex.ofReal_zero, zero_mul, Complex.exp_zero,
      neg_zero, mul_neg, neg_mul, neg_neg]
    intro h0
    rw [zero_sub, neg_eq_zero, mul_eq_zero] at h0
    have h1 := h0.resolve_left (by exact_mod_cast hJ'.ne')
    rw [Complex.exp_neg] at hc
    set x := exp (2 * Real.pi * ((1 / 3 : ℝ) : ℂ) * I) with hx
    have hx0 : x ≠ 0 := Complex.exp_ne_zero _
    have h2 : x = -1 / 2 := by linear_combination h1 / 2
    rw [h2] at hc
    norm_num at hc)
  refine ⟨threeJunctions "I1" "I2", threeJunctions "I2" "I1", _, _, CQED1, u, fun _ => 1, fun _ => 1 / 3, fun _ => 0, pinv, pinv', N, N', s, H, s', H', three_redrawn,
    hs12, hs21, three_ok12, three_ok21, threeJunctions_netlist _ _ hb12 (by decide) (by decide), threeJunctions_netlist _ _ hb21 (by decide) (by decide),
    by decide +kernel, by decide +kernel, hU, rfl, rfl, c1, c3, ⟨fun _ _ => zero_le_one, fun n _ => by unfold Spec.gateCap threeJunctions; simp⟩, hp, hp', hN, hN',
    e1, e2, e1', e2', E, hlev, ?_⟩
  rw [hdiag, levelsUpTo_diagonal]
  intro h1
  obtain ⟨x, hx⟩ := Finset.card_pos.1 h1
  have := (Finset.mem_filter.1 hx).2
  have := hd x
  linarith

end Verif.Props
