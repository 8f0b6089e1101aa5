import Verif.Props.Reversal
import Verif.Props.Assembly

/-!
# C107: sweeps are symmetric about whole and half flux quanta
-/

namespace Verif.Props

open Verif Verif.Num Verif.Circuit Verif.Sym Verif.Spec Matrix

theorem fluxBiasVector_quanta (phi : String → ℝ) (m : String → ℤ) (g : CG) (b : Biases) (i : ℕ) :
    fluxBiasVector (fun c => phi c + m c) g b i = fluxBiasVector phi g b i + (fluxBiasVector m g b i : ℤ) := by
  unfold fluxBiasVector biasVal
  cases (edges g)[i]? with
  | none => simp
  | some e =>
  dsimp only
  split_ifs
  · cases b.flux.get? e with
    | none => simp
    | some x => cases x <;> simp
  · simp

theorem fluxBiasVectorInd_quanta (phi : String → ℝ) (m : String → ℤ) (g : CG) (b : Biases)
    (hm : ∀ e ∈ edges g, isEdgeOf g 'L' e = .ok true → ∀ c, b.flux.get? e = some (some c) → m c = 0) (i : ℕ) :
    fluxBiasVectorInd (fun c => phi c + m c) g b i = fluxBiasVectorInd phi g b i := by
  unfold fluxBiasVectorInd biasVal
  cases he : (edges g)[i]? with
  | none => simp
  | some e =>
  dsimp only
  split_ifs with hL
  · cases hx : b.flux.get? e with
    | none => simp
    | some x =>
      cases x with
      | none => simp
      | some c => simp [hm e (List.mem_of_getElem? he) hL c hx]
  · simp

theorem assemble_quanta {g : CG} {b : Biases} {val phi q : String → ℝ} {t : Transform ℝ (nodes g).length}
    {pinv : Matrix (Fin (edges g).length) (Fin (edges g).length) ℝ → Matrix (Fin (edges g).length) (Fin (edges g).length) ℝ} {u : Prefs}
    {s : Sys PUnit (nodes g).length (edges g).length} (m : String → ℤ)
    (hm : ∀ e ∈ edges g, isEdgeOf g 'L' e = .ok true → ∀ c, b.flux.get? e = some (some c) → m c = 0) (h1 : assemble g b val phi q t pinv u = .ok s) :
    assemble g b val (fun c => phi c + m c) q t pinv u = .ok { s with Pb := fun k => s.Pb k + (fluxBiasVector m g b k : ℤ) } := by
  unfold assemble at h1 ⊢
  cases hC : capacitance val (resonatorCap val) g with
  | error e => rw [hC] at h1; cases h1
  | ok C =>
  simp only [hC] at h1 ⊢
  cases hCi : inverseCapacitance t (C.block (nodes g).length (nodes g).length) with
  | none => rw [hCi] at h1; cases h1
  | some Ci =>
  simp only [hCi] at h1 ⊢
  cases hM : branchInductance val g with
  | error e => rw [hM] at h1; cases h1
  | ok M =>
  simp only [hM] at h1 ⊢
  rw [← Except.ok.inj h1]
  simp only [fluxBiasVector_quanta, fluxBiasNodes, fluxBiasVectorInd_quanta phi m g b hm]

/-- **C107** (quanta) Fluxes of junctions count modulo the flux quantum: adding whole quanta `m c` to the flux biases (none to those of inductors) gives the same Hamiltonian. -/
theorem C107_quanta (g : CG) (b : Biases) (val phi q : String → ℝ) (t : Transform ℝ (nodes g).length)
    (pinv : Matrix (Fin (edges g).length) (Fin (edges g).length) ℝ → Matrix (Fin (edges g).length) (Fin (edges g).length) ℝ) (u : Prefs)
    (cfg : Fin (nodes g).length → NodeCfg) (N : Fin (nodes g).length → BigNode cfg) (m : String → ℤ)
    (hm : ∀ e ∈ edges g, isEdgeOf g 'L' e = .ok true → ∀ c, b.flux.get? e = some (some c) → m c = 0)
    (s : Sys PUnit (nodes g).length (edges g).length) (h1 : assemble g b val phi q t pinv u = .ok s) :
    ∃ s', assemble g b val (fun c => phi c + m c) q t pinv u = .ok s' ∧ hamiltonian (s'.withNodes N) = hamiltonian (s.withNodes N) := by
  refine ⟨_, assemble_quanta m hm h1, ?_⟩
  have := C71_periodic (s.withNodes N) (fun k => fluxBiasVector m g b k) 0
  simpa [Sys.withNodes] using this

/-- **C107** (half quanta) The energies are symmetric about every point where the fluxes of the junctions are multiples of half a flux quantum and those of the inductors are
zero: with the fluxes `m c - phi c` the energies are those with the fluxes `phi c`.  In particular a sweep of the flux of one junction from 0 to 1 is symmetric about 1/2 if
the other fluxes are zero or one half. -/
theorem C107_half (g : CG) (b : Biases) (val phi q : String → ℝ) (t : Transform ℝ (nodes g).length)
    (pinv : Matrix (Fin (edges g).length) (Fin (edges g).length) ℝ → Matrix (Fin (edges g).length) (Fin (edges g).length) ℝ) (u : Prefs)
    (cfg : Fin (nodes g).length → NodeCfg) (o : ∀ i, NodeOps (cfg i).dim) (ho : ∀ i, TimeReversible (o i)) (N : Fin (nodes g).length → BigNode cfg)
    (hN : ∀ i, expandNode cfg i (o i) = some (N i)) (m : String → ℤ)
    (hm : ∀ e ∈ edges g, isEdgeOf g 'L' e = .ok true → ∀ c, b.flux.get? e = some (some c) → m c = 0)
    (s : Sys PUnit (nodes g).length (edges g).length) (H : BigOp cfg)
    (h1 : assemble g b val phi q t pinv u = .ok s) (h2 : hamiltonian (s.withNodes N) = some H) :
    ∃ s' H', assemble g b val (fun c => m c - phi c) q t pinv u = .ok s' ∧ hamiltonian (s'.withNodes N) = some H' ∧ ∀ k E, LevelsUpTo H k E ↔ LevelsUpTo H' k E := by
  obtain ⟨s₁, H', a1, a2, a3⟩ := C107_time g b val phi q t pinv u cfg o ho N hN s H h1 h2
  obtain ⟨s', b1, b2⟩ := C107_quanta g b val (fun c => -phi c) q t pinv u cfg N m hm s₁ a1
  refine ⟨s', H', ?_, b2.trans a2, a3⟩
  rw [← b1]
  congr 1
  funext c
  ring

/-- The hypotheses of `C107_quanta` and `C107_half` are met: the SQUID with a flux bias of one junction and a charge bias; the flux `z` may be replaced by `1 - z`. -/
example : ∃ (b : Biases) (pinv : Matrix (Fin (edges (run {} biasedSquid)).length) (Fin (edges (run {} biasedSquid)).length) ℝ →
      Matrix (Fin (edges (run {} biasedSquid)).length) (Fin (edges (run {} biasedSquid)).length) ℝ)
    (cfg : Fin (nodes (run {} biasedSquid)).length → NodeCfg) (o : ∀ i, NodeOps (cfg i).dim) (N : Fin (nodes (run {} biasedSquid)).length → BigNode cfg),
    createFluxBiases (run {} biasedSquid) = .ok b ∧ (∀ i, TimeReversible (o i)) ∧ (∀ i, expandNode cfg i (o i) = some (N i)) ∧
    (∀ (m : String → ℤ), ∀ e ∈ edges (run {} biasedSquid), isEdgeOf (run {} biasedSquid) 'L' e = .ok true → ∀ c, b.flux.get? e = some (some c) → m c = 0) ∧
    (∃ i, ∀ z : ℝ, fluxBiasVector (fun _ => z) (run {} biasedSquid) b i = z) ∧
    ∀ (phi q : String → ℝ) (u : Prefs), ∃ s H, assemble (run {} biasedSquid) b (fun _ => 1) phi q ⟨false, 1⟩ pinv u = .ok s ∧ hamiltonian (s.withNodes N) = some H := by
  choose pinv hp using fun M : Matrix (Fin (edges (run {} biasedSquid)).length) (Fin (edges (run {} biasedSquid)).length) ℝ => pinv_exists M
  have hb : createFluxBiases (run {} biasedSquid) = .ok ⟨[((0, 1, 1), none), ((1, 0, 2), some "z")], [((0, 1, 1), none), ((1, 0, 2), some "z")]⟩ := by decide +kernel
  have hbr : branches biasedSquid = [(0, 1, "C1"), (0, 1, "I1"), (0, 1, "I2")] := by decide +kernel
  have hL : branchesOf 'L' (branches biasedSquid) = [] := by rw [hbr]; decide +kernel
  have hn : CircuitNetlist biasedSquid := by
    refine ⟨by simp [biasedSquid], ?_, ?_⟩
    · rw [hbr]; decide +kernel
    · rw [hbr]; decide +kernel
  let cfg : Fin (nodes (run {} biasedSquid)).length → NodeCfg := fun _ => ⟨5, .charge⟩
  choose o ho hD using fun i => reversible_exists (cfg i) (Or.inl rfl)
  choose N hN using fun i => expandNode_standard (cfg := cfg) (fun _ => Or.inl rfl) i (o i)
  obtain ⟨sgn, -, -, hop⟩ := C97_operator_partial biasedSquid _ biasedSquid_settled biasedSquid_ok hn _ hb
  have hcaps : NonnegCaps (fun _ => 1) biasedSquid := by
    refine ⟨fun _ _ => zero_le_one, fun n _ => ?_⟩
    unfold Spec.gateCap biasedSquid
    by_cases hn : 1 = n <;> simp [hn]
  have hconn : ∀ n ∈ nodesOf (branches biasedSquid), Conn (capacitiveNet (fun _ => 1) biasedSquid) n 0 := by
    intro n hn
    rw [hbr] at hn
    have hn' : n = 0 ∨ n = 1 := by
      revert hn; revert n; decide +kernel
    rcases hn' with rfl | rfl
    · exact Conn.refl _ _
    · refine Conn.symm (Conn.edge (e := (0, 1, 0)) ?_)
      unfold capacitiveNet
      rw [hbr]
      simp [branchesOf, wires]
      decide
  refine ⟨_, pinv, cfg, o, N, hb, ho, hN, ?_, ?_, ?_⟩
  · intro m e he hl
    exfalso
    revert hl
    revert he
    revert e
    decide +kernel
  · have h1 : (edges (run {} biasedSquid))[(edges (run {} biasedSquid)).idxOf (1, 0, 2)]? = some (1, 0, 2) := by decide +kernel
    have h2 : isEdgeOf (run {} biasedSquid) 'I' (1, 0, 2) = .ok true := by decide +kernel
    refine ⟨(edges (run {} biasedSquid)).idxOf (1, 0, 2), fun z => ?_⟩
    unfold fluxBiasVector biasVal
    rw [h1]
    dsimp only
    rw [if_pos h2]
    rfl
  · intro phi q u
    obtain ⟨s, C, k1, -, -, -, k2⟩ := hop (fun _ => 1) phi q hcaps hconn (by rw [hL]; simp) (by intro br hbr'; rw [hL] at hbr'; simp at hbr') pinv hp u cfg o N hN
    exact ⟨s, _, k1, k2⟩

end Verif.Props
