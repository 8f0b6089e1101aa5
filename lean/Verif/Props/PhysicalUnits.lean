import Verif.Props.Energies
import Verif.Props.Units

/-!
# C83: junctions and phase slips in physical units
-/

namespace Verif.Props

open Verif Verif.Num Verif.Spec Verif.Units Matrix Complex

/-- **C83** In every system of units reached by clean calls the displacement operators of an oscillator node are the physical ones:
`exp(2πi a Φ / Φ0)` of the flux operator in weber and `exp(2πi b Q / 2e)` of the charge operator in coulomb, where `P` and `Q` are the
node's operators, in the configured units, and whatever eigenvectors the diagonaliser returns. -/
theorem C83_displacement (w : List UCall) (hw : ∀ c ∈ w, c.Clean) (i : ℕ) (U : Spec.System) (hU : Uses (runU w) i U) (flx chg : ℝ)
    (hf : getPrefactor (runU w) i "FlxOsc" = .ok flx) (hg : getPrefactor (runU w) i "ChgOsc" = .ok chg) (n : ℕ) (Z a b : ℝ)
    (E E' : Fin n → ℝ) (V V' : Op n) (hE : IsEigh (oscPp n Z flx a pc_phi0 pc_hbar) E V) (hE' : IsEigh (oscQp n Z chg b pc_e pc_hbar) E' V')
    (B : NodeOps n) (hB : B = oscillatorBasis n Z chg flx E V E' V') :
    B.D = NormedSpace.exp ((2 * Real.pi * I * (a / pc_phi0 : ℝ)) • ((U.Wb : ℂ) • B.P)) ∧
    B.S = NormedSpace.exp ((2 * Real.pi * I * (b / (2 * pc_e) : ℝ)) • ((U.C : ℂ) • B.Q)) := by
  have hpos := uses_pos (uinv_runU w hw) hU
  obtain ⟨-, -, -, -, -, -, c7, c8, -⟩ := uses_consistent (uinv_runU w hw) hU
  have e7 := Except.ok.inj (c7.symm.trans hf)
  have e8 := Except.ok.inj (c8.symm.trans hg)
  obtain ⟨-, -, -, -, -, -, pW, pC, -⟩ := hpos
  have hh : Real.sqrt pc_hbar ≠ 0 := (Real.sqrt_pos.2 (by unfold pc_hbar; norm_num)).ne'
  subst hB
  constructor
  · refine (C38_displacement _ E V hE).1.trans ?_
    congr 1
    show I • oscPp n Z flx a pc_phi0 pc_hbar = _ • (_ • oscP n Z flx)
    unfold oscPp
    rw [smul_smul, smul_smul, ← e7]
    congr 1
    have : a * 2 * Real.pi / pc_phi0 * Real.sqrt pc_hbar / (Real.sqrt pc_hbar / U.Wb) = 2 * Real.pi * (a / pc_phi0) * U.Wb := by
      field_simp
    rw [this]
    push_cast
    ring
  · refine (C38_displacement _ E' V' hE').1.trans ?_
    congr 1
    show I • oscQp n Z chg b pc_e pc_hbar = _ • (_ • oscQ n Z chg)
    unfold oscQp
    rw [smul_smul, smul_smul, ← e8]
    congr 1
    have : b * Real.pi / pc_e * Real.sqrt pc_hbar / (Real.sqrt pc_hbar / U.C) = 2 * Real.pi * (b / (2 * pc_e)) * U.C := by
      field_simp
    rw [this]
    push_cast
    ring

theorem josephson_one {n : ℕ} {A : Type} (edges : List (ℕ × ℕ × ℕ)) (he : edges.Nodup) (s : Sys A n edges.length) (k : Fin edges.length) :
    getJosephsonEnergies edges s (some (edges.get k)) = .ok (.one (s.J k * s.u.Ej)) ∧
    getPhaseSlipEnergies edges s (some (edges.get k)) = .ok (.one (s.Ps k * s.u.Ep)) := by
  obtain ⟨d, -, -, h, -⟩ := C77_report edges he fun i => s.J i * s.u.Ej
  obtain ⟨d', -, -, h', -⟩ := C77_report edges he fun i => s.Ps i * s.u.Ep
  exact ⟨(h k).2, (h' k).2⟩

theorem one_inj {K : Type} {x y : ℝ} : (Except.ok (Report.one x) : Except Err (Report K)) = .ok (.one y) ↔ x = y := by
  constructor
  · intro h; injection h with h; injection h
  · rintro rfl; rfl

/-- **C83** (partial: only if the flux unit is the flux quantum) The energy of a junction with the critical current `Ic` is `Φ0 Ic / 2π`, in
the energy unit; and no other flux unit gives that energy. -/
theorem C83_josephson_partial (w : List UCall) (hw : ∀ c ∈ w, c.Clean) (i : ℕ) (U : Spec.System) (hU : Uses (runU w) i U) {A : Type} {n : ℕ}
    (edges : List (ℕ × ℕ × ℕ)) (he : edges.Nodup) (s : Sys A n edges.length) (hEj : getPrefactor (runU w) i "Ej" = .ok s.u.Ej)
    (k : Fin edges.length) (hk : s.J k ≠ 0) :
    getJosephsonEnergies edges s (some (edges.get k)) = .ok (.one (U.E * (pc_phi0 * (s.J k * U.A) / (2 * Real.pi)))) ↔ U.Wb = pc_phi0 := by
  obtain ⟨-, -, -, pA, -, -, -, -, -, -, -, pE, -⟩ := uses_pos (uinv_runU w hw) hU
  obtain ⟨-, -, c3, -⟩ := uses_consistent (uinv_runU w hw) hU
  have e3 := Except.ok.inj (c3.symm.trans hEj)
  rw [(josephson_one edges he s k).1, ← e3, one_inj]
  have hpi := Real.pi_ne_zero
  constructor
  · intro h
    have hc : s.J k * U.E * U.A / (2 * Real.pi) ≠ 0 := by positivity
    apply mul_left_cancel₀ hc
    linear_combination h
  · intro h; rw [h]; ring

/-- **C83** (partial: only if the charge unit is the charge of a pair) The energy of a phase slip with the critical voltage `Vc` is
`2e Vc / 2π`, in the energy unit; and no other charge unit gives that energy. -/
theorem C83_phase_slip_partial (w : List UCall) (hw : ∀ c ∈ w, c.Clean) (i : ℕ) (U : Spec.System) (hU : Uses (runU w) i U) {A : Type} {n : ℕ}
    (edges : List (ℕ × ℕ × ℕ)) (he : edges.Nodup) (s : Sys A n edges.length) (hEp : getPrefactor (runU w) i "Ep" = .ok s.u.Ep)
    (k : Fin edges.length) (hk : s.Ps k ≠ 0) :
    getPhaseSlipEnergies edges s (some (edges.get k)) = .ok (.one (U.E * (2 * pc_e * (s.Ps k * U.V) / (2 * Real.pi)))) ↔ U.C = 2 * pc_e := by
  obtain ⟨-, -, -, -, pV, -, -, -, -, -, -, pE, -⟩ := uses_pos (uinv_runU w hw) hU
  obtain ⟨-, -, -, c4, -⟩ := uses_consistent (uinv_runU w hw) hU
  have e4 := Except.ok.inj (c4.symm.trans hEp)
  rw [(josephson_one edges he s k).2, ← e4, one_inj]
  have hpi := Real.pi_ne_zero
  constructor
  · intro h
    have hc : s.Ps k * U.E * U.V / (2 * Real.pi) ≠ 0 := by positivity
    apply mul_left_cancel₀ hc
    linear_combination h
  · intro h; rw [h]; ring

/-- The units of a new instance. -/
theorem new_uses (name : String) : Uses (runU [.new name]) 0 (startUnits name) ∧ ∀ c ∈ [UCall.new name], c.Clean := by
  obtain ⟨w, o, hw, -, ho, hH, -⟩ := one_instance name
  exact ⟨by rw [hw, uses_iff (o := o) (by rw [ho]; rfl)]; exact hH, by simp [UCall.Clean]⟩

/-- **C83** is false in SI units (any name that is not a preset): whatever the circuit, the energies of its junctions come out as if the flux
quantum were 1 Wb, and those of its phase slips as if the charge of a pair were 1 C. -/
theorem C83_false_SI : ∃ (w : List UCall) (U : Spec.System), (∀ c ∈ w, c.Clean) ∧ Uses (runU w) 0 U ∧ U.E = 1 ∧ U.A = 1 ∧ U.V = 1 ∧
    ∀ {A : Type} {n : ℕ} (edges : List (ℕ × ℕ × ℕ)), edges.Nodup → ∀ (s : Sys A n edges.length), getPrefactor (runU w) 0 "Ej" = .ok s.u.Ej →
      getPrefactor (runU w) 0 "Ep" = .ok s.u.Ep → ∀ k,
      getJosephsonEnergies edges s (some (edges.get k)) = .ok (.one (s.J k / (2 * Real.pi))) ∧
      getPhaseSlipEnergies edges s (some (edges.get k)) = .ok (.one (s.Ps k / (2 * Real.pi))) ∧
      (s.J k ≠ 0 → getJosephsonEnergies edges s (some (edges.get k)) ≠ .ok (.one (pc_phi0 * s.J k / (2 * Real.pi)))) := by
  obtain ⟨hU, hcl⟩ := new_uses "SI"
  have hst : startUnits "SI" = SI := by unfold startUnits; rw [if_neg (by decide), if_neg (by decide)]
  rw [hst] at hU
  refine ⟨[.new "SI"], SI, hcl, hU, rfl, rfl, rfl, fun {A n} edges he s hj hp k => ?_⟩
  obtain ⟨-, -, c3, c4, -⟩ := uses_consistent (uinv_runU _ hcl) hU
  have e3 := Except.ok.inj (c3.symm.trans hj)
  have e4 := Except.ok.inj (c4.symm.trans hp)
  refine ⟨?_, ?_, fun hk h => ?_⟩
  · rw [(josephson_one edges he s k).1, ← e3]; simp [SI]; ring
  · rw [(josephson_one edges he s k).2, ← e4]; simp [SI]; ring
  · have := (C83_josephson_partial _ hcl 0 SI hU edges he s hj k hk).1 (by rw [h]; simp [SI])
    unfold SI pc_phi0 at this
    norm_num at this

/-- A junction and a phase slip in the units of the preset "CQED1": the hypotheses of the theorems can be met, and the energies are right. -/
example (ic vc : ℝ) (hi : ic ≠ 0) (hv : vc ≠ 0) : ∃ (U : Spec.System) (s : Sys Unit 1 1),
    Uses (runU [.new "CQED1"]) 0 U ∧ U.Wb = pc_phi0 ∧ U.C = 2 * pc_e ∧ getPrefactor (runU [.new "CQED1"]) 0 "Ej" = .ok s.u.Ej ∧
      getPrefactor (runU [.new "CQED1"]) 0 "Ep" = .ok s.u.Ep ∧ s.J 0 ≠ 0 ∧ s.Ps 0 ≠ 0 := by
  obtain ⟨hU, hcl⟩ := new_uses "CQED1"
  have hst : startUnits "CQED1" = CQED1 := by unfold startUnits; rw [if_pos rfl]
  rw [hst] at hU
  obtain ⟨-, -, c3, c4, -⟩ := uses_consistent (uinv_runU _ hcl) hU
  let s : Sys Unit 1 1 := {
    Cinv := 1, Linv := 0, LinvB := 0, J := fun _ => ic, Ps := fun _ => vc, Pb := fun _ => 0,
    Qbt := fun _ => 0, Qb := fun _ => 0, Pbi := fun _ => 0, kind := fun _ => .josephson, terms := fun _ => [],
    Q := fun _ => ⟨⟩, P := fun _ => ⟨⟩, flux := fun _ => ⟨⟩, D := fun _ => ⟨⟩, Ddag := fun _ => ⟨⟩, S := fun _ => ⟨⟩, Sdag := fun _ => ⟨⟩,
    u := ⟨0, 0, CQED1.E * CQED1.Wb * CQED1.A / (2 * Real.pi), CQED1.E * CQED1.C * CQED1.V / (2 * Real.pi), 0, 0, 0⟩ }
  exact ⟨CQED1, s, hU, rfl, rfl, c3, c4, hi, hv⟩

/-- The diagonalisations of `C83_displacement` exist, with the prefactors of a new instance. -/
example (name : String) (n : ℕ) (Z a b : ℝ) : ∃ (flx chg : ℝ) (E E' : Fin n → ℝ) (V V' : Op n),
    getPrefactor (runU [.new name]) 0 "FlxOsc" = .ok flx ∧ getPrefactor (runU [.new name]) 0 "ChgOsc" = .ok chg ∧
    IsEigh (oscPp n Z flx a pc_phi0 pc_hbar) E V ∧ IsEigh (oscQp n Z chg b pc_e pc_hbar) E' V' := by
  obtain ⟨hU, hcl⟩ := new_uses name
  obtain ⟨-, -, -, -, -, -, c7, c8, -⟩ := uses_consistent (uinv_runU _ hcl) hU
  have hs : ∀ M : Op n, M.IsHermitian → ∃ E V, IsEigh M E V := fun M hH =>
    ⟨hH.eigenvalues, hH.eigenvectorUnitary, hH.eigenvectorUnitary.2, by simpa [Function.comp_def, Matrix.star_eq_conjTranspose] using hH.spectral_theorem⟩
  have h1 : ∀ p : ℝ, (oscPp n Z p a pc_phi0 pc_hbar).IsHermitian := by
    intro p
    unfold oscPp
    show _ᴴ = _
    rw [conjTranspose_smul, (C38_hermitian n Z p p).2, Complex.star_def, Complex.conj_ofReal]
  have h2 : ∀ p : ℝ, (oscQp n Z p b pc_e pc_hbar).IsHermitian := by
    intro p
    unfold oscQp
    show _ᴴ = _
    rw [conjTranspose_smul, (C38_hermitian n Z p p).1, Complex.star_def, Complex.conj_ofReal]
  obtain ⟨E, V, hE⟩ := hs _ (h1 _)
  obtain ⟨E', V', hE'⟩ := hs _ (h2 _)
  exact ⟨_, _, E, E', V, V', c7, c8, hE, hE'⟩

end Verif.Props
