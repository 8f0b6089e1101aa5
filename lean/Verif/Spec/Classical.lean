import Verif.Spec.Symbolic
import Mathlib.Analysis.SpecialFunctions.Trigonometric.Basic

/-!
# The energy stored in the components of a circuit
-/

namespace Verif.Spec

open Verif.Circuit

/-- The sum of a quantity over the oriented branches whose component has the letter. -/
def overBranches (g : CG) (letter : Char) (f : ℕ × ℕ × ℕ → String → ℝ) : ℝ :=
  (g.wc.map fun e => match g.cmap.get? e with
    | some c => if startsWith c letter = true then f e c else 0
    | none => 0).sum

/-- The energy stored in the capacitors, gate capacitors and resonator loads at node voltages `v`: the sum of `C (difference)² / 2`. -/
noncomputable def electricEnergy (h : List Call) (g : CG) (val : String → ℝ) (v : ℕ → ℝ) : ℝ :=
  1 / 2 * capacitorForm val (branches h) v + ∑ n ∈ nodesOf (branches h), 1 / 2 * (gateCapacitance val g n + resonatorLoad val g n) * v n ^ 2

/-- The energy stored in uncoupled inductors at node fluxes `φ` with branch biases: the sum of `(φ_a - φ_b + bias)² / 2L`. -/
noncomputable def magneticEnergy (g : CG) (val : String → ℝ) (bias : ℕ × ℕ × ℕ → ℝ) (φ : ℕ → ℝ) : ℝ :=
  overBranches g 'L' fun e c => 1 / 2 * (φ e.1 - φ e.2.1 + bias e) ^ 2 / val c

/-- The energy of the junctions, for Josephson energies `val` and flux quantum `Phi0`. -/
noncomputable def cosineEnergy (g : CG) (val : String → ℝ) (Phi0 : ℝ) (bias : ℕ × ℕ × ℕ → ℝ) (φ : ℕ → ℝ) : ℝ :=
  overBranches g 'I' fun e c => -(val c) * Real.cos (2 * Real.pi / Phi0 * (φ e.1 - φ e.2.1 + bias e))

/-- `+1` at the node where the oriented branch begins and `-1` where it ends. -/
def incid (n : ℕ) (e : ℕ × ℕ × ℕ) : ℝ := (if e.1 = n then 1 else 0) - (if e.2.1 = n then 1 else 0)

/-- The current that leaves node `n` through the inductors (`flux / L`) and junctions (`2π/Φ0 · EJ · sin`). -/
noncomputable def nodeCurrent (g : CG) (val : String → ℝ) (Phi0 : ℝ) (bias : ℕ × ℕ × ℕ → ℝ) (φ : ℕ → ℝ) (n : ℕ) : ℝ :=
  overBranches g 'L' (fun e c => incid n e * ((φ e.1 - φ e.2.1 + bias e) / val c)) +
    overBranches g 'I' (fun e c => incid n e * (2 * Real.pi / Phi0 * val c * Real.sin (2 * Real.pi / Phi0 * (φ e.1 - φ e.2.1 + bias e))))

end Verif.Spec
