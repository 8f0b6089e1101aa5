import Verif.Spec.Symbolic
import Mathlib.Analysis.SpecialFunctions.Trigonometric.Basic

/-!
# Vocabulary for the classical potential
-/

namespace Verif.Spec

open Verif.Circuit

/-- The energy of the junctions at node fluxes `φ`, in flux quanta: minus the sum of `Ej I cos 2π(φ_a - φ_b + bias)` over the oriented junction
branches. -/
noncomputable def junctionEnergy (g : CG) (Ej : ℝ) (val : String → ℝ) (bias : ℕ × ℕ × ℕ → ℝ) (φ : ℕ → ℝ) : ℝ :=
  -((g.wc.map fun e => match g.cmap.get? e with
    | some c => if startsWith c 'I' = true then Ej * val c * Real.cos (2 * Real.pi * (φ e.1 - φ e.2.1 + bias e)) else 0
    | none => 0).sum)

/-- The energy of uncoupled inductors. -/
noncomputable def inductorEnergy (bs : List (ℕ × ℕ × String)) (El : ℝ) (val : String → ℝ) (φ : ℕ → ℝ) : ℝ :=
  1 / 2 * El * inductorForm val bs φ

end Verif.Spec
