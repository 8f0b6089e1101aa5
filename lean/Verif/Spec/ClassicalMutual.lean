import Verif.Spec.Classical
import Verif.Spec.NetlistMutual

/-!
# The energy stored in coupled inductors
-/

namespace Verif.Spec

open Verif.Circuit

/-- The flux of an inductor at node fluxes `φ`: the difference between its nodes plus its bias `f`. -/
def fluxAcross (f : String → ℝ) (φ : ℕ → ℝ) (b : ℕ × ℕ × String) : ℝ := φ b.1 - φ b.2.1 + f b.2.2

/-- The current in the `i`-th inductor that was added, from the fluxes of all inductors: `Λ⁻¹ X`, `Λ` the inductance matrix. -/
noncomputable def currentIn (val sgn : String → ℝ) (h : List Call) (f : String → ℝ) (φ : ℕ → ℝ) (i : Fin (branchesOf 'L' (branches h)).length) : ℝ :=
  ∑ j, (inductanceMatrix val sgn h)⁻¹ i j * fluxAcross f φ ((branchesOf 'L' (branches h)).get j)

/-- The energy stored in inductors with mutual inductances: half the sum of current times flux. -/
noncomputable def coupledEnergy (val sgn : String → ℝ) (h : List Call) (f : String → ℝ) (φ : ℕ → ℝ) : ℝ :=
  1 / 2 * ∑ i, currentIn val sgn h f φ i * fluxAcross f φ ((branchesOf 'L' (branches h)).get i)

/-- The current that leaves node `n` through the inductors (`+` where the inductor begins, `-` where it ends) and the junctions. -/
noncomputable def coupledNodeCurrent (g : CG) (val sgn : String → ℝ) (h : List Call) (f : String → ℝ) (Phi0 : ℝ) (bias : ℕ × ℕ × ℕ → ℝ) (φ : ℕ → ℝ) (n : ℕ) : ℝ :=
  ∑ i, ((if ((branchesOf 'L' (branches h)).get i).1 = n then 1 else 0) - (if ((branchesOf 'L' (branches h)).get i).2.1 = n then 1 else 0)) *
      currentIn val sgn h f φ i +
    overBranches g 'I' (fun e c => incid n e * (2 * Real.pi / Phi0 * val c * Real.sin (2 * Real.pi / Phi0 * (φ e.1 - φ e.2.1 + bias e))))

end Verif.Spec
