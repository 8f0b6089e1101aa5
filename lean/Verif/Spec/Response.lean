import Verif.Spec.Netlist

/-!
# How the levels respond to the component values and biases
-/

namespace Verif.Spec

open Verif.Circuit Complex

/-- The electrostatic energy of a charge state: `qp` is the charge of a pair, `C` the capacitance matrix and `ng` the gate charges. -/
noncomputable def electrostaticEnergy (nodes : List ℕ) {tr : Fin nodes.length → ℕ} (qp : ℝ) (C : Matrix (Fin nodes.length) (Fin nodes.length) ℝ) (ng : ℕ → ℝ)
    (x : ChargeState tr) : ℝ :=
  1 / 2 * ∑ i, ∑ j, qp ^ 2 * C⁻¹ i j * (excess x i + ng (nodes.get i)) * (excess x j + ng (nodes.get j))

/-- The values `val'` have the junctions of `val`, and capacitances and gate capacitances that are not smaller. -/
structure MoreCapacitance (val val' : String → ℝ) (h : List Call) : Prop where
  caps : ∀ b ∈ branchesOf 'C' (branches h), val b.2.2 ≤ val' b.2.2
  gates : ∀ n ∈ nodesOf (branches h), gateCap val h n ≤ gateCap val' h n
  junctions : ∀ b ∈ branchesOf 'I' (branches h), val' b.2.2 = val b.2.2

/-- The values `val'` have the capacitances of `val`. -/
structure SameCapacitance (val val' : String → ℝ) (h : List Call) : Prop where
  caps : ∀ b ∈ branchesOf 'C' (branches h), val' b.2.2 = val b.2.2
  gates : ∀ n ∈ nodesOf (branches h), gateCap val' h n = gateCap val h n

/-- The sum over the junctions of the changes of the critical current, in absolute value, and of the flux times the current. -/
noncomputable def junctionChange (val val' phi phi' : String → ℝ) (h : List Call) : ℝ :=
  ((branchesOf 'I' (branches h)).map fun b => |val' b.2.2 - val b.2.2| + 2 * Real.pi * |val b.2.2| * |fluxOn phi' h b.2.2 - fluxOn phi h b.2.2|).sum

end Verif.Spec
