import Verif.Spec.Response

/-!
# How the levels of any circuit respond to the component values and to the biases
-/

namespace Verif.Spec

open Verif.Circuit Complex Matrix

/-- The values `val'` have the junctions and phase slips of `val`, and capacitances, gate capacitances and inductances that are not smaller. -/
structure MoreValues (val val' : String → ℝ) (h : List Call) : Prop where
  caps : ∀ b ∈ branchesOf 'C' (branches h), val b.2.2 ≤ val' b.2.2
  gates : ∀ n ∈ nodesOf (branches h), gateCap val h n ≤ gateCap val' h n
  inductors : ∀ b ∈ branchesOf 'L' (branches h), val b.2.2 ≤ val' b.2.2
  junctions : ∀ b ∈ branchesOf 'I' (branches h), val' b.2.2 = val b.2.2
  slips : ∀ b ∈ branchesOf 'V' (branches h), val' b.2.2 = val b.2.2

/-- The values `val'` have the capacitances, gate capacitances and inductances of `val`. -/
structure SameLinear (val val' : String → ℝ) (h : List Call) : Prop where
  caps : ∀ b ∈ branchesOf 'C' (branches h), val' b.2.2 = val b.2.2
  gates : ∀ n ∈ nodesOf (branches h), gateCap val' h n = gateCap val h n
  inductors : ∀ b ∈ branchesOf 'L' (branches h), val' b.2.2 = val b.2.2

/-- The sum over the phase slips of the changes of their amplitudes, in absolute value. -/
noncomputable def slipChange (val val' : String → ℝ) (h : List Call) : ℝ :=
  ((branchesOf 'V' (branches h)).map fun b => |val' b.2.2 - val b.2.2|).sum

/-- An operator that lengthens no state. -/
def Contraction {ι : Type} [Fintype ι] (A : Matrix ι ι ℂ) : Prop := ∀ v : ι → ℂ, ∑ i, normSq ((A *ᵥ v) i) ≤ ∑ i, normSq (v i)

end Verif.Spec
