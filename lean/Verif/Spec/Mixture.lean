import Verif.Spec.CircuitResponse

/-!
# Component values between two sets of component values
-/

namespace Verif.Spec

open Verif.Circuit

/-- The values `val` lie between `val1` and `val2`: critical currents, phase-slip amplitudes and inverse inductances are `c` times those of `val1` plus
`1 - c` times those of `val2`; the capacitances and gate capacitances are the same in all three. -/
structure MixedValues (c : ℝ) (val1 val2 val : String → ℝ) (h : List Call) : Prop where
  first : SameCapacitance val1 val h
  second : SameCapacitance val2 val h
  inductors : ∀ b ∈ branchesOf 'L' (branches h), 1 / val b.2.2 = c * (1 / val1 b.2.2) + (1 - c) * (1 / val2 b.2.2)
  junctions : ∀ b ∈ branchesOf 'I' (branches h), val b.2.2 = c * val1 b.2.2 + (1 - c) * val2 b.2.2
  slips : ∀ b ∈ branchesOf 'V' (branches h), val b.2.2 = c * val1 b.2.2 + (1 - c) * val2 b.2.2

end Verif.Spec
