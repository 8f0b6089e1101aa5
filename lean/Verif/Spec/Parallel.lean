import Verif.Spec.Netlist

/-!
# Components in parallel
-/

namespace Verif.Spec

open Verif.Circuit Complex

/-- The calls `h` describe the circuit of the calls `h'` with one more component: `y`, between the nodes `a` and `b` of the component `x` (from
either end).  `l` are the other branches.  The charge biases and gate capacitances are the same (and are not made of the component `x`). -/
structure Parallel (h h' : List Call) (x y : String) (a b : ℕ) (l : List (ℕ × ℕ × String)) : Prop where
  both : (branches h).Perm ((a, b, x) :: (a, b, y) :: l) ∨ (branches h).Perm ((a, b, x) :: (b, a, y) :: l)
  one : (branches h').Perm ((a, b, x) :: l)
  charge : ∀ q n, gateCharge q h' n = gateCharge q h n
  caps : ∀ val val' : String → ℝ, (∀ c, c ≠ x → val' c = val c) → ∀ n, gateCap val' h' n = gateCap val h n

/-- The components of two values in parallel: a capacitor with the sum of the capacitances, a junction with the sum of the critical currents. -/
noncomputable def summed (val : String → ℝ) (x y : String) (c : String) : ℝ := if c = x then val x + val y else val c

/-- The same for all components: capacitances, critical currents and phase slip energies add, inductances add inversely. -/
noncomputable def merged (val : String → ℝ) (x y : String) (c : String) : ℝ :=
  if c = x then (if startsWith x 'L' = true then (1 / val x + 1 / val y)⁻¹ else val x + val y) else val c

/-- The critical current of a SQUID of junctions with critical currents `I1` and `I2`, threaded by `φ` flux quanta. -/
noncomputable def squidCurrent (I1 I2 φ : ℝ) : ℝ := Real.sqrt (I1 ^ 2 + I2 ^ 2 + 2 * I1 * I2 * Real.cos (2 * Real.pi * φ))

end Verif.Spec
