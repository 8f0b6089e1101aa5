import Verif.Spec.NetlistOp

/-!
# The current through a component, as an operator
-/

namespace Verif.Spec

open Verif.Circuit Complex

/-- The current through the component `c` from the node `a` to the node `b`: of an inductor `(Φ_a - Φ_b) / L`, of a junction
`-I sin(2π(Φ_a - Φ_b + f))` (the sine in terms of displacement operators; the sign is the one of the program); nothing else carries a current.
`IopL` and `IopJ` are the units. -/
noncomputable def branchCurrent {A : Type} [Ring A] [Algebra ℂ A] (nodes : List ℕ) (IopL IopJ : ℝ) (val f : String → ℝ) (o : NodeOperators A nodes.length)
    (a b : ℕ) (c : String) : Option A :=
  if startsWith c 'L' = true then some (((IopL / val c : ℝ) : ℂ) • (atNumber nodes o.P 0 a - atNumber nodes o.P 0 b))
  else if startsWith c 'I' = true then some ((I * (IopJ * val c / 2 : ℝ)) •
    (exp (2 * Real.pi * f c * I) • (atNumber nodes o.D 1 a * atNumber nodes o.Ddag 1 b) -
      exp (-(2 * Real.pi * f c * I)) • (atNumber nodes o.Ddag 1 a * atNumber nodes o.D 1 b)))
  else none

end Verif.Spec
