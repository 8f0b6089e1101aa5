import Verif.Spec.Currents
import Verif.Spec.NetlistMutual

/-!
# The current through an inductor with mutual inductances
-/

namespace Verif.Spec

open Verif.Circuit Complex

/-- The diagonal entry of the inverse of the inductance matrix for the inductor `c`: the current per flux in `c` while the fluxes of all other
inductors are zero. -/
noncomputable def ownInverse (val sgn : String → ℝ) (h : List Call) (c : String) : ℝ :=
  ∑ i, if ((branchesOf 'L' (branches h)).get i).2.2 = c then (inductanceMatrix val sgn h)⁻¹ i i else 0

/-- `branchCurrent` with the own entry of the inverse inductance matrix in place of the inverse inductance. -/
noncomputable def ownCurrent {A : Type} [Ring A] [Algebra ℂ A] (nodes : List ℕ) (IopL IopJ : ℝ) (val sgn f : String → ℝ) (h : List Call)
    (o : NodeOperators A nodes.length) (a b : ℕ) (c : String) : Option A :=
  if startsWith c 'L' = true then some (((IopL * ownInverse val sgn h c : ℝ) : ℂ) • (atNumber nodes o.P 0 a - atNumber nodes o.P 0 b))
  else branchCurrent nodes IopL IopJ val f o a b c

end Verif.Spec
