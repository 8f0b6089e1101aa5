import Verif.Spec.Expressions

/-!
# What a sweep of a circuit asks of the oscillators
-/

namespace Verif.Spec

open Verif Verif.Num

variable {E D : Type}

/-- At the values of `pc` the frequencies and impedances of the nodes that have them can be computed. -/
def OscillatorsDefined (eng : Engine E) (law : eng.Lawful D) (pc : PC E) : Prop :=
  ∀ node k, k = NS.fName node ∨ k = NS.zName node → Parametric pc k → ∃ f, HasSource eng pc k ∧ Computable eng law pc k f

end Verif.Spec
