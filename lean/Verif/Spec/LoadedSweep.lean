import Verif.Spec.LoadedUse
import Verif.Spec.SweepUse

/-!
# What a sweep of a circuit with resonators asks of the resonators
-/

namespace Verif.Spec

open Verif Verif.Num

variable {E D : Type}

/-- At the values of `pc` the parameters that are computed for the resonators can be computed. -/
def ResonatorsDefined (eng : Engine E) (law : eng.Lawful D) (h : List Circuit.Call) (pc : PC E) : Prop :=
  ∀ k, Computed h k → ∃ f, HasSource eng pc k ∧ Computable eng law pc k f

/-- The values of the parameters of a circuit at the point `d` of a sweep: those of the point, for the parameters that are neither swept nor computed those
that they have (in `pc`), and for those that are computed for resonators those that they get when the values of the point are set (in `pcF`). -/
def LoadedPoint (h : List Circuit.Call) (pc pcF : PC E) (d : Dict String PF) (v : String → ℚ) : Prop :=
  (∀ c n, c ∈ h → Declares c n → ¬ Computed h n → d.get? n = some (.fin (v n)) ∨ (d.get? n = none ∧ pc.getParameterValue n = .ok (some (.fin (v n))))) ∧
  ∀ n, Computed h n → pcF.getParameterValue n = .ok (some (.fin (v n)))

end Verif.Spec
