import Verif.Model.ResUnits

/-!
# Vocabulary for the unit prefactors of the resonators
-/

namespace Verif.Spec

open Verif Verif.Num

/-- The derived parameters of the resonators. -/
def _root_.Verif.Num.ResNames.all (r : ResNames) : List String := [r.Cr, r.Lr, r.gC, r.frl, r.Zrl]

/-- The factor that the units give to a derived parameter of one of the resonators. -/
inductive Factor (rs : List ResNames) (f : ResPref) : String → PF → Prop
  | Cr {r} : r ∈ rs → Factor rs f r.Cr f.Cr
  | Lr {r} : r ∈ rs → Factor rs f r.Lr f.Lr
  | gC {r} : r ∈ rs → Factor rs f r.gC f.gC
  | frl {r} : r ∈ rs → Factor rs f r.frl f.frl
  | Zrl {r} : r ∈ rs → Factor rs f r.Zrl f.Zrl

end Verif.Spec
