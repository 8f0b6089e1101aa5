import Verif.Model.Collection

/-!
# The unit prefactors of the resonators (pyscqed/numerical_system.py, `_set_parameter_units`)
-/

namespace Verif.Num

open Verif

variable {E : Type}

/-- The names of the derived parameters of a resonator (circuit_graph.py 150-159). -/
structure ResNames where
  Cr : String
  Lr : String
  gC : String
  frl : String
  Zrl : String
  deriving DecidableEq

/-- The five numbers computed from the unit object: `1/(Uf*Uo*Uc)`, `Uo/(Uf*Ul)`, and the prefactors `ChgOscCpl`, `Freq`, `Impe`
(numerical_system.py 1274-1277, 1283-1287). -/
structure ResPref where
  Cr : PF
  Lr : PF
  gC : PF
  frl : PF
  Zrl : PF
  deriving DecidableEq

/-- The calls of lines 1283-1287 for one resonator, in order. -/
def resCalls (f : ResPref) (r : ResNames) : List (String × PF) :=
  [(r.Cr, f.Cr), (r.Lr, f.Lr), (r.gC, f.gC), (r.frl, f.frl), (r.Zrl, f.Zrl)]

/-- A sequence of calls of `addParameterisationPrefactor` with float arguments; the first exception ends it. -/
def prefactors (eng : Engine E) : List (String × PF) → PC E → PC E × Except Err Unit
  | [], pc => (pc, .ok ())
  | (n, f) :: l, pc =>
    match pc.addParameterisationPrefactor eng n (eng.lit f) with
    | (pc, .error e) => (pc, .error e)
    | (pc, .ok ()) => prefactors eng l pc

/-- `_set_parameter_units` (numerical_system.py 1271-1287), called by the constructor (line 49) on the shared symbolic system.  The dict of
resonators is given without its `None` entries. -/
def setParameterUnits (eng : Engine E) (f : ResPref) (rs : List ResNames) (pc : PC E) : PC E × Except Err Unit :=
  prefactors eng (rs.flatMap (resCalls f)) pc

/-- The effect on the symbolic system of constructing numerical systems one after the other, with the given units.  The rest of the
constructor (numerical_system.py 40-58) does not write the parameter collection but through the methods of `Verif.Model.Derived`. -/
def constructAll (eng : Engine E) (rs : List ResNames) : List ResPref → PC E → PC E × Except Err Unit
  | [], pc => (pc, .ok ())
  | f :: fs, pc =>
    match setParameterUnits eng f rs pc with
    | (pc, .error e) => (pc, .error e)
    | (pc, .ok ()) => constructAll eng rs fs pc

end Verif.Num
