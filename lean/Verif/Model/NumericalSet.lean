import Verif.Model.Numerical

/-!
# Setting parameters of a `NumericalSystem` and starting a new sweep (pyscqed/numerical_system.py 817-837, 860-861, 1051-1054)
-/

namespace Verif.Num

open Verif

namespace NS

variable {E R O : Type}

/-- `setParameterValue` (numerical_system.py 817-824). -/
def setParameterValue (eng : Engine E) (ho : HashOrder) (fuel : ℕ) (gen : List (ℕ × BasisName) → ℕ → Option PF → Except Err O)
    (st : NS E R O) (name : String) (value : PyVal) : NS E R O × Except Err Unit :=
  match st.sw.pc.setParameterValue eng ho fuel name value with
  | (pc, .error e) => ({ st with sw := { st.sw with pc := pc } }, .error e)
  | (pc, .ok ()) =>
    let st := { st with sw := { st.sw with pc := pc } }
    if pc.allParametersSet then
      match st.substitute eng with
      | (st, .error e) => (st, .error e)
      | (st, .ok ()) => st.prepareOperators gen
    else (st, .error .assertionError)

/-- `newSweep` (numerical_system.py 860-861) and `_init_sweep_data` (1051-1053). -/
def newSweep (st : NS E R O) : NS E R O := { st with specs := [], evals := [] }

/-- The two ways of setting parameter values. -/
inductive SetCall
  | one (name : String) (value : PyVal)
  | many (args : List PC.BulkArg)

/-- One call, with the iteration orders of Python's sets and the depth of expansions. -/
def set (eng : Engine E) (gen : List (ℕ × BasisName) → ℕ → Option PF → Except Err O) (st : NS E R O) (c : HashOrder × ℕ × SetCall) :
    NS E R O × Except Err Unit :=
  match c.2.2 with
  | .one name value => st.setParameterValue eng c.1 c.2.1 gen name value
  | .many args => st.setParameterValues eng c.1 c.2.1 gen args

/-- The state after some calls; a caller may catch their exceptions. -/
def sets (eng : Engine E) (gen : List (ℕ × BasisName) → ℕ → Option PF → Except Err O) (st : NS E R O) (l : List (HashOrder × ℕ × SetCall)) :
    NS E R O :=
  l.foldl (fun st c => (st.set eng gen c).1) st

end NS

end Verif.Num
