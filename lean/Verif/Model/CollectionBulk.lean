import Verif.Model.Collection

/-!
# Bulk methods of `ParamCollection` (pyscqed/parameters.py)

Names are strings and overrides are symbols or None (the type checks are outside the model).
-/

namespace Verif.PC

variable {E : Type}

/-- `addParameters` (parameters.py 309-318): the loop over `addParameter`. -/
def addParameters (st : PC E) : List String → PC E × Except Err Unit
  | [] => (st, .ok ())
  | n :: ns =>
    match st.addParameter n with
    | (st', .error e) => (st', .error e)
    | (st', .ok ()) => addParameters st' ns

/-- The loop of `getSymbols` (parameters.py 551-556), with the overrides not yet used. -/
def getSymbolsLoop (st : PC E) : List String → List (Option Sym) → Dict String Sym → PC E × Except Err (Dict String Sym)
  | [], _, d => (st, .ok d)
  | _ :: _, [], _ => (st, .error .indexError)
  | n :: ns, o :: os, d =>
    match st.addParameter n o with
    | (st', .error e) => (st', .error e)
    | (st', .ok ()) =>
      match st'.symMap.get? n with
      | none => (st', .error .keyError)
      | some s => getSymbolsLoop st' ns os (d.set n s)

/-- `getSymbols` (parameters.py 534-557); `overrides = none` is the default None. -/
def getSymbols (st : PC E) (names : List String) (overrides : Option (List (Option Sym))) : PC E × Except Err (Dict String Sym) :=
  getSymbolsLoop st names (overrides.getD (names.map fun _ => none)) []

end Verif.PC
