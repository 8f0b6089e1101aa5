import Verif.Prelude.Py

/-!
# Model of `Param` (pyscqed/parameters.py, lines 19-193)
-/

namespace Verif

/-- A sympy symbol, identified by its name. -/
abbrev Sym := String

/-- The `bounds` argument of `Param.__init__` and `Param.setBounds`: an arbitrary object. -/
inductive BoundsArg
  | notList
  | list (l : List PyVal)
  deriving DecidableEq, Repr

/-- The `N` argument of `linearSweep`: an `int`, or any other object. -/
inductive CountArg
  | int (n : ℤ)
  | other
  deriving DecidableEq, Repr

/-- Attributes of a `Param` instance (parameters.py 77-90).  `name_latex` is modelled separately
(`Verif.Model.Latex`); `upref` is stored and never used by the code. -/
structure Param where
  name : String
  symbol : Sym
  value : Option PF
  lo : PF
  hi : PF
  upref : PF
  sweep : List PF
  N : ℤ
  deriving DecidableEq, Repr

namespace Param

/-- `"%s_{%s}" % (name[0], name[1:])` (parameters.py 78).  `none` is the IndexError of `""[0]`.
Simplification: `sy.symbols` splits its argument at commas and white space and expands ranges written
with a colon; names containing `,` `:` tabs or newlines are treated here as a single symbol. -/
def symbolOf (name : String) : Option Sym :=
  match name.toList with
  | [] => none
  | c :: cs => some (String.ofList (c :: '_' :: '{' :: (cs ++ ['}'])))

/-- `float(b)` for an accepted bound: both `float`, or both `int` (parameters.py 66, 147). -/
def boundPair : PyVal → PyVal → Option (PF × PF)
  | .float a, .float b => some (a, b)
  | .int a, .int b => some (PF.fin a, PF.fin b)
  | _, _ => none

/-- The checks on `bounds`.  The only difference between the two callers is the exception raised for
a list of the wrong length: TypeError in `__init__` (parameters.py 61-70), ValueError in `setBounds`
(parameters.py 141-152). -/
def checkBounds (lenErr : Err) : BoundsArg → Except Err (PF × PF)
  | .notList => .error .typeError
  | .list [a, b] =>
    match boundPair a b with
    | none => .error .typeError
    | some (lo, hi) => if PF.lt hi lo then .error .valueError else .ok (lo, hi)
  | .list _ => .error lenErr

/-- `Param.__init__` (parameters.py 50-90).  `value = none` is the default `None`.
The `name` argument is a string (the type check of line 53 is outside the model). -/
def new (name : String) (value : Option PyVal := none)
    (bounds : BoundsArg := .list [.float .ninf, .float .pinf])
    (unitPref : PyVal := .float (.fin 1)) : Except Err Param :=
  if name.toList.contains ' ' then .error .valueError
  else
    match (match value with
           | none => Except.ok none
           | some v => match v.toFloat? with
             | none => .error Err.typeError
             | some f => .ok (some f)) with
    | .error e => .error e
    | .ok val =>
      match checkBounds .typeError bounds with
      | .error e => .error e
      | .ok (lo, hi) =>
        match unitPref.toFloat? with
        | none => .error .typeError
        | some u =>
          if PF.lt u (.fin 0) then .error .valueError
          else match symbolOf name with
            | none => .error .indexError
            | some s => .ok { name := name, symbol := s, value := val, lo := lo, hi := hi,
                              upref := u, sweep := [], N := 0 }

/-- `Param.getValue` (parameters.py 92-98). -/
def getValue (p : Param) : Option PF := p.value

/-- `Param.getBounds` (parameters.py 121-127). -/
def getBounds (p : Param) : PF × PF := (p.lo, p.hi)

/-- `Param.setValue` (parameters.py 100-119). -/
def setValue (p : Param) (v : PyVal) : Param × Except Err Unit :=
  match v.toFloat? with
  | none => (p, .error .typeError)
  | some f =>
    if PF.le p.hi f then (p, .error .valueError)
    else if PF.le f p.lo then (p, .error .valueError)
    else ({ p with value := some f }, .ok ())

/-- `Param.setBounds` (parameters.py 129-152). -/
def setBounds (p : Param) (b : BoundsArg) : Param × Except Err Unit :=
  match checkBounds .valueError b with
  | .error e => (p, .error e)
  | .ok (lo, hi) => ({ p with lo := lo, hi := hi }, .ok ())

/-- `np.linspace(a, b, n)` for `n ≥ 0` (numpy 2.0 `linspace`, called at parameters.py 191), in exact
arithmetic: `start + i*step` with the last point overwritten by `stop` when `n > 1`. -/
def linspace (a b : PF) (n : ℕ) : List PF :=
  (List.range n).map fun i =>
    if 1 < n ∧ i = n - 1 then b
    else
      if 1 < n then
        let delta := PF.sub b a
        PF.add (PF.smul i (PF.smul (1 / ((n : ℚ) - 1)) delta)) a
      else PF.add (PF.smul i (PF.sub b a)) a

/-- `Param.linearSweep` (parameters.py 154-193).  `np.linspace` raises ValueError for a negative
number of samples, before `sweep` and `N` are assigned. -/
def linearSweep (p : Param) (start stop : PyVal) (n : CountArg) : Param × Except Err (List PF) :=
  match start.toFloat? with
  | none => (p, .error .typeError)
  | some a =>
    match stop.toFloat? with
    | none => (p, .error .typeError)
    | some b =>
      match n with
      | .other => (p, .error .typeError)
      | .int z =>
        if PF.lt p.hi a then (p, .error .valueError)
        else if PF.lt a p.lo then (p, .error .valueError)
        else if PF.lt p.hi b then (p, .error .valueError)
        else if PF.lt b p.lo then (p, .error .valueError)
        else if z < 0 then (p, .error .valueError)
        else
          let s := linspace a b z.toNat
          ({ p with sweep := s, N := z }, .ok s)

end Param

end Verif
