import Verif.Prelude.Dict
import Verif.Prelude.Py
import Mathlib.Analysis.SpecialFunctions.Pow.Real
import Mathlib.Analysis.SpecialFunctions.Trigonometric.Basic

/-!
# Model of `Units` (pyscqed/units.py)

Floats are real numbers.  The `{'unit':…, 'factor':…}` dictionaries are heap cells, because `loadPreset`
stores references to the cells of the module-level presets.  Not modelled: `system`, the LaTeX tables, the
`convert*` methods (they do nothing), rounding, and factors that are negative or zero other than the zero
division of the `F` and `H` factors (there numpy yields nan/inf or Python a complex number).
-/

namespace Verif.Units

open Verif

/-! physical_constants.py 4-29 -/

/-- Elementary charge (physical_constants.py 5). -/
noncomputable def pc_e : ℝ := 1.60217662e-19
/-- Planck constant (physical_constants.py 8). -/
noncomputable def pc_h : ℝ := 6.62607004e-34
/-- Reduced Planck constant (physical_constants.py 11). -/
noncomputable def pc_hbar : ℝ := 1.054571800e-34
/-- Boltzmann constant (physical_constants.py 23). -/
noncomputable def pc_kB : ℝ := 1.38064852e-23
/-- Flux quantum (physical_constants.py 29). -/
noncomputable def pc_phi0 : ℝ := 2.067833831e-15

/-- A cell `{'unit':…, 'factor':…}`. -/
structure Entry where
  unit : String
  factor : ℝ

/-- A `Units` instance: attributes `c`, `cd` (key to cell address) and `prefactors`. -/
structure UObj where
  c : Dict String ℕ
  cd : Dict String ℕ
  prefactors : Dict String ℝ

/-- The heap of cells, the module variable `units_presets` and the live `Units` instances. -/
structure World where
  heap : List Entry
  presets : Dict String (Dict String ℕ)
  objs : List UObj

/-- `__SI_units` (units.py 88). -/
def SIunits : List String := ["F", "H", "Ohm", "A", "V", "Hz", "Wb", "C", "J", "K", "eV"]

/-- `__output_units` (units.py 102). -/
def outputUnits : List String := ["Energy", "Current", "Voltage"]

/-- `__prefixes` (units.py 103-121). -/
noncomputable def prefixes : Dict Char ℝ :=
  [('E', 1e18), ('P', 1e15), ('T', 1e12), ('G', 1e9), ('M', 1e6), ('k', 1e3), ('h', 1e2), ('D', 1e1),
   ('0', 1e0), ('d', 1e-1), ('c', 1e-2), ('m', 1e-3), ('u', 1e-6), ('n', 1e-9), ('p', 1e-12), ('f', 1e-15),
   ('a', 1e-18)]

/-- The cells of `units_presets` (units.py 38-71): first "CQED1", then "CQED2". -/
noncomputable def presetCells : List Entry :=
  [⟨"GHz", 1 / (pc_h * 1e9)⟩, ⟨"uA", 1 / 1e-6⟩, ⟨"uV", 1 / 1e-6⟩, ⟨"fF", 1e-15⟩, ⟨"pH", 1e-12⟩, ⟨"Ohm", 1.0⟩,
   ⟨"uA", 1e-6⟩, ⟨"uV", 1e-6⟩, ⟨"GHz", 1e9⟩, ⟨"phi0", pc_phi0⟩, ⟨"2e", 2 * pc_e⟩, ⟨"J", 1.0⟩, ⟨"K", 1.0⟩,
   ⟨"eV", 1.0⟩,
   ⟨"GHz", 1 / (pc_h * 1e9)⟩, ⟨"nA", 1 / 1e-9⟩, ⟨"nV", 1 / 1e-9⟩, ⟨"fF", 1e-15⟩, ⟨"pH", 1e-12⟩, ⟨"Ohm", 1.0⟩,
   ⟨"nA", 1e-9⟩, ⟨"nV", 1e-9⟩, ⟨"GHz", 1e9⟩, ⟨"phi0", pc_phi0⟩, ⟨"2e", 2 * pc_e⟩, ⟨"J", 1.0⟩, ⟨"K", 1.0⟩,
   ⟨"eV", 1.0⟩]

/-- The addresses in `units_presets` (units.py 38-71). -/
def presetTable : Dict String (Dict String ℕ) :=
  [("CQED1", [("Energy", 0), ("Current", 1), ("Voltage", 2), ("F", 3), ("H", 4), ("Ohm", 5), ("A", 6), ("V", 7),
     ("Hz", 8), ("Wb", 9), ("C", 10), ("J", 11), ("K", 12), ("eV", 13)]),
   ("CQED2", [("Energy", 14), ("Current", 15), ("Voltage", 16), ("F", 17), ("H", 18), ("Ohm", 19), ("A", 20),
     ("V", 21), ("Hz", 22), ("Wb", 23), ("C", 24), ("J", 25), ("K", 26), ("eV", 27)])]

/-- The state after importing the module. -/
noncomputable def init : World := { heap := presetCells, presets := presetTable, objs := [] }

/-- `d[key]['factor']`. -/
def factor (w : World) (d : Dict String ℕ) (key : String) : Option ℝ :=
  (d.get? key).bind fun a => (w.heap[a]?).map Entry.factor

/-- `_updatePrefactors` with the `_get…Unit` methods (units.py 353-421).  A missing key is a `KeyError`, a zero
`F` or `H` factor a `ZeroDivisionError`; in both cases `self.prefactors` keeps its old value. -/
noncomputable def computePrefactors (w : World) (o : UObj) : Except Err (Dict String ℝ) :=
  match factor w o.cd "Energy", factor w o.cd "Current", factor w o.cd "Voltage", factor w o.c "F",
    factor w o.c "H", factor w o.c "A", factor w o.c "V", factor w o.c "Hz", factor w o.c "Wb", factor w o.c "C" with
  | some E, some Io, some Vo, some F, some H, some A, some V, some Hz, some Wb, some C =>
    if F = 0 ∨ H = 0 then .error .zeroDivision
    else .ok
      [("Ec", E * C ^ 2 / F),
       ("El", E * Wb ^ 2 / H),
       ("Ej", E * Wb * A / (2 * Real.pi)),
       ("Ep", E * C * V / (2 * Real.pi)),
       ("Freq", 1 / (Hz * Real.sqrt (F * H) * 2 * Real.pi)),
       ("Impe", Real.sqrt (H / F)),
       ("FlxOsc", Real.sqrt pc_hbar / Wb),
       ("ChgOsc", Real.sqrt pc_hbar / C),
       ("Vop", Vo * C / F),
       ("IopL", Io * Wb / H),
       ("IopJ", Io * A),
       ("Flx", Wb),
       ("Chg", C),
       ("Pha", Wb / pc_phi0),
       ("ChgOscCpl", E * Real.sqrt pc_hbar * C / (F * (H / F) ^ (0.25 : ℝ))),
       ("FlxOscCpl", 0)]
  | _, _, _, _, _, _, _, _, _, _ => .error .keyError

/-- `_updatePrefactors` on an instance that is about to be stored at index `i`. -/
noncomputable def store (w : World) (i : ℕ) (o : UObj) : World × Except Err Unit :=
  match computePrefactors w o with
  | .error e => ({ w with objs := w.objs.set i o }, .error e)
  | .ok p => ({ w with objs := w.objs.set i { o with prefactors := p } }, .ok ())

/-- Allocate one cell per key. -/
def allocAll (w : World) (d : Dict String ℕ) : List (String × Entry) → World × Dict String ℕ
  | [] => (w, d)
  | (k, e) :: l => allocAll { w with heap := w.heap ++ [e] } (d.set k w.heap.length) l

/-- Copy the references `presets[name][key]` for the given keys; `none` stands for `KeyError`. -/
def loadKeys (p : Dict String ℕ) (d : Dict String ℕ) : List String → Option (Dict String ℕ)
  | [] => some d
  | k :: l => (p.get? k).bind fun a => loadKeys p (d.set k a) l

/-- `loadPreset` (units.py 162-176).  An unknown preset raises at the first key, before any assignment. -/
noncomputable def loadPreset (w : World) (i : ℕ) (name : String) : World × Except Err Unit :=
  match w.objs[i]? with
  | none => (w, .error .attributeError)
  | some o =>
    match w.presets.get? name with
    | none => (w, .error .keyError)
    | some p =>
      match loadKeys p o.cd outputUnits with
      | none => (w, .error .keyError)
      | some cd =>
        match loadKeys p o.c SIunits with
        | none => (w, .error .keyError)
        | some c => store w i { o with cd := cd, c := c }

/-- `__init__` (units.py 142-160).  The new instance is the last one. -/
noncomputable def new (w : World) (name : String) : World × Except Err Unit :=
  let (w, c) := allocAll w [] (SIunits.map fun u => (u, ⟨u, 1.0⟩))
  let (w, cd) := allocAll w [] [("Energy", ⟨"J", 1.0⟩), ("Current", ⟨"A", 1.0⟩), ("Voltage", ⟨"V", 1.0⟩)]
  let i := w.objs.length
  match store { w with objs := w.objs ++ [⟨[], [], []⟩] } i ⟨c, cd, []⟩ with
  | (w, .error e) => (w, .error e)
  | (w, .ok ()) => if w.presets.has name then loadPreset w i name else (w, .ok ())

/-- Assign a freshly built cell to `self.c[u]`. -/
def assignC (w : World) (o : UObj) (u : String) (e : Entry) : World × UObj :=
  ({ w with heap := w.heap ++ [e] }, { o with c := o.c.set u w.heap.length })

/-- Assign a freshly built cell to `self.cd[u]`. -/
def assignCd (w : World) (o : UObj) (u : String) (e : Entry) : World × UObj :=
  ({ w with heap := w.heap ++ [e] }, { o with cd := o.cd.set u w.heap.length })

/-- `setUnit` (units.py 178-202).  For a bare unit the code assigns the cell and then calls
`self.updatePrefactors`, which does not exist. -/
noncomputable def setUnit (w : World) (i : ℕ) (new_unit : String) : World × Except Err Unit :=
  match w.objs[i]? with
  | none => (w, .error .attributeError)
  | some o =>
    if new_unit ∈ SIunits then
      let r := assignC w o new_unit ⟨new_unit, 1.0⟩
      ({ r.1 with objs := r.1.objs.set i r.2 }, .error .attributeError)
    else
      match new_unit.toList with
      | [] => (w, .error .indexError)
      | p :: rest =>
        if String.ofList rest ∈ SIunits then
          match prefixes.get? p with
          | none => (w, .error .keyError)
          | some x =>
            let r := assignC w o (String.ofList rest) ⟨new_unit, x⟩
            store r.1 i r.2
        else (w, .error .userError)

/-- `setUnitPrefactor` (units.py 204-225). -/
noncomputable def setUnitPrefactor (w : World) (i : ℕ) (unit new_unit : String) (value : ℝ) :
    World × Except Err Unit :=
  match w.objs[i]? with
  | none => (w, .error .attributeError)
  | some o =>
    if unit ∈ SIunits then
      let r := assignC w o unit ⟨new_unit, value⟩
      store r.1 i r.2
    else (w, .error .userError)

/-- `getUnitPrefactor` (units.py 227-241). -/
def getUnitPrefactor (w : World) (i : ℕ) (unit : String) : Except Err ℝ :=
  match w.objs[i]? with
  | none => .error .attributeError
  | some o =>
    if unit ∈ SIunits then
      match factor w o.c unit with
      | some x => .ok x
      | none => .error .keyError
    else .error .userError

/-- The parsing common to the output units (units.py 256-263, 289-296, 315-322): the prefix character and the
unit. -/
def parseOut (new_unit : String) : Except Err (Char × String) :=
  if new_unit ∈ SIunits then .ok ('0', new_unit)
  else
    match new_unit.toList with
    | [] => .error .userError
    | p :: rest => if String.ofList rest ∈ SIunits then .ok (p, String.ofList rest) else .error .userError

/-- The conversion from Joule of an energy unit (units.py 265-273); `none` for a unit that is not one of
energy. -/
noncomputable def energyBase (unit : String) : Option ℝ :=
  if unit = "Hz" then some pc_h
  else if unit = "J" then some 1
  else if unit = "K" then some pc_kB
  else if unit = "eV" then some pc_e
  else none

/-- `setEnergyUnit` (units.py 243-274). -/
noncomputable def setEnergyUnit (w : World) (i : ℕ) (new_unit : String) : World × Except Err Unit :=
  match w.objs[i]? with
  | none => (w, .error .attributeError)
  | some o =>
    match parseOut new_unit with
    | .error e => (w, .error e)
    | .ok (p, unit) =>
      match energyBase unit with
      | none => (w, .error .userError)
      | some b =>
        match prefixes.get? p with
        | none => (w, .error .keyError)
        | some x =>
          let r := assignCd w o "Energy" ⟨new_unit, 1 / (b * x)⟩
          store r.1 i r.2

/-- `setCurrentUnit` (units.py 276-300) and `setVoltageUnit` (units.py 302-326): `key` is the output quantity,
`base` the only unit admitted. -/
noncomputable def setOutUnit (key base : String) (w : World) (i : ℕ) (new_unit : String) : World × Except Err Unit :=
  match w.objs[i]? with
  | none => (w, .error .attributeError)
  | some o =>
    match parseOut new_unit with
    | .error e => (w, .error e)
    | .ok (p, unit) =>
      if unit = base then
        match prefixes.get? p with
        | none => (w, .error .keyError)
        | some x =>
          let r := assignCd w o key ⟨new_unit, 1 / x⟩
          store r.1 i r.2
      else (w, .error .userError)

/-- `setCurrentUnit` (units.py 276-300). -/
noncomputable def setCurrentUnit : World → ℕ → String → World × Except Err Unit := setOutUnit "Current" "A"

/-- `setVoltageUnit` (units.py 302-326). -/
noncomputable def setVoltageUnit : World → ℕ → String → World × Except Err Unit := setOutUnit "Voltage" "V"

/-- `getPrefactor` (units.py 343-351). -/
def getPrefactor (w : World) (i : ℕ) (name : String) : Except Err ℝ :=
  match w.objs[i]? with
  | none => .error .attributeError
  | some o =>
    match o.prefactors.get? name with
    | some x => .ok x
    | none => .error .keyError

end Verif.Units
