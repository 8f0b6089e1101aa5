import Verif.Model.Units

/-!
# Specification vocabulary for unit systems
-/

namespace Verif.Spec

open Verif Verif.Units

/-- A method call on one of the live `Units` instances, or the creation of one. -/
inductive UCall
  | new (name : String)
  | loadPreset (i : ℕ) (name : String)
  | setUnit (i : ℕ) (new_unit : String)
  | setUnitPrefactor (i : ℕ) (unit new_unit : String) (value : ℝ)
  | setEnergyUnit (i : ℕ) (new_unit : String)
  | setCurrentUnit (i : ℕ) (new_unit : String)
  | setVoltageUnit (i : ℕ) (new_unit : String)

noncomputable def UCall.run (w : World) : UCall → World × Except Err Unit
  | .new n => Units.new w n
  | .loadPreset i n => Units.loadPreset w i n
  | .setUnit i s => Units.setUnit w i s
  | .setUnitPrefactor i u s x => Units.setUnitPrefactor w i u s x
  | .setEnergyUnit i s => Units.setEnergyUnit w i s
  | .setCurrentUnit i s => Units.setCurrentUnit w i s
  | .setVoltageUnit i s => Units.setVoltageUnit w i s

/-- The instance a call is made on. -/
def UCall.target : UCall → Option ℕ
  | .new _ => none
  | .loadPreset i _ | .setUnit i _ | .setUnitPrefactor i _ _ _ | .setEnergyUnit i _ | .setCurrentUnit i _
  | .setVoltageUnit i _ => some i

/-- Calls that do not use `setUnit` on a unit without prefix and give positive conversion factors. -/
def UCall.Clean : UCall → Prop
  | .setUnit _ s => s ∉ ["F", "H", "Ohm", "A", "V", "Hz", "Wb", "C", "J", "K", "eV"]
  | .setUnitPrefactor _ _ _ x => 0 < x
  | _ => True

/-- The state after a history starting from a fresh import; calls that raise are part of the history. -/
noncomputable def runU (h : List UCall) : World := h.foldl (fun w c => (c.run w).1) Units.init

/-- The conversion factor of an output quantity ("Energy", "Current", "Voltage"), i.e. `cd[key]['factor']`. -/
def outFactor (w : World) (i : ℕ) (key : String) : Option ℝ :=
  (w.objs[i]?).bind fun o => (o.cd.get? key).bind fun a => (w.heap[a]?).map Entry.factor

/-- A choice of units, as conversion factors: an input value `x` in farad units is `x * F` farads; an energy of
`x` joule is reported as `x * E`. -/
structure System where
  (F H Ohm A V Hz Wb C J K eV : ℝ)
  (E Io Vo : ℝ)

/-- All factors are positive. -/
def System.Pos (s : System) : Prop :=
  0 < s.F ∧ 0 < s.H ∧ 0 < s.Ohm ∧ 0 < s.A ∧ 0 < s.V ∧ 0 < s.Hz ∧ 0 < s.Wb ∧ 0 < s.C ∧ 0 < s.J ∧ 0 < s.K ∧
    0 < s.eV ∧ 0 < s.E ∧ 0 < s.Io ∧ 0 < s.Vo

/-- Instance `i` currently uses the units `s`. -/
def Uses (w : World) (i : ℕ) (s : System) : Prop :=
  getUnitPrefactor w i "F" = .ok s.F ∧ getUnitPrefactor w i "H" = .ok s.H ∧ getUnitPrefactor w i "Ohm" = .ok s.Ohm ∧
  getUnitPrefactor w i "A" = .ok s.A ∧ getUnitPrefactor w i "V" = .ok s.V ∧ getUnitPrefactor w i "Hz" = .ok s.Hz ∧
  getUnitPrefactor w i "Wb" = .ok s.Wb ∧ getUnitPrefactor w i "C" = .ok s.C ∧ getUnitPrefactor w i "J" = .ok s.J ∧
  getUnitPrefactor w i "K" = .ok s.K ∧ getUnitPrefactor w i "eV" = .ok s.eV ∧
  outFactor w i "Energy" = some s.E ∧ outFactor w i "Current" = some s.Io ∧ outFactor w i "Voltage" = some s.Vo

/-- The prefactors that belong to the units `s`. -/
def Consistent (w : World) (i : ℕ) (s : System) : Prop :=
  getPrefactor w i "Ec" = .ok (s.E * s.C ^ 2 / s.F) ∧
  getPrefactor w i "El" = .ok (s.E * s.Wb ^ 2 / s.H) ∧
  getPrefactor w i "Ej" = .ok (s.E * s.Wb * s.A / (2 * Real.pi)) ∧
  getPrefactor w i "Ep" = .ok (s.E * s.C * s.V / (2 * Real.pi)) ∧
  getPrefactor w i "Freq" = .ok (1 / (s.Hz * Real.sqrt (s.F * s.H) * 2 * Real.pi)) ∧
  getPrefactor w i "Impe" = .ok (Real.sqrt (s.H / s.F)) ∧
  getPrefactor w i "FlxOsc" = .ok (Real.sqrt pc_hbar / s.Wb) ∧
  getPrefactor w i "ChgOsc" = .ok (Real.sqrt pc_hbar / s.C) ∧
  getPrefactor w i "Vop" = .ok (s.Vo * s.C / s.F) ∧
  getPrefactor w i "IopL" = .ok (s.Io * s.Wb / s.H) ∧
  getPrefactor w i "IopJ" = .ok (s.Io * s.A) ∧
  getPrefactor w i "Flx" = .ok s.Wb ∧
  getPrefactor w i "Chg" = .ok s.C ∧
  getPrefactor w i "Pha" = .ok (s.Wb / pc_phi0) ∧
  getPrefactor w i "ChgOscCpl" = .ok (s.E * Real.sqrt pc_hbar * s.C / (s.F * (s.H / s.F) ^ (1 / 4 : ℝ))) ∧
  getPrefactor w i "FlxOscCpl" = .ok 0

/-- The decimal exponent of a prefix letter ("D" for deca, "0" for none). -/
def siExponent : Char → Option ℤ
  | 'E' => some 18 | 'P' => some 15 | 'T' => some 12 | 'G' => some 9 | 'M' => some 6 | 'k' => some 3
  | 'h' => some 2 | 'D' => some 1 | '0' => some 0 | 'd' => some (-1) | 'c' => some (-2) | 'm' => some (-3)
  | 'u' => some (-6) | 'n' => some (-9) | 'p' => some (-12) | 'f' => some (-15) | 'a' => some (-18)
  | _ => none

/-- Joules per unit of energy. -/
noncomputable def joules : String → Option ℝ
  | "Hz" => some pc_h
  | "J" => some 1
  | "K" => some pc_kB
  | "eV" => some pc_e
  | _ => none

/-- The units of the preset "CQED1": GHz, µA, µV, fF, pH, Ω, µA, µV, GHz, flux quantum, Cooper pair. -/
noncomputable def CQED1 : System :=
  { F := 1e-15, H := 1e-12, Ohm := 1, A := 1e-6, V := 1e-6, Hz := 1e9, Wb := pc_phi0, C := 2 * pc_e, J := 1, K := 1,
    eV := 1, E := 1 / (pc_h * 1e9), Io := 1e6, Vo := 1e6 }

/-- The units of the preset "CQED2": as "CQED1" with nA and nV. -/
noncomputable def CQED2 : System :=
  { CQED1 with A := 1e-9, V := 1e-9, Io := 1e9, Vo := 1e9 }

/-- The SI units. -/
def SI : System :=
  { F := 1, H := 1, Ohm := 1, A := 1, V := 1, Hz := 1, Wb := 1, C := 1, J := 1, K := 1, eV := 1, E := 1, Io := 1,
    Vo := 1 }

/-- The units a new instance starts with. -/
noncomputable def startUnits (name : String) : System :=
  if name = "CQED1" then CQED1 else if name = "CQED2" then CQED2 else SI

end Verif.Spec
