import Verif.Model.Symbolic
import Mathlib.Analysis.SpecialFunctions.Trigonometric.Basic

/-!
# Resonators coupled to a circuit (pyscqed/symbolic_system.py, `_create_loaded_resonator_parameters`)

Parameter values are real numbers.  The matrices of the extended circuit are those of `Verif.Sym`; its derived parameters are taken by their
expressions (lines 726-727 expand them).
-/

namespace Verif.Sym

open Verif Verif.Circuit

/-- The loop of symbolic_system.py 697-709: each resonator gets the next free node number.  The entries are the circuit node, the new node and
the resonator. -/
def loads : List (Node × Option Resonator) → Node → List (Node × Node × Resonator)
  | [], _ => []
  | (_, none) :: l, k => loads l k
  | (n, some r) :: l, k => (n, k, r) :: loads l (k + 1)

/-- The branches added for one resonator (symbolic_system.py 700-702). -/
def loadBranches (t : Node × Node × Resonator) : List (Node × Node × String) :=
  [(t.1, t.2.1, t.2.2.coupling), (t.2.1, 0, t.2.2.cr), (t.2.1, 0, t.2.2.lr)]

/-- `max(self.nodes) + 1` (symbolic_system.py 696); 1 if there is no node, where Python raises. -/
def nextNode (g : CG) : Node := (nodes g).foldr max 0 + 1

/-- The copy of the circuit in which the resonators are branches (symbolic_system.py 693-702).  Simplification: all calls use the same set
orders. -/
def loadedCircuit (o : Orc) (g : CG) : CG × Except Err Unit :=
  build o (removeAllResonators g) ((loads g.resonators (nextNode g)).flatMap loadBranches)

/-- Row and column of a matrix by node (symbolic_system.py 710-714). -/
def entry (g : CG) (A : Matrix (Fin (nodes g).length) (Fin (nodes g).length) ℝ) (a b : Node) : ℝ :=
  if h : (nodes g).idxOf a < (nodes g).length ∧ (nodes g).idxOf b < (nodes g).length then A ⟨_, h.1⟩ ⟨_, h.2⟩ else 0

/-- The expressions `frl`, `Zrl` and `gC` (symbolic_system.py 726-732), before unit prefactors, from the inverse matrices of the extended
circuit. -/
noncomputable def loadedFrequency (Cinv Linv : ℝ) : ℝ := Real.sqrt (Cinv * Linv)
@[inherit_doc loadedFrequency] noncomputable def loadedImpedance (Cinv Linv : ℝ) : ℝ := Real.sqrt (Cinv / Linv)
@[inherit_doc loadedFrequency] noncomputable def loadedCoupling (Cij Cinv Linv : ℝ) : ℝ := Cij / Real.sqrt (2 * loadedImpedance Cinv Linv)

/-- The capacitance and inductance of a resonator from its design frequency and impedance (symbolic_system.py 745-746). -/
noncomputable def designCr (fr Zr : ℝ) : ℝ := 0.5 / (Real.pi * fr * Zr)
@[inherit_doc designCr] noncomputable def designLr (fr Zr : ℝ) : ℝ := 0.5 * Zr / (Real.pi * fr)

end Verif.Sym
