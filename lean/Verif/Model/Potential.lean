import Verif.Model.Symbolic
import Mathlib.Analysis.SpecialFunctions.Trigonometric.Basic

/-!
# The classical potential (pyscqed/numerical_system.py, `ClassicalPotentialBuilder`)

Values of the components are real numbers.  Arrays as inputs are treated element by element.
-/

namespace Verif.Sym

open Verif Verif.Circuit

/-- The symbols of the potential: the flux of a node and the flux bias with a suffix.  (The first is a noncommutative sympy symbol,
symbolic_system.py 569-577, the second a commutative one, 769: they differ even when they are printed alike.) -/
inductive Atom
  | node (n : ℕ)
  | bias (s : String)
  deriving DecidableEq, Repr

/-- The suffixes of the biases on the branches whose component has the letter: the free symbols of `getFluxBiasVector(mode="branch")`
(letter I) and `getFluxBiasVectorInd(mode="branch")` (letter L), symbolic_system.py 279-313. -/
def biasesOn (g : CG) (b : Biases) (letter : Char) : List String :=
  (edges g).filterMap fun e => if isEdgeOf g letter e = .ok true then (b.flux.get? e).join else none

/-- `_get_input_format` (numerical_system.py 1320-1328): the node fluxes, then the junction biases in the order `ord` of a set; a bias parameter
is called "phi" and its suffix (symbolic_system.py 774-777).  Simplification: `node_dofs` lists the nodes in graph order. -/
def dofMap (ord : List String → List String) (g : CG) (b : Biases) : Dict String Atom :=
  (ord (uniq (biasesOn g b 'I'))).foldl (fun d s => Dict.set d ("phi" ++ s) (Atom.bias s))
    ((nodes g).map fun n => ("phi" ++ toString n, Atom.node n))

/-- `getJosephsonVector` (symbolic_system.py 396-402). -/
def josephsonVector {K : Type} [Zero K] (val : String → K) (g : CG) (i : ℕ) : K :=
  match (edges g)[i]? with
  | some e => match g.cmap.get? e with
    | some c => if pre c = some 'I' then val c else 0
    | none => 0
  | none => 0

/-- A coordinate occurs in `(P + Pe).T * Linv * (P + Pe)`. -/
def Active {n : ℕ} (Linv : Matrix (Fin n) (Fin n) ℝ) (i : Fin n) : Prop := ∃ j, Linv i j ≠ 0 ∨ Linv j i ≠ 0

/-- Every symbol of the two expressions is an argument of the functions that `lambdify` builds (numerical_system.py 1304-1305).  Otherwise the
generated code contains the printed name of the symbol, which is not Python: `SyntaxError` in the constructor. -/
def Lambdifiable (d : Dict String Atom) (g : CG) (b : Biases) (Linv : Matrix (Fin (nodes g).length) (Fin (nodes g).length) ℝ) : Prop :=
  (∀ i : Fin (nodes g).length, (∃ j : Fin (edges g).length, incidence (K := ℝ) g i j ≠ 0) → Atom.node ((nodes g).get i) ∈ d.values) ∧
  (∀ s ∈ biasesOn g b 'I', Atom.bias s ∈ d.values) ∧
  (∀ i, Active Linv i → Atom.node ((nodes g).get i) ∈ d.values) ∧
  (∀ j : Fin (edges g).length, isEdgeOf g 'L' ((edges g).get j) = .ok true → ∀ s, b.flux.get? ((edges g).get j) = some (some s) →
    ∀ i, Active Linv i → incidence (K := ℝ) g i j ≠ 0 → Atom.bias s ∈ d.values)

/-- The value of a symbol: the input under its name.  (A symbol without argument does not occur in the expressions.) -/
def atomVal (d : Dict String Atom) (inputs : Dict String ℝ) (a : Atom) : ℝ :=
  (((d.find? fun p => p.2 = a).bind fun p => inputs.get? p.1)).getD 0

/-- The function returned by `getPotentialFunction` (numerical_system.py 1333-1352); the type check of the inputs is left out. -/
noncomputable def potential (d : Dict String Atom) (g : CG) (b : Biases) (Ej El : ℝ) (val : String → ℝ)
    (Linv : Matrix (Fin (nodes g).length) (Fin (nodes g).length) ℝ) (inputs : Dict String ℝ) : Except Err ℝ :=
  if ∀ k ∈ d.keys, inputs.has k = true then
    let P : Fin (nodes g).length → ℝ := fun i => atomVal d inputs (.node ((nodes g).get i))
    let phi : String → ℝ := fun s => atomVal d inputs (.bias s)
    .ok ((∑ i : Fin (edges g).length,
        Ej * josephsonVector val g i * Real.cos (2 * Real.pi * (branchFluxes g P i + fluxBiasVector phi g b i))) +
      (P + fluxBiasNodes phi g b) ⬝ᵥ ((1 / 2 * El) • Linv).mulVec (P + fluxBiasNodes phi g b))
  else .error .assertionError

/-- `getDefaultInputs` (numerical_system.py 1329-1330) for the names of the inputs. -/
def defaultInputs (names : List String) : Dict String ℝ := names.map fun k => (k, 0)

/-- `getClassicalPotentialFunction` (numerical_system.py 310-314, 1294-1306): the function and the names of its inputs.  `Linv` is `Linvnp`,
transformed if a transform is used; all parameters have values.  The branch fluxes are those of the untransformed coordinates. -/
noncomputable def classicalPotential (ord : List String → List String) (g : CG) (b : Biases) (Ej El : ℝ) (val : String → ℝ)
    (Linv : Matrix (Fin (nodes g).length) (Fin (nodes g).length) ℝ) : Except Err ((Dict String ℝ → Except Err ℝ) × List String) :=
  open Classical in
  if Lambdifiable (dofMap ord g b) g b Linv then
    .ok (potential (dofMap ord g b) g b Ej El val Linv, (dofMap ord g b).keys)
  else .error .userError

end Verif.Sym
