import Verif.Model.Assembly
import Verif.Model.NumericalSet

/-!
# The numerical system of a circuit: `getHamiltonian` on the stored attributes (pyscqed/numerical_system.py 185-253, 318-355, 509-595)

`Verif.Model.Numerical` leaves open what `getHamiltonian` computes; `Verif.Model.Hamiltonian` computes it from matrices of real numbers.
Here the matrices are read from the numeric attributes as `substitute` left them, and the operators from `circ_operators`, `Qnp`, `Pnp`.
-/

namespace Verif.Num

open Verif Verif.Sym Verif.Circuit Matrix

/-- A float as a number.  Simplification: no rounding; NaN and the infinities are refused (numpy would carry them on). -/
def finite : PF → Option ℚ
  | .fin x => some x
  | _ => none

/-- The entries of a numeric attribute (numerical_system.py 324-334, 355), an `AttributeError` if it was never assigned. -/
def numbersOf (num : Attr → Option (List PF)) (a : Attr) : Except Err (List ℚ) :=
  match num a with
  | none => .error .attributeError
  | some l => match l.mapM finite with
    | none => .error .valueError
    | some xs => .ok xs

/-- The matrix with these entries, row after row (`np.asmatrix`). -/
def matrixOf (n m : ℕ) (l : List ℚ) : Matrix (Fin n) (Fin m) ℝ := fun i j => ((l.getD (i * m + j) 0 : ℚ) : ℝ)

/-- The column vector with these entries. -/
def vectorOf (n : ℕ) (l : List ℚ) : Fin n → ℝ := fun i => ((l.getD i 0 : ℚ) : ℝ)

/-- The position of a node among the coordinates, `enumerate(node_list)` (numerical_system.py 192, 208). -/
def nodeIndex (g : CG) (node : ℕ) : Option (Fin (nodes g).length) :=
  if h : (nodes g).idxOf node < (nodes g).length then some ⟨_, h⟩ else none

/-- The names of the bases in `operator_data`. -/
def Basis.name : Basis → BasisName
  | .charge => .charge
  | .oscillator => .oscillator
  | .flux => .flux
  | .discretizedFlux => .discretizedFlux

/-- The loop body of `getExpandedOperatorsMap` (numerical_system.py 207-253) for a circuit whose nodes are configured as `cfg`; `ops` is
`getOperatorList`, which may use the impedance.  Simplification: a space other than that of `cfg` is refused, since the space is part of the
type of the operators here. -/
noncomputable def genOf (g : CG) (cfg : Fin (nodes g).length → NodeCfg) (ops : ∀ i, Option PF → Except Err (NodeOps (cfg i).dim))
    (sh : List (ℕ × BasisName)) (node : ℕ) (z : Option PF) : Except Err (BigNode cfg) :=
  if sh = (List.finRange (nodes g).length).map (fun i => ((cfg i).trunc, (cfg i).basis.name)) then
    match nodeIndex g node with
    | none => .error .keyError
    | some i => match ops i z with
      | .error e => .error e
      | .ok o => match expandNode cfg i o with
        | none => .error .typeError
        | some N => .ok N
  else .error .userError

/-- The matrices and vectors that `getHamiltonian` finds in the attributes (numerical_system.py 324-352); `Pb` is the diagonal of `Pbsm`.
Without a transform. -/
noncomputable def readSys (g : CG) (u : Prefs) (x : Attr → List ℚ) : Sys PUnit (nodes g).length (edges g).length where
  Cinv := matrixOf _ _ (x .Cinv)
  Linv := matrixOf _ _ (x .Linv)
  LinvB := matrixOf _ _ (x .LinvB)
  J := vectorOf _ (x .J)
  Ps := vectorOf _ (x .Ps)
  Pb i := matrixOf (edges g).length (edges g).length (x .Pbm) i i
  Qbt := vectorOf _ (x .Qbt)
  Qb := vectorOf _ (x .Qb)
  Pbi := vectorOf _ (x .Pbi)
  kind i := kindOf g ((edges g).get i)
  terms i := branchTerms g (fun a j => if h : a < (nodes g).length ∧ j < (nodes g).length then
      ((1 : Matrix (Fin (nodes g).length) (Fin (nodes g).length) ℝ)⁻¹) ⟨a, h.1⟩ ⟨j, h.2⟩ else 0) ((edges g).get i)
  Q := fun _ => ⟨⟩
  P := fun _ => ⟨⟩
  flux := fun _ => ⟨⟩
  D := fun _ => ⟨⟩
  Ddag := fun _ => ⟨⟩
  S := fun _ => ⟨⟩
  Sdag := fun _ => ⟨⟩
  u := u

/-- The nine attributes, if all are numbers. -/
def readAttrs (num : Attr → Option (List PF)) : Except Err (Attr → List ℚ) :=
  match numbersOf num .Cinv, numbersOf num .Linv, numbersOf num .J, numbersOf num .Ps, numbersOf num .Qb, numbersOf num .Qbt,
    numbersOf num .Pbm, numbersOf num .Pbi, numbersOf num .LinvB with
  | .ok x1, .ok x2, .ok x3, .ok x4, .ok x5, .ok x6, .ok x7, .ok x8, .ok x9 => .ok fun
    | .Cinv => x1
    | .Linv => x2
    | .J => x3
    | .Ps => x4
    | .Qb => x5
    | .Qbt => x6
    | .Pbm => x7
    | .Pbi => x8
    | .LinvB => x9
  | _, _, _, _, _, _, _, _, _ => .error .valueError

/-- The operators that `getHamiltonian` uses: the charges and fluxes of the vectors `Qnp` and `Pnp` (line 511, 515), the displacements of
`circ_operators` (lines 530-548, 567-585). -/
noncomputable def withStored {B : Type} {g : CG} {m : ℕ} (s : Sys B (nodes g).length m) {cfg : Fin (nodes g).length → NodeCfg}
    (circ V : Fin (nodes g).length → BigNode cfg) : Sys (BigOp cfg) (nodes g).length m :=
  { s.withNodes circ with
    Q := fun i => (V i).Q
    P := fun i => (V i).P }

/-- `getHamiltonian` (numerical_system.py 509-595) on the stored attributes and operators: a `KeyError` for a node without operators, an
`AttributeError` without operator vectors.  Simplification: the operators of all nodes are looked up, also of those without a junction; the
order of errors is not kept; `tidyup` is the identity. -/
noncomputable def hamiltonianOf (g : CG) (u : Prefs) (cfg : Fin (nodes g).length → NodeCfg) (num : Attr → Option (List PF))
    (circ : ℕ → Option (BigNode cfg)) (vec : Option (List (BigNode cfg))) : Except Err (BigOp cfg) :=
  match readAttrs num with
  | .error e => .error e
  | .ok x => match (nodes g).mapM circ, vec with
    | some c, some v =>
      if h : c.length = (nodes g).length ∧ v.length = (nodes g).length then
        match hamiltonian (withStored (readSys g u x) (fun i => c.get (i.cast h.1.symm)) (fun i => v.get (i.cast h.2.symm))) with
        | none => .error .indexError
        | some H => .ok H
      else .error .valueError
    | none, _ => .error .keyError
    | _, none => .error .attributeError

/-- The numerical system of a circuit: `base` gives the eigensolver and the other methods. -/
noncomputable def circuitPhys {P X V R : Type} (g : CG) (u : Prefs) (cfg : Fin (nodes g).length → NodeCfg)
    (ops : ∀ i, Option PF → Except Err (NodeOps (cfg i).dim)) (base : Phys (BigNode cfg) (BigOp cfg) P X V R) :
    Phys (BigNode cfg) (BigOp cfg) P X V R :=
  { base with
    gen := genOf g cfg ops
    ham := hamiltonianOf g u cfg }

end Verif.Num
