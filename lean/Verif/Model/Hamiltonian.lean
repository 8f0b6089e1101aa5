import Verif.Model.Operators
import Verif.Model.Symbolic

/-!
# The Hamiltonian and the operators derived from it (pyscqed/numerical_system.py)

`A` is the algebra of the quantum objects of the whole circuit: `BigOp cfg` for the code; the classical theory is `A = ℂ`.
`tidyup` (dropping elements below 1e-12) is not modelled.
-/

namespace Verif.Num

open Verif Verif.Sym Complex Matrix

/-- The unit prefactors used here (units.py 300-341; modelled in `Verif.Model.Units`). -/
structure Prefs where
  Ec : ℝ
  El : ℝ
  Ej : ℝ
  Ep : ℝ
  IopL : ℝ
  IopJ : ℝ
  Vop : ℝ

/-- The component of a branch, by the first letter of its name: `isInductiveEdge`, `isJosephsonEdge` (circuit_graph.py); `other`
is a phase slip. -/
inductive Kind
  | inductive
  | josephson
  | other
  deriving DecidableEq

/-- The numeric attributes of a `NumericalSystem` after `prepareOperators` and `substitute` (numerical_system.py 254-357):
`n` nodes and `b` branches.  `Pb` is the diagonal of `Pbsm`; the exponentials of the biases are formed from `Pb` and `Qbt` where they
are used; `terms i` are the coefficients of `Pp[i]` with their coordinates. -/
structure Sys (A : Type) (n b : ℕ) where
  Cinv : Matrix (Fin n) (Fin n) ℝ
  Linv : Matrix (Fin n) (Fin n) ℝ
  LinvB : Matrix (Fin b) (Fin b) ℝ
  J : Fin b → ℝ
  Ps : Fin b → ℝ
  Pb : Fin b → ℝ
  Qbt : Fin b → ℝ
  Qb : Fin n → ℝ
  Pbi : Fin n → ℝ
  kind : Fin b → Kind
  terms : Fin b → List (ℝ × ℕ)
  Q : Fin n → A
  P : Fin n → A
  flux : ℕ → A
  D : ℕ → A
  Ddag : ℕ → A
  S : ℕ → A
  Sdag : ℕ → A
  u : Prefs

/-- `mdot(x.T, M, x)[0, 0]` (util.py 10-25) for a vector of operators; `r` embeds numbers into operators. -/
def quadOp {A : Type} [Ring A] (r : ℝ →+* A) {n : ℕ} (M : Matrix (Fin n) (Fin n) ℝ) (x : Fin n → A) : A :=
  ∑ i, x i * ∑ j, r (M i j) * x j

/-- `getLinearPart` (numerical_system.py 439-448): charging and inductive energy. -/
noncomputable def linearPart {A : Type} [Ring A] (r : ℝ →+* A) {n b : ℕ} (s : Sys A n b) : A :=
  r (s.u.Ec * (1 / 2)) * quadOp r s.Cinv (fun i => s.Q i + r (s.Qb i)) +
    r (s.u.El * (1 / 2)) * quadOp r s.Linv (fun i => s.P i + r (s.Pbi i))

/-- Numbers as operators. -/
noncomputable def num (A : Type) [Ring A] [Algebra ℂ A] : ℝ →+* A := (algebraMap ℂ A).comp Complex.ofRealHom

/-- `exp(2πi x)` as an operator (numerical_system.py 338-357). -/
noncomputable def expTau (A : Type) [Ring A] [Algebra ℂ A] (x : ℝ) : A := algebraMap ℂ A (exp (2 * I * Real.pi * x))

/-- What the Josephson loop of `getHamiltonian` sees (numerical_system.py 521-526). -/
noncomputable def josData {A : Type} [Ring A] [Algebra ℂ A] {n b : ℕ} (s : Sys A n b) (i : Fin b) : BranchData ℝ A :=
  ⟨num A (s.J i), expTau A (s.Pb i), expTau A (-(s.Pb i)), s.terms i⟩

/-- What the phase-slip loop of `getHamiltonian` sees (numerical_system.py 559-564). -/
noncomputable def slipData {A : Type} [Ring A] [Algebra ℂ A] {n b : ℕ} (s : Sys A n b) (i : Fin b) : BranchData ℝ A :=
  ⟨num A (s.Ps i), expTau A (s.Qbt i), expTau A (-(s.Qbt i)), s.terms i⟩

/-- The branches with a Josephson energy (`if self.Jvecnp[i] == 0.0: continue`). -/
noncomputable def josBranches {A : Type} {n b : ℕ} (s : Sys A n b) : List (Fin b) := (List.finRange b).filter fun i => s.J i ≠ 0

/-- The branches with a phase-slip energy. -/
noncomputable def slipBranches {A : Type} {n b : ℕ} (s : Sys A n b) : List (Fin b) := (List.finRange b).filter fun i => s.Ps i ≠ 0

/-- `getHamiltonian` (numerical_system.py 507-595); `none` is the `IndexError` of a junction or phase slip from a node to itself. -/
noncomputable def hamiltonian {A : Type} [Ring A] [Algebra ℂ A] {n b : ℕ} (s : Sys A n b) : Option A :=
  match branchSum (num A (1 / 2)) s.D s.Ddag ((josBranches s).map (josData s)) 0 with
  | none => none
  | some Hj => match branchSum (num A (1 / 2)) s.S s.Sdag ((slipBranches s).map (slipData s)) 0 with
    | none => none
    | some Hp => some (linearPart (num A) s + num A s.u.Ej * Hj + num A s.u.Ep * Hp)

/-- `getStaticJosephsonPart` (numerical_system.py 450-491): the two lists, without the biases. -/
noncomputable def staticPart {A : Type} [Ring A] [Algebra ℂ A] {n b : ℕ} (s : Sys A n b) : Option (List A × List A) :=
  if (josBranches s).all fun i => !(s.terms i).isEmpty then
    some ((josBranches s).map fun i => -(num A (1 / 2) * num A s.u.Ej * num A (s.J i) * dispProduct s.D s.Ddag false (s.terms i) 1),
      (josBranches s).map fun i => -(num A (1 / 2) * num A s.u.Ej * num A (s.J i) * dispProduct s.D s.Ddag true (s.terms i) 1))
  else none

/-- `getCurrentOperator` (numerical_system.py 597-654) for a branch of the circuit. -/
noncomputable def currentOperator {A : Type} [Ring A] [Algebra ℂ A] {n b : ℕ} (s : Sys A n b) (i : Fin b) : Except Err A :=
  match s.kind i with
  | .inductive =>
    if (s.terms i).isEmpty then .error .indexError
    else .ok (num A s.u.IopL * ((s.terms i).map fun p => num A p.1 * s.flux p.2).sum * num A (s.LinvB i i))
  | .josephson =>
    if (s.terms i).isEmpty then .error .indexError
    else .ok (algebraMap ℂ A (1 / 2 * I) * num A s.u.IopJ * num A (s.J i) *
      (dispProduct s.D s.Ddag false (s.terms i) (expTau A (s.Pb i)) - dispProduct s.D s.Ddag true (s.terms i) (expTau A (-(s.Pb i)))))
  | .other => .error .userError

/-- `getVoltageOperator` (numerical_system.py 668-681) for a node of the circuit. -/
noncomputable def voltageOperator {A : Type} [Ring A] (r : ℝ →+* A) {n b : ℕ} (s : Sys A n b) (i : Fin n) : A :=
  r s.u.Vop * (s.Q i + r (s.Qb i)) * r (s.Cinv i i)

/-- One entry of `getCurrentMatrixElement` and `getVoltageMatrixElement` (numerical_system.py 656-666, 683-693): the real part of
`⟨v| Op |w⟩`. -/
def matrixElement {ι : Type} [Fintype ι] (O : Matrix ι ι ℂ) (v w : ι → ℂ) : ℝ := (star v ⬝ᵥ O.mulVec w).re

/-- The operators of `_get_oscillator_basis` (numerical_system.py 1064-1109), from what `eigh` returned for `Pp` and `Qp`. -/
noncomputable def oscillatorBasis (n : ℕ) (Z pq pp : ℝ) (E : Fin n → ℝ) (V : Op n) (E' : Fin n → ℝ) (V' : Op n) : NodeOps n :=
  ⟨oscQ n Z pq, oscP n Z pp, oscDisp E V, (oscDisp E V)ᴴ, oscDisp E' V', (oscDisp E' V')ᴴ⟩

/-- One entry of `circ_operators` (numerical_system.py 217-251): the operators of node `i` on the whole space. -/
structure BigNode {n : ℕ} (cfg : Fin n → NodeCfg) where
  Q : BigOp cfg
  P : BigOp cfg
  D : BigOp cfg
  Ddag : BigOp cfg
  S : BigOp cfg
  Sdag : BigOp cfg

/-- The body of the loop of `getExpandedOperatorsMap` for node `i`. -/
noncomputable def expandNode {n : ℕ} (cfg : Fin n → NodeCfg) (i : Fin n) (o : NodeOps (cfg i).dim) : Option (BigNode cfg) :=
  match expandOp cfg i o.Q, expandOp cfg i o.P, expandOp cfg i o.D, expandOp cfg i o.Ddag, expandOp cfg i o.S, expandOp cfg i o.Sdag with
  | some q, some p, some d, some d', some s, some s' => some ⟨q, p, d, d', s, s'⟩
  | _, _, _, _, _, _ => none

/-- The attributes of a system whose nodes have the operators `N` (`prepareOperators`, numerical_system.py 254-292); `s` holds the
numbers. -/
def Sys.withNodes {B : Type} {n b : ℕ} (s : Sys B n b) {cfg : Fin n → NodeCfg} (N : Fin n → BigNode cfg) : Sys (BigOp cfg) n b where
  Cinv := s.Cinv
  Linv := s.Linv
  LinvB := s.LinvB
  J := s.J
  Ps := s.Ps
  Pb := s.Pb
  Qbt := s.Qbt
  Qb := s.Qb
  Pbi := s.Pbi
  kind := s.kind
  terms := s.terms
  u := s.u
  Q i := (N i).Q
  P i := (N i).P
  flux j := if h : j < n then (N ⟨j, h⟩).P else 0
  D j := if h : j < n then (N ⟨j, h⟩).D else 0
  Ddag j := if h : j < n then (N ⟨j, h⟩).Ddag else 0
  S j := if h : j < n then (N ⟨j, h⟩).S else 0
  Sdag j := if h : j < n then (N ⟨j, h⟩).Sdag else 0

end Verif.Num
