import Mathlib.LinearAlgebra.UnitaryGroup
import Mathlib.LinearAlgebra.Matrix.Kronecker
import Mathlib.LinearAlgebra.Matrix.NonsingularInverse
import Mathlib.Analysis.SpecialFunctions.Trigonometric.Basic
import Mathlib.Analysis.SpecialFunctions.Sqrt

/-!
# The operators of the numerical system (pyscqed/numerical_system.py)

Quantum objects are complex matrices in exact arithmetic; `tidyup` and the conversion to CSR are not modelled.
-/

namespace Verif.Num

open Matrix Complex

/-- Square complex matrices. -/
abbrev Op (n : ℕ) := Matrix (Fin n) (Fin n) ℂ

/-- What `np.linalg.eigh` returns for a Hermitian matrix: real eigenvalues and a unitary matrix of eigenvectors.  Which eigenvectors
(phases, bases of degenerate eigenspaces) is left open. -/
structure IsEigh {n : ℕ} (M : Op n) (E : Fin n → ℝ) (V : Op n) : Prop where
  unitary : V ∈ unitaryGroup (Fin n) ℂ
  spec : M = V * diagonal (fun k => (E k : ℂ)) * Vᴴ

/-- What qutip's `eigenstates()` returns: ascending eigenvalues and orthonormal eigenvectors, again with arbitrary phases. -/
structure IsEigenstates {n : ℕ} (M : Op n) (q : Fin n → ℝ) (s : Fin n → Fin n → ℂ) : Prop where
  sorted : ∀ i j, i ≤ j → q i ≤ q j
  eigen : ∀ j, M *ᵥ s j = (q j : ℂ) • s j
  orth : ∀ i j, star (s i) ⬝ᵥ s j = if i = j then 1 else 0

/-- `U * diag(exp(c * E)) * U⁻¹` (numerical_system.py 1084-1091, 1094-1102, 1139-1146). -/
noncomputable def expEigh {n : ℕ} (c : ℂ) (E : Fin n → ℝ) (V : Op n) : Op n := V * diagonal (fun k => exp (c * E k)) * V⁻¹

/-- qutip's `num(N, offset)`. -/
def numOp (n : ℕ) (offset : ℕ) : Op n := diagonal fun k => ((k : ℕ) + offset : ℂ)

/-- qutip's `destroy(N)`: `√(k+1)` above the diagonal. -/
noncomputable def destroy (n : ℕ) : Op n := fun i j => if (j : ℕ) = i + 1 then ((Real.sqrt j : ℝ) : ℂ) else 0

/-- qutip's `create(N)`. -/
noncomputable def create (n : ℕ) : Op n := (destroy n)ᴴ

/-- qutip's `basis(N, i) * basis(N, j).dag()`. -/
def ketbra {n : ℕ} (i j : Fin n) : Op n := fun a b => if a = i ∧ b = j then 1 else 0

/-! ### The oscillator basis (numerical_system.py 1064-1109) -/

/-- `Q` (line 1077); `pref` is the unit prefactor `ChgOsc`, `Z` the impedance. -/
noncomputable def oscQ (n : ℕ) (Z pref : ℝ) : Op n := (I * (Real.sqrt (1 / (2 * Z)) : ℝ) * (pref : ℂ)) • (create n - destroy n)

/-- `P` (line 1078); `pref` is the unit prefactor `FlxOsc`. -/
noncomputable def oscP (n : ℕ) (Z pref : ℝ) : Op n := (((Real.sqrt (Z / 2) : ℝ) : ℂ) * (pref : ℂ)) • (create n + destroy n)

/-- `Pp` (line 1079): `a` is `cooper_disp`, `phi0` and `hbar` the constants. -/
noncomputable def oscPp (n : ℕ) (Z pref a phi0 hbar : ℝ) : Op n :=
  ((a * 2 * Real.pi / phi0 * Real.sqrt hbar / pref : ℝ) : ℂ) • oscP n Z pref

/-- `Qp` (line 1080): `b` is `fluxon_disp`. -/
noncomputable def oscQp (n : ℕ) (Z pref b e hbar : ℝ) : Op n :=
  ((b * Real.pi / e * Real.sqrt hbar / pref : ℝ) : ℂ) • oscQ n Z pref

/-- `D` and `S` of the oscillator basis (lines 1083-1102), from what `eigh` returned for `Pp` and `Qp`. -/
noncomputable def oscDisp {n : ℕ} (E : Fin n → ℝ) (V : Op n) : Op n := expEigh I E V

/-- `getCommutator` for the oscillator basis (numerical_system.py 110-123); `none` is the `LinAlgError` of a singular matrix. -/
noncomputable def getCommutatorOsc {n : ℕ} (Q P : Op n) : Option (Op n) :=
  let corr : Op n := 1 - diagonal fun k : Fin n => if (k : ℕ) = n - 1 then (n : ℂ) else 0
  if corr.det = 0 then none else some ((P * Q - Q * P) * corr⁻¹)

/-! ### The charge and flux bases (numerical_system.py 1111-1268) -/

/-- `phik` (numerical_system.py 1120-1125, 1166-1171, 1222-1227): `k` and the `qi` run over `-t .. t`. -/
noncomputable def fourierState (t : ℕ) (s : Fin (2 * t + 1) → Fin (2 * t + 1) → ℂ) (k : Fin (2 * t + 1)) : Fin (2 * t + 1) → ℂ :=
  ∑ j : Fin (2 * t + 1), (((Real.sqrt (1 / (2 * t + 1)) : ℝ) : ℂ) *
    exp (2 * I * Real.pi * ((k : ℕ) - t : ℂ) * ((j : ℕ) - t : ℂ) / (2 * t + 1))) • s j

/-- The operator diagonal in the `phik` (numerical_system.py 1128-1131, 1174-1177, 1230-1233). -/
noncomputable def fourierOp (t : ℕ) (s : Fin (2 * t + 1) → Fin (2 * t + 1) → ℂ) : Op (2 * t + 1) :=
  ∑ i : Fin (2 * t + 1), (((i : ℕ) - t : ℂ) / (2 * t + 1)) • vecMulVec (fourierState t s i) (star (fourierState t s i))

/-- `-qt.num(2t+1) + float(t)` (lines 1134, 1163). -/
noncomputable def countOp (t : ℕ) : Op (2 * t + 1) := -(numOp (2 * t + 1) 0) + (t : ℂ) • 1

/-- The exponentials with the corner taken out (lines 1144, 1187, 1199): `exp(-2πi E)` in the eigenbasis minus `|2t⟩⟨0|`. -/
noncomputable def cornerDisp (t : ℕ) (E : Fin (2 * t + 1) → ℝ) (V : Op (2 * t + 1)) : Op (2 * t + 1) :=
  expEigh (-(2 * I * Real.pi)) E V - ketbra ⟨2 * t, by omega⟩ ⟨0, by omega⟩

/-- The operators of a node. -/
structure NodeOps (n : ℕ) where
  Q : Op n
  P : Op n
  D : Op n
  Ddag : Op n
  S : Op n
  Sdag : Op n

/-- `_get_charge_basis` (numerical_system.py 1111-1157).  `q, s` is what `eigenstates()` returned for `-num(2t+1, t)` and `E, V` what
`eigh` returned for `P`. -/
noncomputable def chargeBasis (t : ℕ) (q : Fin (2 * t + 1) → ℝ) (s : Fin (2 * t + 1) → Fin (2 * t + 1) → ℂ) (E : Fin (2 * t + 1) → ℝ)
    (V : Op (2 * t + 1)) : NodeOps (2 * t + 1) :=
  let D := cornerDisp t E V
  let S := diagonal fun k => exp (-(2 * I * Real.pi) * q k)
  ⟨countOp t, fourierOp t s, D, Dᴴ, S, Sᴴ⟩

/-- `_get_flux_basis` (numerical_system.py 1159-1210).  `s` is what `eigenstates()` returned for `P`, `E, V` what `eigh` returned for
`P` and `E', V'` for `Q`. -/
noncomputable def fluxBasis (t : ℕ) (s : Fin (2 * t + 1) → Fin (2 * t + 1) → ℂ) (E : Fin (2 * t + 1) → ℝ) (V : Op (2 * t + 1))
    (E' : Fin (2 * t + 1) → ℝ) (V' : Op (2 * t + 1)) : NodeOps (2 * t + 1) :=
  let D := cornerDisp t E V
  let S := cornerDisp t E' V'
  ⟨fourierOp t s, countOp t, D, Dᴴ, S, Sᴴ⟩

/-- The grid of `_get_discretized_flux_basis` (line 1217): `np.linspace(-pmax, pmax, 2t+1)`. -/
noncomputable def fluxGrid (t : ℕ) (pmax : ℝ) (k : Fin (2 * t + 1)) : ℝ := if t = 0 then -pmax else -pmax + (k : ℕ) * (2 * pmax / (2 * t))

/-- `_get_discretized_flux_basis` (numerical_system.py 1212-1268); `none` is the `IndexError` of `grid[1]` for `t = 0`. -/
noncomputable def discretizedFluxBasis (t : ℕ) (pmax : ℝ) (s : Fin (2 * t + 1) → Fin (2 * t + 1) → ℂ) (E : Fin (2 * t + 1) → ℝ)
    (V : Op (2 * t + 1)) (E' : Fin (2 * t + 1) → ℝ) (V' : Op (2 * t + 1)) : Option (NodeOps (2 * t + 1)) :=
  if ht : t = 0 then none
  else
    let D := cornerDisp t E V
    let S := cornerDisp t E' V'
    some ⟨(((fluxGrid t pmax ⟨1, by omega⟩ - fluxGrid t pmax ⟨0, by omega⟩ : ℝ) : ℂ))⁻¹ • fourierOp t s,
      diagonal fun k => (fluxGrid t pmax k : ℂ), D, Dᴴ, S, Sᴴ⟩

/-! ### The Hilbert space of all the nodes (numerical_system.py 83-97, 185-253) -/

/-- The bases `getOperatorList` knows (numerical_system.py 162-182). -/
inductive Basis where
  | charge
  | oscillator
  | flux
  | discretizedFlux
deriving DecidableEq

/-- What `configureOperator` records for a node (numerical_system.py 133-160), as far as dimensions go. -/
structure NodeCfg where
  trunc : ℕ
  basis : Basis

/-- The dimension of the operators `getOperatorList` returns. -/
def NodeCfg.dim (c : NodeCfg) : ℕ := if c.basis = .oscillator then c.trunc else 2 * c.trunc + 1

/-- `getHilbertSpaceSize` (numerical_system.py 83-97): the loop over `operator_data`. -/
def getHilbertSpaceSize (data : List NodeCfg) : ℕ :=
  data.foldl (fun ret c => match c.basis with
    | .charge => ret * (2 * c.trunc + 1)
    | .oscillator => ret * c.trunc
    | _ => ret) 1

/-- `Ilist[i]` (numerical_system.py 195-202); `none` is the `None` of `np.empty` that is left for the other bases. -/
def eyeList {n : ℕ} (cfg : Fin n → NodeCfg) (i : Fin n) : Option (Op (cfg i).dim) :=
  match (cfg i).basis with
  | .oscillator => some 1
  | .charge => some 1
  | _ => none

/-- Operators on the whole space: the basis states are families of basis states of the nodes (qutip numbers them in row-major order). -/
abbrev BigOp {n : ℕ} (cfg : Fin n → NodeCfg) := Matrix ((i : Fin n) → Fin (cfg i).dim) ((i : Fin n) → Fin (cfg i).dim) ℂ

/-- `qt.tensor(Olist)`: the Kronecker product; `none` is the `TypeError` for an entry that is not an operator. -/
noncomputable def tensor {n : ℕ} (cfg : Fin n → NodeCfg) (O : (i : Fin n) → Option (Op (cfg i).dim)) : Option (BigOp cfg) :=
  if ∀ i, (O i).isSome then some fun x y => ∏ i, ((O i).getD 0) (x i) (y i) else none

/-- The expansion of an operator of node `i` (numerical_system.py 204-251): the other entries of `Olist` are the identities. -/
noncomputable def expandOp {n : ℕ} (cfg : Fin n → NodeCfg) (i : Fin n) (A : Op (cfg i).dim) : Option (BigOp cfg) :=
  tensor cfg (Function.update (eyeList cfg) i (some A))

end Verif.Num
