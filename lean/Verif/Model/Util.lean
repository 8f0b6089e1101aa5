import Verif.Prelude.Py
import Mathlib.LinearAlgebra.Matrix.ConjTranspose
import Mathlib.LinearAlgebra.Matrix.Trace
import Mathlib.Analysis.Complex.Norm
import Mathlib.Data.List.Sort
import Mathlib.LinearAlgebra.Matrix.NonsingularInverse

/-!
# Model of `pyscqed/util.py`

Floats and complex floats are exact real and complex numbers.
-/

namespace Verif.Util

open Verif

/-- numpy arrays of dimension 0, 1 and 2. -/
inductive NP (R : Type)
  | scalar (x : R)
  | vec (n : ℕ) (v : Fin n → R)
  | mat (r c : ℕ) (A : Matrix (Fin r) (Fin c) R)

variable {R : Type}

/-- Apply a function to every element. -/
def NP.map (f : R → R) : NP R → NP R
  | .scalar x => .scalar (f x)
  | .vec n v => .vec n (fun i => f (v i))
  | .mat r c A => .mat r c (fun i j => f (A i j))

/-- `np.dot`.  Shape mismatches raise `ValueError`. -/
def NP.dot [Semiring R] : NP R → NP R → Except Err (NP R)
  | .scalar x, b => .ok (b.map (x * ·))
  | a, .scalar x => .ok (a.map (· * x))
  | .vec n v, .vec m w =>
    if h : n = m then .ok (.scalar (∑ i, v i * w (Fin.cast h i))) else .error .valueError
  | .vec n v, .mat r c A =>
    if h : n = r then .ok (.vec c (fun j => ∑ i, v i * A (Fin.cast h i) j)) else .error .valueError
  | .mat r c A, .vec n v =>
    if h : c = n then .ok (.vec r (fun i => ∑ j, A i j * v (Fin.cast h j))) else .error .valueError
  | .mat r c A, .mat r' c' B =>
    if h : c = r' then .ok (.mat r c' (fun i k => ∑ j, A i j * B (Fin.cast h j) k)) else .error .valueError

/-- `mdot` (util.py 10-24): starts from the last argument and multiplies the others from the left, last but one
first; the variable `ret` is 0.0 if the loop body never runs. -/
def mdot [Semiring R] (args : List (NP R)) : Except Err (NP R) :=
  match args.reverse with
  | [] => .error .indexError
  | [_] => .ok (.scalar 0)
  | last :: rest => rest.foldlM (fun res a => NP.dot a res) last

/-- `hdot` (util.py 26-38) on matrices of the same shape (broadcasting is not modelled). -/
def hdot [Mul R] {n m : ℕ} (A B : Matrix (Fin n) (Fin m) R) : Matrix (Fin n) (Fin m) R := fun i j => A i j * B i j

open Classical in
/-- One element of `sanArray` (util.py 40-58): the real part, then the imaginary part, is set to zero if its
absolute value is below `tol`.  For a real array the assignment to `arr.imag` raises a `ValueError` that is
caught; the imaginary part is zero anyway. -/
noncomputable def sanEntry (tol : ℝ) (z : ℂ) : ℂ :=
  ⟨if |z.re| < tol then 0 else z.re, if |z.im| < tol then 0 else z.im⟩

/-- `sanArray` (util.py 40-58) on matrices. -/
noncomputable def sanArray {n m : ℕ} (tol : ℝ) (A : Matrix (Fin n) (Fin m) ℂ) : Matrix (Fin n) (Fin m) ℂ :=
  fun i j => sanEntry tol (A i j)

open Classical in
/-- `sanFloat` (util.py 60-74): both parts are added to the same float. -/
noncomputable def sanFloat (tol : ℝ) (z : ℂ) : ℝ :=
  (if |z.re| > tol then z.re else 0) + (if |z.im| > tol then z.im else 0)

/-! ### Diagonalisation wrappers -/

/-- Python's comparison of the pairs (eigenvalue, index). -/
def pairLe {K : Type} [LinearOrder K] (a b : K × ℕ) : Bool :=
  decide (a.1 < b.1) || (decide (a.1 = b.1) && decide (a.2 ≤ b.2))

/-- `ket.norm()`. -/
noncomputable def ketNorm {n : ℕ} (v : Fin n → ℂ) : ℝ := Real.sqrt (∑ i, ‖v i‖ ^ 2)

/-- The sorting part of `diagSparseH` and `diagDenseH` with `get_vectors=True` (util.py 105-122, 157-174): `E` and the
columns `V` are what the backend returned.  `none` stands for the `IndexError` of a missing column. -/
noncomputable def sortPairs {n : ℕ} (eigvalues : ℕ) (E : List ℝ) (V : List (Fin n → ℂ)) :
    Option (List ℝ × List (Fin n → ℂ)) :=
  let zipped := (E.zip (List.range eigvalues)).mergeSort pairLe
  let perm := zipped.map Prod.snd
  (perm.mapM fun k => V[k]?).map fun Vt => (zipped.map Prod.fst, Vt.map fun v i => v i / (ketNorm v : ℂ))

/-- The sorting part with `get_vectors=False` (util.py 123-125, 175-177). -/
noncomputable def sortValues (E : List ℝ) : List ℝ := E.mergeSort fun a b => decide (a ≤ b)

/-- What the eigensolvers select from the full spectrum (a list with multiplicities), by the option `which`:
`SA` the smallest, `LM` the largest in magnitude (the default of `eigsh` when the option is
absent).  Models the backend call (util.py 103); the dense call (util.py 153) selects like `SA`.  Simplification: any other
option is treated as absent; no theorem is about it. -/
noncomputable def select (which : Option String) (k : ℕ) (spectrum : List ℝ) : List ℝ :=
  if which = some "SA" then (spectrum.mergeSort fun a b => decide (a ≤ b)).take k
  else (spectrum.mergeSort fun a b => decide (|b| ≤ |a|)).take k

/-- `which` in the default options of `diagSparseH` (util.py 76): absent. -/
def defaultWhichUtil : Option String := none

/-- `which` in the default options of `NumericalSystem.setDiagConfig` (numerical_system.py 790). -/
def defaultWhichSystem : Option String := some "SA"

/-! ### Dressed energies -/

/-- `Erwa` as a `levels × strips` array; out of range is an `IndexError`. -/
abbrev Arr2 (K : Type) := List (List K)

/-- `Erwa[q, n]`. -/
def Arr2.get {K : Type} (A : Arr2 K) (q n : ℕ) : Option K := (A[q]?).bind fun row => row[n]?

/-- `Erwa.shape[1]` (the rows all have the same length). -/
def Arr2.cols {K : Type} (A : Arr2 K) : ℕ := (A.head?.map List.length).getD 0

/-- `getACStarkShift` (util.py 178-200), the second return value.  `range` of a negative number is empty. -/
def getACStarkShift {K : Type} [Sub K] (A : Arr2 K) : Option (List (List K)) :=
  (List.range (A.length - 1)).mapM fun q => (List.range (A.cols - A.length)).mapM fun n =>
    (A.get (q + 1) (n + q + 1)).bind fun a => (A.get 0 n).map fun b => a - b

/-- `getCircuitLambShift` (util.py 202-216). -/
def getCircuitLambShift {K : Type} (A : Arr2 K) : Option (List K) :=
  (List.range A.length).mapM fun i => A.get i i

/-- `getResonatorShift` (util.py 218-240). -/
def getResonatorShift {K : Type} [Sub K] (A : Arr2 K) : Option (List (List K)) :=
  (List.range (A.length - 1)).mapM fun q => (List.range (A.cols - A.length)).mapM fun n =>
    (A.get q (n + q + 1)).bind fun a => (A.get q (n + q)).map fun b => a - b

/-! ### Pauli coefficients -/

/-- The Pauli matrices (util.py 339-342). -/
def sigmax : Matrix (Fin 2) (Fin 2) ℂ := !![0, 1; 1, 0]
def sigmay : Matrix (Fin 2) (Fin 2) ℂ := !![0, -Complex.I; Complex.I, 0]
def sigmaz : Matrix (Fin 2) (Fin 2) ℂ := !![1, 0; 0, -1]

/-- The gauge transformation and the unitary (util.py 376-380): column `k` of the eigenvector matrix is multiplied
by `|Vl[0,k]| / Vl[0,k]`. -/
noncomputable def gaugeU (Vl : Matrix (Fin 2) (Fin 2) ℂ) : Matrix (Fin 2) (Fin 2) ℂ :=
  fun i k => ((‖Vl 0 k‖ : ℝ) : ℂ) / Vl 0 k * Vl i k

/-- The reduced Hamiltonian (util.py 383-386). -/
noncomputable def reduced (E0 E1 : ℝ) (Vl : Matrix (Fin 2) (Fin 2) ℂ) : Matrix (Fin 2) (Fin 2) ℂ :=
  (gaugeU Vl).conjTranspose * (!![(E0 : ℂ), 0; 0, (E1 : ℂ)] * gaugeU Vl)

/-- One point of `pauliCoefficients` (util.py 357-390): `Vl` is the eigenvector matrix that `np.linalg.eigh`
returned for the computational operator.  In Python a zero in the first row gives NaN; that case is outside
this definition (`pauliDefined`). -/
noncomputable def pauli (E0 E1 : ℝ) (Vl : Matrix (Fin 2) (Fin 2) ℂ) : ℝ × ℝ × ℝ :=
  (((1 / 2 : ℂ) * (reduced E0 E1 Vl * sigmax).trace).re, ((1 / 2 : ℂ) * (reduced E0 E1 Vl * sigmay).trace).re,
   ((1 / 2 : ℂ) * (reduced E0 E1 Vl * sigmaz).trace).re)

/-- The division in the gauge transformation is not `0/0`. -/
def pauliDefined (Vl : Matrix (Fin 2) (Fin 2) ℂ) : Prop := ∀ k, Vl 0 k ≠ 0

/-- `createSubspaceOperators` (util.py 286-298): one 2 × 2 operator for each entry of the first list; a shorter list raises
`IndexError` (`none`). -/
def createSubspaceOperators (m00 m01 m10 m11 : List ℂ) : Option (List (Matrix (Fin 2) (Fin 2) ℂ)) :=
  (List.range m00.length).mapM fun i => do
    let a ← m00[i]?
    let b ← m01[i]?
    let c ← m10[i]?
    let d ← m11[i]?
    pure !![a, b; c, d]

/-- The argument `basis_op` of `pauliCoefficients`: an operator on the Hilbert space or a list of operators on the two levels. -/
inductive BasisOp (ι : Type)
  | operator (O : Matrix ι ι ℂ)
  | list (l : List (Matrix (Fin 2) (Fin 2) ℂ))

/-- `get_subspace_operator` (util.py 317-323): the matrix elements between the two states. -/
noncomputable def subspaceOperator {ι : Type} [Fintype ι] (O : Matrix ι ι ℂ) (V0 V1 : ι → ℂ) : Matrix (Fin 2) (Fin 2) ℂ :=
  !![star V0 ⬝ᵥ O.mulVec V0, star V0 ⬝ᵥ O.mulVec V1; star V1 ⬝ᵥ O.mulVec V0, star V1 ⬝ᵥ O.mulVec V1]

/-- `op_func` (util.py 317-336); `none` is the `IndexError` of a list that is too short. -/
noncomputable def opFunc {ι : Type} [Fintype ι] (V0 V1 : ι → ℂ) (i : ℕ) : BasisOp ι → Option (Matrix (Fin 2) (Fin 2) ℂ)
  | .operator O => some (subspaceOperator O V0 V1)
  | .list l => l[i]?

open Classical in
/-- `pauliCoefficients` (util.py 300-391): `points` are the columns `E[0, i]`, `E[1, i]`, `V[0, i]`, `V[1, i]` of the arrays, `eigh` is the
function that returns the eigenvector matrix.  The entries of the result are the three coefficients of each point, or `none` where Python has NaN
(0/0).  Simplification: `E` and `V` are arrays, so the type checks pass. -/
noncomputable def pauliCoefficients {ι : Type} [Fintype ι] (eigh : Matrix (Fin 2) (Fin 2) ℂ → Matrix (Fin 2) (Fin 2) ℂ)
    (points : List (ℝ × ℝ × (ι → ℂ) × (ι → ℂ))) (basis : BasisOp ι) : Option (List (Option (ℝ × ℝ × ℝ))) :=
  points.zipIdx.mapM fun (p, i) => do
    let Op ← opFunc p.2.2.1 p.2.2.2 i basis
    pure (if pauliDefined (eigh Op) then some (pauli p.1 p.2.1 (eigh Op)) else none)

/-! ### Bit strings -/

/-- `str(int(not int(c)))` for one character: `int` of a character that is not a digit raises `ValueError`.
(Unicode digits other than 0-9 are not modelled.) -/
def flipChar (c : Char) : Option Char :=
  if c.isDigit then some (if c = '0' then '1' else '0') else none

/-- `getNeighbours` (util.py 456-475); `none` is the `ValueError`. -/
def getNeighbours (b : List Char) (HW : ℤ) : Option (List (List Char)) :=
  if HW = 1 then (List.range b.length).mapM fun i => (b[i]?).bind fun c => (flipChar c).map fun c' => b.set i c'
  else some []

/-- `qt.tensor` of two kets given as lists. -/
def kron (a b : List ℤ) : List ℤ := a.flatMap fun x => b.map (x * ·)

/-- `qt.basis(2, 1)` for '0' and `qt.basis(2, 0)` for anything else (util.py 489-490). -/
def bitKet (c : Char) : List ℤ := if c = '0' then [0, 1] else [1, 0]

/-- `stateFromBitstring` (util.py 478-491); `qt.tensor()` without arguments raises `TypeError`. -/
def stateFromBitstring (b : List Char) : Except Err (List ℤ) :=
  if b = [] then .error .typeError else .ok ((b.map bitKet).foldr kron [1])

/-! ### Permutation-matrix representation -/

/-- `np.roll(np.arange(M), j)[i]`. -/
def roll {M : ℕ} (i j : Fin M) : Fin M := i - j

/-- `_get_permutation_matrices` (util.py 496-505): matrix number `j`. -/
def permMat (M : ℕ) (j : Fin M) : Matrix (Fin M) (Fin M) ℂ := fun r c => if roll r j = c then 1 else 0

/-- `_get_decomposition` (util.py 507-512): `qj` inverse is the transpose of a permutation matrix; `tol` is the
default of `sanArray`. -/
noncomputable def diagMat (M : ℕ) (tol : ℝ) (H : Matrix (Fin M) (Fin M) ℂ) (j : Fin M) : Matrix (Fin M) (Fin M) ℂ :=
  sanArray tol (hdot H (permMat M j) * (permMat M j)⁻¹)

/-- The list `k` of shifts (util.py 521-522, 535-537): -(M-1), …, -1, 1, …, M-1. -/
def shifts (M : ℕ) : List ℤ :=
  ((List.range (M - 1)).map fun i : ℕ => -((i : ℤ) + 1)).reverse ++ (List.range (M - 1)).map fun i : ℕ => (i : ℤ) + 1

/-- The list `ij` (util.py 524-525). -/
def shiftIdx (M : ℕ) : List ℕ := (List.range (M - 1)).map (· + 1) ++ (List.range (M - 1)).map (· + 1)

/-- `_get_k_ij_map` (util.py 518-530) as a lookup: the keys are distinct. -/
def kij (M : ℕ) (k : ℤ) : Option ℕ := ((shifts M).zip (shiftIdx M)).lookup k

/-- `itertools.product(k, repeat=q)`. -/
def product {α : Type} (l : List α) : ℕ → List (List α)
  | 0 => [[]]
  | q + 1 => l.flatMap fun x => (product l q).map (x :: ·)

/-- `_get_unique_sequences` (util.py 532-549). -/
def uniqueSequences (M q : ℕ) : List (List ℕ) :=
  (product (shifts M) q).foldl (fun seq perm =>
    if perm.sum = 0 then
      let ijs := perm.filterMap (kij M)
      if ijs ∈ seq then seq else seq ++ [ijs]
    else seq) []

/-- `_get_state_indices` (util.py 551-557). -/
def stateIndices (M z0 : ℕ) : List ℕ → List ℕ
  | [] => []
  | ij :: l => (z0 + ij) % M :: stateIndices M (z0 + ij) l

/-- `x[0,0]`: only two-dimensional arrays can be indexed with a pair. -/
def NP.get00 : NP R → Except Err R
  | .mat (r + 1) (c + 1) A => .ok (A 0 0)
  | _ => .error .indexError

/-- `_get_coefficient` (util.py 559-569).  The states `z` are rows of the array returned by `np.linalg.eig`, i.e.
one-dimensional; `D` is a two-dimensional array. -/
noncomputable def coefficient (M z0 : ℕ) (seq : List ℕ) (z : List (Fin M → ℂ)) (D : ℕ → Matrix (Fin M) (Fin M) ℂ) :
    Except Err ℂ := do
  let l ← (seq.zip (stateIndices M z0 seq)).mapM fun (p : ℕ × ℕ) =>
    match z[p.2]? with
    | none => (.error .indexError : Except Err ℂ)
    | some zj => do
      let s ← mdot [.vec M (fun i => star (zj i)), .mat M M (D p.1), .vec M zj]
      s.get00
  return (l.map fun x => -x).prod

open Classical in
/-- The inner loop of `isStoquastic` (util.py 278-282). -/
noncomputable def checkSeqs (M : ℕ) (z : List (Fin M → ℂ)) (D : ℕ → Matrix (Fin M) (Fin M) ℂ) (z0 : ℕ) :
    List (List ℕ) → Except Err Bool
  | [] => .ok true
  | s :: l =>
    match coefficient M z0 s z D with
    | .error e => .error e
    | .ok c => if c.re < 0 then .ok false else checkSeqs M z D z0 l

/-- The loop of `isStoquastic` over the states (util.py 277-282). -/
noncomputable def checkOrder (M : ℕ) (z : List (Fin M → ℂ)) (D : ℕ → Matrix (Fin M) (Fin M) ℂ)
    (seqs : List (List ℕ)) : List ℕ → Except Err Bool
  | [] => .ok true
  | z0 :: rest =>
    match checkSeqs M z D z0 seqs with
    | .error e => .error e
    | .ok false => .ok false
    | .ok true => checkOrder M z D seqs rest

/-- `isStoquastic` (util.py 242-284) for an `M × M` Hamiltonian, `M ≥ 1`; `eig` is what `np.linalg.eig` returns for
the diagonal part, one row per state. -/
noncomputable def isStoquastic (M : ℕ) [NeZero M] (H : Matrix (Fin M) (Fin M) ℂ)
    (eig : Matrix (Fin M) (Fin M) ℂ → List (Fin M → ℂ)) : List ℕ → Except Err Bool
  | [] => .ok true
  | q :: order =>
    match checkOrder M (eig (diagMat M 1e-10 H 0)) (fun j => diagMat M 1e-10 H (Fin.ofNat M j)) (uniqueSequences M q)
        (List.range M) with
    | .error e => .error e
    | .ok false => .ok false
    | .ok true => isStoquastic M H eig order

end Verif.Util
