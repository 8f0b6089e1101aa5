import Verif.Model.Symbolic
import Verif.Model.Operators

/-!
# Looking up nodes and branches in a numerical system (numerical_system.py)
-/

namespace Verif.Num

open Verif Verif.Circuit Verif.Sym

/-- `getNodeList` (numerical_system.py 64-65). -/
def getNodeList (g : CG) : List Node := nodes g

/-- `list.index`: the first position; `ValueError` if the element does not occur. -/
def listIndex {α : Type} [DecidableEq α] (l : List α) (x : α) : Except Err ℕ :=
  if x ∈ l then .ok (l.idxOf x) else .error .valueError

/-- `getNodeIndex` (numerical_system.py 67-68). -/
def getNodeIndex (g : CG) (n : Node) : Except Err ℕ := listIndex (nodes g) n

/-- `getEdgeList` (numerical_system.py 70-71). -/
def getEdgeList (g : CG) : List Edge := edges g

/-- `getEdgeIndex` (numerical_system.py 73-74). -/
def getEdgeIndex (g : CG) (e : Edge) : Except Err ℕ := listIndex (edges g) e

/-- `sparsity` (numerical_system.py 99-100): `data` are the entries of `operator_data`.  Simplification: `nnz` is the number of elements that are not
zero (a stored zero would be counted by scipy), exact arithmetic; the size is never 0 in the theorems. -/
noncomputable def sparsity {ι : Type} [Fintype ι] (data : List NodeCfg) (O : Matrix ι ι ℂ) : ℝ :=
  open Classical in
  1 - ((Finset.univ.filter fun p : ι × ι => O p.1 p.2 ≠ 0).card : ℝ) / (getHilbertSpaceSize data : ℝ) ^ 2

end Verif.Num
