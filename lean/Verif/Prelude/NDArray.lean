import Mathlib.Data.List.Basic

/-!
# Arrays with several axes

The part of numpy's array semantics the code relies on: an array is a shape and an element for every
index tuple; `flatten` enumerates the elements in row-major order (last index fastest).
-/

namespace Verif

/-- All index tuples of an array of the given shape, in row-major order. -/
def indexTuples : List ℕ → List (List ℕ)
  | [] => [[]]
  | n :: ns => (List.range n).flatMap fun i => (indexTuples ns).map (i :: ·)

/-- An array. -/
structure NDArray (α : Type) where
  shape : List ℕ
  get : List ℕ → α

namespace NDArray

variable {α : Type}

/-- `a.flatten()` -/
def flatten (a : NDArray α) : List α := (indexTuples a.shape).map a.get

/-- `a.T`: the axes in reverse order. -/
def T (a : NDArray α) : NDArray α := { shape := a.shape.reverse, get := fun t => a.get t.reverse }

end NDArray

/-- `np.meshgrid(*xs, indexing="ij")[k]`: element `(i_1, …, i_n)` is `xs[k][i_k]`. -/
def meshgridIJ {α : Type} (dflt : α) (xs : List (List α)) (k : ℕ) : NDArray α :=
  { shape := xs.map List.length, get := fun t => (xs.getD k []).getD (t.getD k 0) dflt }

/-- The rows of `np.array([x.flatten() for x in np.meshgrid(*xs, indexing="ij")]).T`: all ways of taking
one element from each list, last list fastest. -/
def meshRows : List (List ℕ) → List (List ℕ)
  | [] => [[]]
  | x :: xs => x.flatMap fun i => (meshRows xs).map (i :: ·)

end Verif
