import Verif.Model.Sweep
import Verif.Spec.Collection

/-!
# Specification vocabulary for parameter sweeps
-/

namespace Verif.Spec

open Verif

/-- The requested number of points of each parameter of a sweep. -/
def sizes (spec : List SweepSpec) : List ℕ :=
  spec.map fun s => match s.N with | .int z => z.toNat | .other => 0

/-- The names swept, in order. -/
def sweptNames (spec : List SweepSpec) : List String := spec.map SweepSpec.name

/-- `t` is an index tuple of a grid with the given sizes. -/
def InGrid (Ns t : List ℕ) : Prop := List.Forall₂ (· < ·) t Ns

/-- Position of an index tuple when the tuples are listed with the last index running fastest. -/
def rowMajor : (Ns t : List ℕ) → ℕ
  | _ :: Ns, i :: t => i * Ns.prod + rowMajor Ns t
  | _, _ => 0

/-- A user function called on a list of argument dictionaries, in order, until it raises: the final state
of the function's world, the results and the outcome. -/
inductive Calls {σ A R : Type} (func : σ → A → σ × Except Err R) :
    σ → List A → σ → List R → Except Err Unit → Prop
  | done (s : σ) : Calls func s [] s [] (.ok ())
  | raised (s s' : σ) (a : A) (as : List A) (e : Err) :
      func s a = (s', .error e) → Calls func s (a :: as) s' [] (.error e)
  | returned (s s' s'' : σ) (a : A) (as : List A) (r : R) (rs : List R) (o : Except Err Unit) :
      func s a = (s', .ok r) → Calls func s' as s'' rs o → Calls func s (a :: as) s'' (r :: rs) o

/-- `i` is the first position of a finite sweep at which the distance to `v` is smallest. -/
def IsNearest (sweep : List PF) (v : ℚ) (i : ℕ) : Prop :=
  ∃ x : ℚ, sweep[i]? = some (PF.fin x) ∧
    (∀ (j : ℕ) (y : ℚ), sweep[j]? = some (PF.fin y) → |x - v| ≤ |y - v|) ∧
    (∀ (j : ℕ) (y : ℚ), j < i → sweep[j]? = some (PF.fin y) → |x - v| < |y - v|)

/-- A parameter whose value a sweep over `ks` changes: a swept one, or one whose parameterisation depends
on a swept one, directly or through others. -/
def Affected {E : Type} (pc : PC E) (ks : List String) (n : String) : Prop :=
  ∃ k ∈ ks, n = k ∨ Relation.TransGen (RecordedDep pc) n k

end Verif.Spec
