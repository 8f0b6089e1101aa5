import Verif.Model.Numerical
import Verif.Spec.Collection
import Verif.Spec.Sweep

/-!
# Vocabulary for the properties of `NumericalSystem`
-/

namespace Verif.Spec

open Verif Verif.Num

variable {E R D O : Type}

/-- The state of a system when it has visited some points of a sweep, in order. -/
def visit (eng : Engine E) (ho : HashOrder) (fuel : ℕ) (gen : List (ℕ × BasisName) → ℕ → Option PF → Except Err O) :
    List (Dict String PF) → NS E R O → NS E R O × Except Err Unit
  | [], st => (st, .ok ())
  | p :: ps, st =>
    match st.postsub eng ho fuel gen p with
    | (st, .error e) => (st, .error e)
    | (st, .ok ()) => visit eng ho fuel gen ps st

/-- The argument of `setParameterValues` for a point of a sweep. -/
def pointArg (p : Dict String PF) : List PC.BulkArg := [.dict (p.map fun kv => (kv.1, PyVal.np kv.2))]

/-- A system as it is before a sweep of the independent parameters `ks`: its parametric parameters hold the value of their expression, its
operators are those of its parameter values, and the impedance of each oscillator is the expression of its parameter. -/
structure Ready (eng : Engine E) (law : eng.Lawful D) (gen : List (ℕ × BasisName) → ℕ → Option PF → Except Err O) (ks : List String)
    (st : NS E R O) : Prop where
  clean : CleanReachable eng st.sw.pc
  params : st.sw.params = some ks
  indep : ∀ k ∈ ks, st.sw.pc.coll.get? k ≠ none ∧ ¬ Parametric st.sw.pc k
  settled : ∀ k, Parametric st.sw.pc k →
    ∃ f, HasSource eng st.sw.pc k ∧ Computable eng law st.sw.pc k f ∧ st.sw.pc.getParameterValue k = .ok (some f)
  prepared : st.prepareOperators gen = (st, .ok ())
  configured : ∀ node c, st.cfg.get? node = some c → c.basis = .oscillator →
    ∃ imp, c.impedance = some imp ∧ st.sw.pc.getParametricExpression eng 0 (NS.zName node) false = .ok imp

/-- At the parameter values of `pc`, every parameterisation and every symbolic attribute of the system has a value. -/
structure Defined (eng : Engine E) (law : eng.Lawful D) (st : NS E R O) (pc : PC E) : Prop where
  parametric : ∀ k, Parametric pc k → ∃ f, HasSource eng pc k ∧ Computable eng law pc k f
  attrs : ∀ a, ∀ e ∈ st.exprs a, ∃ ρ d, law.eval ρ e = some d ∧
    ∀ s ∈ eng.free e, ∃ n f, pc.getSymbol n = .ok s ∧ pc.getParameterValue n = .ok (some f) ∧ ρ s = law.ofPF f

/-! ### Evaluations -/

section

variable {H P X V Q : Type}

/-- The Hamiltonian, diagonalised. -/
def hamEntry : Entry := ⟨.getHamiltonian, true, none, {}⟩

/-- The value of an evaluation in a state: the result of its method; if it needs the eigenvalues and eigenvectors, it is called with
those of the Hamiltonian of the same state. -/
def valueAt (ph : Phys O H P X V R) (gv : Bool) (st : NS E Q O) (e : Entry) : Except Err (Res X V R) :=
  match e.depends with
  | none => evalEntry ph gv st e none
  | some _ =>
    match evalEntry ph gv st hamEntry none with
    | .error err => .error err
    | .ok r =>
      match unpack r with
      | none => .error .userError
      | some a => evalEntry ph gv st e (some a)

/-- The evaluations of a sweep: those requested, by default the Hamiltonian. -/
def evaluations (st : NS E Q O) : List Entry := if st.evals = [] then [hamEntry] else st.evals

/-- An evaluation as `addEvaluation` makes it. -/
def Requested (e : Entry) : Prop := ∃ name e₀ k, evalSpec.get? name = some e₀ ∧ e = { e₀ with kwargs := k }

/-- An evaluation that reads eigenvectors: all dependent ones, except matrix elements for an empty list of elements and the resonator
response without a coupling node, which is None. -/
def ReadsVectors (e : Entry) : Prop :=
  (e.eval = .getCurrentMatrixElement ∧ e.kwargs.elements ≠ some []) ∨ (e.eval = .getVoltageMatrixElement ∧ e.kwargs.elements ≠ some []) ∨
    (e.eval = .getResonatorResponse ∧ e.kwargs.cpl_node ≠ none)

/-- The value stored under an evaluation in a file of a sweep with several evaluations. -/
def stored (f : SW.Pickled (Res X V R)) (m : Method) : Option (Res X V R) :=
  match f with
  | .plain _ => none
  | .keyed d => d.get? m.name

end

/-- `v` is the item at the Python index `i`: counted from the start if `i` is not negative, from the end otherwise (`-1` is the last). -/
def ItemAt {α : Type} (l : List α) (i : ℤ) (v : α) : Prop :=
  (∃ n : ℕ, i = n ∧ l[n]? = some v) ∨ ∃ n : ℕ, i = -(n + 1) ∧ l.reverse[n]? = some v

end Verif.Spec
