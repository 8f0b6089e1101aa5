import Verif.Props.SweepState

/-!
# C79: a new sweep consists of what was requested for it, in the order of the requests
-/

namespace Verif.Props

open Verif Verif.Num Verif.Spec Verif.Num.NS

variable {E Q O : Type}

/-- A request for the next sweep: a parameter to sweep or an evaluation. -/
inductive Request
  | sweep (name : String) (start stop : PyVal) (N : CountArg)
  | evaluation (name : String) (k : Kw)

/-- The request, made of the system; a caller may catch its exception. -/
def ask (st : NS E Q O) : Request → NS E Q O
  | .sweep name start stop N => (addSweep st name start stop N).1
  | .evaluation name k => (addEvaluation st name k).1

/-- The evaluations known by name, as the documentation lists them, with the method they call, whether its result is diagonalised and whether it needs
the eigenvectors of the Hamiltonian. -/
def documented : List (String × Method × Bool × Bool) :=
  [("Hamiltonian", .getHamiltonian, true, false), ("Resonator", .getResonatorResponse, false, true), ("Current", .getCurrentMatrixElement, false, true),
   ("Voltage", .getVoltageMatrixElement, false, true), ("ChargingEnergy", .getChargingEnergies, false, false), ("FluxEnergy", .getFluxEnergies, false, false),
   ("JosephsonEnergy", .getJosephsonEnergies, false, false)]

/-- The sweep a request asks for, if its parameter exists. -/
def sweepOf (known : String → Bool) : Request → Option SweepSpec
  | .sweep name start stop N => if known name then some ⟨name, start, stop, N⟩ else none
  | .evaluation _ _ => none

/-- The evaluation a request asks for, if there is one with that name. -/
def evaluationOf : Request → Option Entry
  | .sweep _ _ _ _ => none
  | .evaluation name k => (documented.find? fun d => d.1 = name).map fun d => ⟨d.2.1, d.2.2.1, if d.2.2.2 then some .getHamiltonian else none, k⟩

theorem evalSpec_documented (name : String) (k : Kw) :
    (evalSpec.get? name).map (fun e => { e with kwargs := k }) =
      (documented.find? fun d => d.1 = name).map fun d => ⟨d.2.1, d.2.2.1, if d.2.2.2 then some .getHamiltonian else none, k⟩ := by
  unfold evalSpec documented
  simp only [Dict.get?_cons, List.find?_cons]
  repeat' split
  all_goals first | rfl | simp_all [Dict.get?]

/-- One request changes the pending lists only. -/
theorem ask_spec (st : NS E Q O) (r : Request) : ask st r = { st with
    specs := st.specs ++ (sweepOf st.sw.pc.coll.has r).toList
    evals := st.evals ++ (evaluationOf r).toList } := by
  cases r with
  | sweep name start stop N =>
    simp only [ask, addSweep, SW.paramSweepSpec, sweepOf, evaluationOf]
    cases h : st.sw.pc.coll.has name <;> simp
  | evaluation name k =>
    simp only [ask, addEvaluation, sweepOf, evaluationOf, ← evalSpec_documented]
    cases h : evalSpec.get? name <;> simp

/-- **C79** Whatever was pending, after `newSweep` and any requests the sweeps and the evaluations pending are those requested since, in the order of the
requests, without those refused; nothing else of the system has changed. -/
theorem C79_requests (st : NS E Q O) (l : List Request) : l.foldl ask st.newSweep = { st with
    specs := l.filterMap (sweepOf st.sw.pc.coll.has)
    evals := l.filterMap evaluationOf } := by
  have key : ∀ (l : List Request) (st : NS E Q O), l.foldl ask st = { st with
      specs := st.specs ++ l.filterMap (sweepOf st.sw.pc.coll.has)
      evals := st.evals ++ l.filterMap evaluationOf } := by
    intro l
    induction l with
    | nil => intro st; simp
    | cons r l ih =>
      intro st
      rw [List.foldl_cons, ih, ask_spec]
      simp only [List.append_assoc, List.filterMap_cons]
      cases sweepOf st.sw.pc.coll.has r <;> cases evaluationOf r <;> simp
  rw [key]
  simp [newSweep]

/-- **C79** So the next sweep does not depend on what was pending before `newSweep`: from two systems that differ only in that, the same requests lead to the
same system, files and outcome. -/
theorem C79_new_sweep {H P X V R : Type} (eng : Engine E) (ho : HashOrder) (fuel : ℕ) (ph : Phys O H P X V R) (gv : Bool) (st : NS E Q O)
    (specs : List SweepSpec) (evals : List Entry) (l : List Request) :
    paramSweep eng ho fuel ph gv (l.foldl ask ({ st with specs := specs, evals := evals } : NS E Q O).newSweep) =
      paramSweep eng ho fuel ph gv (l.foldl ask st.newSweep) := by
  rw [C79_requests, C79_requests]

/-- Four requests, one refused, after something else was pending. -/
example : (([Request.evaluation "Current" {}, .sweep "L" (.int 1) (.int 4) (.int 2), .evaluation "Nothing" {}, .evaluation "Hamiltonian" {}].foldl ask
      (lcBefore sweepDown [hamEntry]).newSweep).evals =
      [⟨.getCurrentMatrixElement, false, some .getHamiltonian, {}⟩, ⟨.getHamiltonian, true, none, {}⟩]) ∧
    ([Request.evaluation "Current" {}, .sweep "L" (.int 1) (.int 4) (.int 2)].foldl ask (lcBefore sweepDown [hamEntry]).newSweep).specs = sweepL := by
  have h : (lcBefore sweepDown [hamEntry]).sw.pc.coll.has "L" = true := by decide +kernel
  constructor
  · decide +kernel
  · rw [C79_requests]
    rw [List.filterMap_cons, List.filterMap_cons]
    simp only [sweepOf, h, if_true, sweepL, List.filterMap_nil]

end Verif.Props
