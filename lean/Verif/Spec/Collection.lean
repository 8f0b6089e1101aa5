import Verif.Model.Collection
import Verif.Spec.Param
import Mathlib.Logic.Relation

/-!
# Specification vocabulary for `ParamCollection`

Everything is phrased through the public queries (`getSymbol`, `getParameterValue`,
`getParametricExpression`, `getParameterisationParameters`, `getParametricParametersList`).
-/

namespace Verif.Spec

open Verif

variable {E D : Type}

/-- A call of a mutating method of `ParamCollection`. -/
inductive PCOp (E : Type)
  | addParameter (name : String) (symbolOverride : Option Sym)
  | rmParameter (name : String)
  | setParameterValue (name : String) (v : PyVal)
  | setParameterValues (args : List PC.BulkArg)
  | addParameterisation (name : String) (e : E)
  | addParameterisationPrefactor (name : String) (e : E)
  | rmParameterisation (name : String)
  /-- a method call on the `Param` object handed out by `getParameterList()[name]` -/
  | onParam (name : String) (c : ParamCall)

/-- A call together with the set-iteration order in force and the fuel of the expansion loop. -/
structure Call (E : Type) where
  ho : HashOrder
  fuel : ℕ
  op : PCOp E

/-- Execute one call. -/
def call (eng : Engine E) (st : PC E) (c : Call E) : PC E × Except Err Unit :=
  match c.op with
  | .addParameter n o => st.addParameter n o
  | .rmParameter n => st.rmParameter n
  | .setParameterValue n v => st.setParameterValue eng c.ho c.fuel n v
  | .setParameterValues a => st.setParameterValues eng c.ho c.fuel a
  | .addParameterisation n e => st.addParameterisation eng n e
  | .addParameterisationPrefactor n e => st.addParameterisationPrefactor eng n e
  | .rmParameterisation n => st.rmParameterisation n
  | .onParam n pc =>
    match st.coll.get? n with
    | none => (st, .error .keyError)
    | some p => ({ st with coll := st.coll.set n (pc.after p) }, .ok ())

/-- The collection after a history of calls, each of which may raise. -/
def runPC (eng : Engine E) (st : PC E) (h : List (Call E)) : PC E :=
  h.foldl (fun st c => (call eng st c).1) st

/-- `a`'s parameterisation is recorded as depending on `b`. -/
def RecordedDep (st : PC E) (a b : String) : Prop :=
  ∃ names, st.getParameterisationParameters a = .ok names ∧ b ∈ names

/-- `name` has a parameterisation. -/
def Parametric (st : PC E) (name : String) : Prop := name ∈ st.getParametricParametersList

/-- `a`'s parametric expression mentions the symbol of `b`. -/
def Mentions (eng : Engine E) (st : PC E) (a b : String) : Prop :=
  ∃ ex s, st.getParametricExpression eng 0 a false = .ok ex ∧ st.getSymbol b = .ok s ∧ s ∈ eng.free ex

/-- The value a parameter ought to have: its own value if it is independent, the value of its
expression at the values its symbols ought to have if it is parametric. -/
inductive Denotes (eng : Engine E) (law : eng.Lawful D) (st : PC E) : String → D → Prop
  | independent (name : String) (v : PF) :
      ¬ Parametric st name → st.getParameterValue name = .ok (some v) →
      Denotes eng law st name (law.ofPF v)
  | parametric (name : String) (ex : E) (ρ : Sym → D) (owner : Sym → String) (d : D) :
      st.getParametricExpression eng 0 name false = .ok ex →
      (∀ s ∈ eng.free ex, st.getSymbol (owner s) = .ok s) →
      (∀ s ∈ eng.free ex, Denotes eng law st (owner s) (ρ s)) →
      law.eval ρ ex = some d →
      Denotes eng law st name d

/-- A call outside the known defects of the bookkeeping: no `rmParameter`; no two parameters with the
same symbol; a parameterisation is not overwritten; prefactors are numbers. -/
def CleanCall (eng : Engine E) (st : PC E) (c : Call E) : Prop :=
  match c.op with
  | .addParameter n o => ¬ st.coll.has n → ∀ s, (o.or (Param.symbolOf n)) = some s → ∀ m, st.getSymbol m ≠ .ok s
  | .rmParameter _ => False
  | .addParameterisation n _ => ¬ Parametric st n
  | .addParameterisationPrefactor _ e => eng.free e = []
  | _ => True

/-- Every call of the history is clean when it is made. -/
def CleanHistory (eng : Engine E) : PC E → List (Call E) → Prop
  | _, [] => True
  | st, c :: h => CleanCall eng st c ∧ CleanHistory eng (call eng st c).1 h

/-- The states a program can bring a collection into, failing calls included. -/
def Reachable (eng : Engine E) (st : PC E) : Prop :=
  ∃ names st₀ h, PC.new names = .ok st₀ ∧ st = runPC eng st₀ h

/-- The states reached by clean histories. -/
def CleanReachable (eng : Engine E) (st : PC E) : Prop :=
  ∃ names st₀ h, PC.new names = .ok st₀ ∧ CleanHistory eng st₀ h ∧ st = runPC eng st₀ h

/-- The parameterisation of `k` mentions, directly or through other parameterisations, some independent
parameter. -/
def HasSource (eng : Engine E) (st : PC E) (k : String) : Prop :=
  ∃ i, ¬ Parametric st i ∧ Relation.TransGen (Mentions eng st) k i

/-- The `Param` of that name would accept the number (see C01 for what that means). -/
def Admits (st : PC E) (k : String) (f : PF) : Prop :=
  ∃ p, st.coll.get? k = some p ∧ (p.setValue (.float f)).2 = .ok ()

/-- `k` is computable: its parameterisation evaluates, at the current values of the independent
parameters, to the number `f`, and its bounds admit it. -/
def Computable (eng : Engine E) (law : eng.Lawful D) (st : PC E) (k : String) (f : PF) : Prop :=
  ∃ d, Denotes eng law st k d ∧ law.toPF d = some f ∧ Admits st k f

end Verif.Spec
