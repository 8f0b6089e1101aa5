import Verif.Prelude.Dict
import Verif.Model.Param
import Verif.Model.DiGraph
import Verif.Model.Engine

/-!
# Model of `ParamCollection` (pyscqed/parameters.py, lines 196-763 and 1172-1240)

Names are strings (the `type(name) != str` checks are outside the model).
-/

namespace Verif

/-- The private attributes of a `ParamCollection` (parameters.py 219-227). -/
structure PC (E : Type) where
  coll : Dict String Param
  symMap : Dict String Sym
  /-- `name ↦ {"expression": …, "parameters": …}` -/
  parz : Dict String (E × List String)
  graph : DiGraph String
  deriving DecidableEq

namespace PC

variable {E : Type}

/-- Body of the loop of `ParamCollection.__init__` (parameters.py 224-227). -/
def initOne (st : PC E) (name : String) : Except Err (PC E) :=
  match Param.new name with
  | .error e => .error e
  | .ok p => .ok { st with coll := st.coll.set name p
                           symMap := st.symMap.set name p.symbol
                           graph := st.graph.addNode name }

/-- `ParamCollection.__init__` (parameters.py 219-227).  A failing constructor yields no object. -/
def new (names : List String) : Except Err (PC E) :=
  names.foldlM initOne { coll := [], symMap := [], parz := [], graph := DiGraph.empty }

/-- `getSymbol` (parameters.py 251-264): KeyError when absent. -/
def getSymbol (st : PC E) (name : String) : Except Err Sym :=
  match st.symMap.get? name with
  | none => .error .keyError
  | some s => .ok s

/-- `getParameterValuesDict` (parameters.py 266-272). -/
def getParameterValuesDict (st : PC E) : Dict String (Option PF) :=
  st.coll.map fun p => (p.1, p.2.getValue)

/-- `addParameter` (parameters.py 282-307).  `symbol_override` is a sympy symbol or None. -/
def addParameter (st : PC E) (name : String) (override : Option Sym := none) : PC E × Except Err Unit :=
  if st.coll.has name then (st, .ok ())
  else
    match Param.new name with
    | .error e => (st, .error e)
    | .ok p =>
      let p' := match override with
        | none => p
        | some s => { p with symbol := s }
      ({ st with coll := st.coll.set name p'
                 symMap := st.symMap.set name p'.symbol
                 graph := st.graph.addNode name }, .ok ())

/-- `rmParameter` (parameters.py 320-334): the dependency graph and the parameterisations are left. -/
def rmParameter (st : PC E) (name : String) : PC E × Except Err Unit :=
  if st.coll.has name then
    ({ st with coll := st.coll.del name, symMap := st.symMap.del name }, .ok ())
  else (st, .error .valueError)

/-- `getParameterFromSymbol` (parameters.py 352-364): the first parameter carrying the symbol. -/
def getParameterFromSymbol (st : PC E) (s : Sym) : Except Err String :=
  match st.symMap.find? (fun p => decide (p.2 = s)) with
  | none => .error .valueError
  | some p => .ok p.1

/-- `getParameterValue` (parameters.py 392-407). -/
def getParameterValue (st : PC E) (name : String) : Except Err (Option PF) :=
  match st.coll.get? name with
  | none => .error .valueError
  | some p => .ok p.getValue

/-- `getParametricParametersList` (parameters.py 559-565). -/
def getParametricParametersList (st : PC E) : List String := st.parz.keys

/-- `rev_map[sym]` with `rev_map = {v: k for k, v in symbol_map.items()}` (parameters.py 586): the last
parameter carrying the symbol. -/
def revMap (st : PC E) (s : Sym) : Option String :=
  (st.symMap.reverse.find? (fun p => decide (p.2 = s))).map Prod.fst

/-- The loop collecting the names of the free symbols (parameters.py 585-590). -/
def symbolNames (st : PC E) : List Sym → Except Err (List String)
  | [] => .ok []
  | s :: ss =>
    match st.revMap s with
    | none => .error .valueError
    | some n =>
      match symbolNames st ss with
      | .error e => .error e
      | .ok ns => .ok (n :: ns)

/-- `addParameterisation` (parameters.py 567-607). -/
def addParameterisation (eng : Engine E) (st : PC E) (name : String) (expr : E) :
    PC E × Except Err Unit :=
  if st.coll.has name then
    match st.symbolNames (eng.free expr) with
    | .error e => (st, .error e)
    | .ok names =>
      let graph := names.foldl (fun g pname => g.addEdge pname name) st.graph
      if graph.isDag then
        ({ st with parz := st.parz.set name (expr, names), graph := graph }, .ok ())
      else (st, .error .assertionError)
  else (st, .error .valueError)

/-- `addParameterisationPrefactor` (parameters.py 609-625). -/
def addParameterisationPrefactor (eng : Engine E) (st : PC E) (name : String) (pref : E) :
    PC E × Except Err Unit :=
  match st.parz.get? name with
  | none => (st, .error .valueError)
  | some (ex, names) => ({ st with parz := st.parz.set name (eng.mul ex pref, names) }, .ok ())

/-- `exprParametric` (parameters.py 645-651). -/
def exprParametric (st : PC E) : List Sym → Except Err Bool
  | [] => .ok false
  | s :: ss =>
    match st.getParameterFromSymbol s with
    | .error e => .error e
    | .ok p => if st.parz.has p then .ok true else exprParametric st ss

/-- The inner `for` loop of the expansion (parameters.py 658-664): every parametric free symbol is
substituted into `base`, each time starting from `base` again, so the last one wins. -/
def expandFor (eng : Engine E) (st : PC E) (base : E) : List Sym → Option E → Option E
  | [], acc => acc
  | s :: ss, acc =>
    match st.getParameterFromSymbol s with
    | .error _ => expandFor eng st base ss acc
    | .ok nm =>
      match st.parz.get? nm with
      | none => expandFor eng st base ss acc
      | some (ex, _) => expandFor eng st base ss (some (eng.subs base s ex))

/-- The `while` loop of the expansion (parameters.py 656-666), with fuel. -/
def expandLoop (eng : Engine E) (st : PC E) : ℕ → E → Except Err E
  | 0, _ => .error .diverge
  | fuel + 1, base =>
    match st.exprParametric (eng.free base) with
    | .error e => .error e
    | .ok false => .ok base
    | .ok true =>
      match expandFor eng st base (eng.free base) none with
      | none => .error .attributeError
      | some e => expandLoop eng st fuel e

/-- `getParametricExpression(name, expand)` (parameters.py 627-667). -/
def getParametricExpression (eng : Engine E) (st : PC E) (fuel : ℕ) (name : String) (expand : Bool) :
    Except Err E :=
  match st.parz.get? name with
  | none => .error .valueError
  | some (ex, _) => if expand then expandLoop eng st fuel ex else .ok ex

/-- `getParameterisationParameters` (parameters.py 669-683). -/
def getParameterisationParameters (st : PC E) (name : String) : Except Err (List String) :=
  match st.parz.get? name with
  | none => .error .valueError
  | some (_, names) => .ok names

/-- The loop of `rmParameterisation` (parameters.py 706-708). -/
def removeEdges (g : DiGraph String) (name : String) : List String → DiGraph String × Except Err Unit
  | [] => (g, .ok ())
  | p :: ps =>
    match g.removeEdge? p name with
    | none => (g, .error .networkxError)
    | some g' => removeEdges g' name ps

/-- `rmParameterisation` (parameters.py 685-709). -/
def rmParameterisation (st : PC E) (name : String) : PC E × Except Err Unit :=
  if st.coll.has name then
    match st.parz.get? name with
    | none => (st, .error .valueError)
    | some (_, names) =>
      match removeEdges st.graph name names with
      | (g, .error e) => ({ st with graph := g }, .error e)
      | (g, .ok ()) => ({ st with graph := g, parz := st.parz.del name }, .ok ())
  else (st, .error .valueError)

/-- `getParameterValues` (parameters.py 482-499); the result is a dictionary. -/
def getParameterValues (st : PC E) : List String → Except Err (Dict String (Option PF))
  | names => names.foldlM (fun d n =>
      match st.coll.get? n with
      | none => .error .valueError
      | some p => .ok (d.set n p.getValue)) []

/-- `getSymbolValues` (parameters.py 501-518); the result is a dictionary keyed by symbol. -/
def getSymbolValues (st : PC E) : List String → Except Err (Dict Sym (Option PF))
  | names => names.foldlM (fun d n =>
      match st.coll.get? n with
      | none => .error .valueError
      | some p =>
        match st.symMap.get? n with
        | none => .error .keyError
        | some s => .ok (d.set s p.getValue)) []

/-- `getSymbolValuesDict` (parameters.py 274-280). -/
def getSymbolValuesDict (st : PC E) : Except Err (Dict Sym (Option PF)) :=
  st.coll.foldlM (fun d kv =>
    match st.symMap.get? kv.1 with
    | none => .error .keyError
    | some s => .ok (d.set s kv.2.getValue)) []

/-- `allParametersSet` (parameters.py 520-528). -/
def allParametersSet (st : PC E) : Bool := st.getParameterValuesDict.all (fun p => p.2.isSome)

/-- `parameterisationParametersSet` (parameters.py 711-728). -/
def parameterisationParametersSet (st : PC E) (name : String) : Except Err Bool :=
  match st.parz.get? name with
  | none => .error .valueError
  | some (_, names) =>
    match st.getParameterValues names with
    | .error e => .error e
    | .ok d => .ok (d.all (fun p => p.2.isSome))

/-- `getParameterisationsInvolving` (parameters.py 730-754). -/
def getParameterisationsInvolving (st : PC E) (names : List String) : Except Err (List String) :=
  go names []
where
  go : List String → List String → Except Err (List String)
    | [], acc => .ok acc
    | n :: ns, acc =>
      if st.coll.has n then
        if st.parz.has n then .ok []
        else
          go ns (st.parz.foldl (fun acc p =>
            if n ∈ p.2.2 then (if p.1 ∈ acc then acc else acc ++ [p.1]) else acc) acc)
      else .error .valueError

/-! ### `_update_parameterisations` (parameters.py 1207-1240) -/

/-- Inner loop (parameters.py 1228-1233): substitute the value of one independent parameter into every
parameter on its path. -/
def updatePath (eng : Engine E) (st : PC E) (fuel : ℕ) (symbol : Sym) (v : PF) :
    List String → Dict String (Option E) → Except Err (Dict String (Option E))
  | [], vals => .ok vals
  | d :: ds, vals =>
    match vals.get? d with
    | none => .error .keyError
    | some none =>
      match st.getParametricExpression eng fuel d true with
      | .error e => .error e
      | .ok ex => updatePath eng st fuel symbol v ds (vals.set d (some (eng.subs ex symbol (eng.lit v))))
    | some (some ex) =>
      updatePath eng st fuel symbol v ds (vals.set d (some (eng.subs ex symbol (eng.lit v))))

/-- Outer loop over the independent nodes (parameters.py 1223-1233). -/
def updatePaths (eng : Engine E) (ho : HashOrder) (st : PC E) (fuel : ℕ) :
    List String → Dict String (Option E) → Except Err (Dict String (Option E))
  | [], vals => .ok vals
  | n :: ns, vals =>
    match st.getSymbol n with
    | .error e => .error e
    | .ok symbol =>
      match st.getParameterValue n with
      | .error e => .error e
      | .ok none => updatePaths eng ho st fuel ns vals
      | .ok (some v) =>
        match updatePath eng st fuel symbol v (ho.ord (st.graph.descendants n)) vals with
        | .error e => .error e
        | .ok vals' => updatePaths eng ho st fuel ns vals'

/-- Body of the final loop (parameters.py 1236-1240); every exception is swallowed. -/
def storeOne (eng : Engine E) (coll : Dict String Param) (kv : String × Option E) : Dict String Param :=
  match kv.2 with
  | none => coll
  | some ex =>
    match eng.toFloat ex with
    | none => coll
    | some f =>
      match coll.get? kv.1 with
      | none => coll
      | some p => coll.set kv.1 (p.setValue (.float f)).1

/-- `_update_parameterisations` (parameters.py 1207-1240).  The graph's nodes, the descendants and the
dependent nodes are Python sets: their iteration orders come from `ho`. -/
def updateParameterisations (eng : Engine E) (ho : HashOrder) (fuel : ℕ) (st : PC E) :
    PC E × Except Err Unit :=
  let indep := (ho.ord st.graph.nodes).filter (fun n => decide (st.graph.inDegree n = 0))
  let dep := ho.ord (st.graph.nodes.filter (fun n => decide (st.graph.inDegree n ≠ 0)))
  match updatePaths eng ho st fuel indep (dep.map (fun n => (n, none))) with
  | .error e => (st, .error e)
  | .ok vals => ({ st with coll := vals.foldl (storeOne eng) st.coll }, .ok ())

/-- `setParameterValue` (parameters.py 366-390). -/
def setParameterValue (eng : Engine E) (ho : HashOrder) (fuel : ℕ) (st : PC E) (name : String)
    (v : PyVal) : PC E × Except Err Unit :=
  match st.coll.get? name with
  | none => (st, .error .valueError)
  | some p =>
    if st.parz.has name then (st, .ok ())
    else
      match p.setValue v with
      | (_, .error e) => (st, .error e)
      | (p', .ok ()) => updateParameterisations eng ho fuel { st with coll := st.coll.set name p' }

/-- One positional argument of `setParameterValues`. -/
inductive BulkArg
  | name (s : String)
  | val (v : PyVal)
  | dict (d : Dict String PyVal)

/-- Even positions `l[::2]`. -/
def evens {α : Type} : List α → List α
  | [] => []
  | [a] => [a]
  | a :: _ :: l => a :: evens l

/-- Odd positions `l[1::2]`. -/
def odds {α : Type} : List α → List α
  | [] => []
  | [_] => []
  | _ :: b :: l => b :: odds l

/-- A key: something that is not a string is not a parameter name. -/
def BulkArg.asName : BulkArg → Option String
  | .name s => some s
  | _ => none

/-- A value: something that is not a number fails `setValue`'s type check. -/
def BulkArg.asVal : BulkArg → PyVal
  | .val v => v
  | _ => .other

/-- Separation of names from values (parameters.py 451-469).  `none` keys are objects that are not
strings; they fail the `name not in collection` test in the loop.  (A dict in key position is
unhashable and would raise TypeError instead of ValueError.) -/
def parseBulk : List BulkArg → Except Err (List (Option String × PyVal))
  | [] => .error .indexError
  | [.dict d] => .ok (d.map fun p => (some p.1, p.2))
  | [_] => .error .typeError
  | .dict d :: _ => .ok (d.map fun p => (some p.1, p.2))
  | args =>
    let ks := evens args
    let vs := odds args
    if ks.length = vs.length then .ok ((ks.map BulkArg.asName).zip (vs.map BulkArg.asVal))
    else .error .valueError

/-- The loop of `setParameterValues` (parameters.py 471-479). -/
def setPairs (st : PC E) : List (Option String × PyVal) → PC E × Except Err Unit
  | [] => (st, .ok ())
  | (none, _) :: _ => (st, .error .valueError)
  | (some name, v) :: rest =>
    match st.coll.get? name with
    | none => (st, .error .valueError)
    | some p =>
      if st.parz.has name then setPairs st rest
      else
        match p.setValue v with
        | (_, .error e) => (st, .error e)
        | (p', .ok ()) => setPairs { st with coll := st.coll.set name p' } rest

/-- `setParameterValues` (parameters.py 441-480). -/
def setParameterValues (eng : Engine E) (ho : HashOrder) (fuel : ℕ) (st : PC E) (args : List BulkArg) :
    PC E × Except Err Unit :=
  match parseBulk args with
  | .error e => (st, .error e)
  | .ok pairs =>
    match setPairs st pairs with
    | (st', .error e) => (st', .error e)
    | (st', .ok ()) => updateParameterisations eng ho fuel st'

end PC

end Verif
