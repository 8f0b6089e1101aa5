import Verif.Model.MultiGraph

/-!
# `CircuitGraph` (circuit_graph.py)

A method is a function from the state to the new state and either an exception or the result.
Not modelled: `coupleResonatorInductively` (empty in the code) and drawing.  The loop graph of `_get_loop_graph` (lines 514-594:
`loops_map`, `loop_adjacency_map` and `loop_graph` are written there and used only for drawing) is modelled in Model/Loops.lean.
-/

namespace Verif.Circuit

open Verif

/-- The iteration orders that the code inherits from Python sets: the nodes of a component in `subgraph(c).copy()`
(a set order when the component has fewer than half of the nodes), and the closure edges / loop edges. -/
structure Orc where
  nodeOrd : List Node → List Node
  edgeOrd : List Edge → List Edge

/-- Iterating over a set lists every element once. -/
structure Orc.OK (o : Orc) : Prop where
  node : ∀ l, (o.nodeOrd l).Perm l
  edge : ∀ l, (o.edgeOrd l).Perm l

/-- The oracle that keeps every order. -/
def Orc.id : Orc := ⟨fun l => l, fun l => l⟩

/-- An entry of `virtual_grounds`: the reversed closure edges and the directed tree `S` (its edges). -/
structure VG where
  closures : List Edge
  tree : List Edge
  deriving DecidableEq, Repr

/-- The description of a resonator (circuit_graph.py 150-159); the derived names are functions of the node. -/
structure Resonator where
  coupling : String
  fr : String
  zr : String
  cr : String
  lr : String
  gc : String
  frl : String
  zrl : String
  deriving DecidableEq, Repr

/-- A charge or flux bias: the optional coupling component and the suffix. -/
structure Bias where
  comp : Option String
  suffix : String
  deriving DecidableEq, Repr

/-- The attributes of a `CircuitGraph` (circuit_graph.py 37-63 and those set by `_update_graphs`).  Before the first
successful `addBranch` the attributes of `_update_graphs` do not exist; no method reads them then, because every
reader first fails on the empty `components_map`. -/
structure CG where
  graph : MGraph := {}
  cmap : Dict Edge String := []
  chargeBias : Dict Node Bias := []
  fluxBias : Dict Edge Bias := []
  resonators : Dict Node (Option Resonator) := []
  coupled : Dict String (Edge × Edge) := []
  conductive : MGraph := {}
  grounds : Dict Node VG := []
  tree : List Edge := []
  wc : List Edge := []
  closures : List Edge := []
  loops : Dict ℕ (List Edge) := []
  loopClosures : Dict ℕ Edge := []
  deriving DecidableEq, Repr

/-- `component[0]`; `none` is the `IndexError` of the empty string. -/
def pre (c : String) : Option Char := c.toList.head?

/-- `_element_prefixes` (circuit_graph.py 14-20). -/
def elementPrefixes : List Char := ['C', 'L', 'I', 'V', 'M']

/-! ### Updates after `add_edge` -/

/-- `_update_components_map` (circuit_graph.py 396-409). -/
def updateComponentsMap (g : CG) : CG × Except Err Unit :=
  let m : Dict Edge String := g.graph.view
  let g' := { g with cmap := m }
  if ¬ m.values.Nodup then (g', .error .valueError)
  else
    let tmp := m.foldl (fun d p => Dict.set d p.1.rev p.2) ([] : Dict Edge String)
    ({ g with cmap := tmp.foldl (fun d p => Dict.set d p.1 p.2) m }, .ok ())

/-- `_get_conductive_graph` (circuit_graph.py 418-430). -/
def conductiveGraph (G : MGraph) : MGraph :=
  G.view.foldl (fun H p => if pre p.2 = some 'C' then H else H.addEdge p.1.1 p.1.2.1 p.1.2.2 p.2)
    (G.nodes.foldl MGraph.addNode {})

/-- `self.circuit_conductive_graph.subgraph(c).copy()` (circuit_graph.py 435): the node order is the graph's unless the
component has fewer than half of the nodes, when it is the order of a set. -/
def subCopy (o : Orc) (H : MGraph) (c : List Node) : MGraph :=
  { nodes := if 2 * c.length < H.nodes.length then o.nodeOrd c else c,
    es := H.es.filter fun p => p.1.1 ∈ c ∧ p.1.2.1 ∈ c }

/-- The first node of `S` (in the order in which the edges mention them) without incoming edges
(circuit_graph.py 465-468). -/
def rootOf (S : List Edge) : Option Node :=
  (uniq (S.flatMap fun e => [e.1, e.2.1])).find? fun n => S.all fun e => e.2.1 ≠ n

/-- One component in `_get_virtual_grounds` (circuit_graph.py 440-468). `none` is the `KeyError` of `labels[edge]`. -/
def groundOf (o : Orc) (H : MGraph) (c : List Node) : Option (Dict Node VG) :=
  let sub := subCopy o H c
  let base : Dict Node VG := if c.length = 1 then sub.nodes.map fun n => (n, ⟨[], []⟩) else []
  let S := (minimumSpanningTree sub).edges
  if ∀ e ∈ S, e ∈ H.edges then
    let cl := (o.edgeOrd (sub.edges.filter fun e => e ∉ S)).map Edge.rev
    some (match rootOf S with
      | some n => base.set n ⟨cl, S⟩
      | none => base)
  else none

/-- `_get_virtual_grounds` (circuit_graph.py 432-468): the dictionary built so far survives the exception. -/
def virtualGrounds (o : Orc) (H : MGraph) : List (List Node) → Dict Node VG → Dict Node VG × Except Err Unit
  | [], d => (d, .ok ())
  | c :: cs, d =>
    match groundOf o H c with
    | none => (d, .error .keyError)
    | some d' => virtualGrounds o H cs (d'.foldl (fun acc p => acc.set p.1 p.2) d)

/-- `list(set(p1) ^ set(p2))` -/
def symDiff (o : Orc) (p q : List Edge) : List Edge :=
  o.edgeOrd (uniq (p.filter (fun e => e ∉ q) ++ q.filter fun e => e ∉ p))

/-- The loop of `_get_sc_loops` over the closure edges of one component (circuit_graph.py 496-507).  The variable `p1`
survives from one iteration to the next; reading it before the first assignment is a `NameError`. -/
def loopsOf (o : Orc) (src : Node) (S : List Edge) : List Edge → Option (List Edge) → List (List Edge) × Option (List Edge) × Bool
  | [], p1 => ([], p1, true)
  | e :: rest, p1 =>
    match firstPath S src e.1 with
    | some p =>
      let l := match firstPath S src e.2.1 with
        | some q => symDiff o p q ++ [e]
        | none => p ++ [e]
      let r := loopsOf o src S rest (some p)
      (l :: r.1, r.2)
    | none =>
      match p1 with
      | none => ([], none, false)
      | some p =>
        let r := loopsOf o src S rest (some p)
        ((p ++ [e]) :: r.1, r.2)

/-- The outer loop of `_get_sc_loops` (circuit_graph.py 493-494). -/
def allLoops (o : Orc) : Dict Node VG → Option (List Edge) → List (List Edge) × Bool
  | [], _ => ([], true)
  | (src, vg) :: rest, p1 =>
    let r := loopsOf o src vg.tree vg.closures p1
    if r.2.2 then
      let r' := allLoops o rest r.2.1
      (r.1 ++ r'.1, r'.2)
    else (r.1, false)

/-- `_update_graphs` (circuit_graph.py 387-394, 470-512). The listing order of the directed graphs is simplified: tree
edges by component, then closure edges. -/
def updateGraphs (o : Orc) (g : CG) : CG × Except Err Unit :=
  let H := conductiveGraph g.graph
  let r := virtualGrounds o H (components H) []
  let g1 := { g with conductive := H, grounds := r.1 }
  match r.2 with
  | .error e => (g1, .error e)
  | .ok () =>
    let T := r.1.values.flatMap VG.tree
    let cl := r.1.values.flatMap VG.closures
    let l := allLoops o r.1 none
    let g2 := { g1 with
      tree := T
      wc := T ++ cl
      closures := cl
      loops := (List.range l.1.length).zip l.1 ++ (if l.2 then [] else [(l.1.length, [])])
      loopClosures := (List.range l.1.length).zip cl }
    if l.2 then (g2, .ok ()) else (g2, .error .nameError)

/-- `_update_couplings_map` (circuit_graph.py 411-416). -/
def updateCouplings (d : Dict Node (Option Resonator)) (n1 n2 : Node) : Dict Node (Option Resonator) :=
  let d1 := if d.has n1 then d else d.set n1 none
  if d1.has n2 then d1 else d1.set n2 none

/-- The second part of `addBranch`: the edge is added and the maps are updated (circuit_graph.py 78-83). -/
def insertBranch (o : Orc) (g : CG) (n1 n2 : Node) (component : String) : CG × Except Err Unit :=
  let r2 := updateComponentsMap { g with graph := g.graph.addEdge n1 n2 (g.graph.newKey n1 n2) component }
  match r2.2 with
  | .error e => (r2.1, .error e)
  | .ok () =>
    let r3 := updateGraphs o r2.1
    match r3.2 with
    | .error e => (r3.1, .error e)
    | .ok () => ({ r3.1 with resonators := updateCouplings r3.1.resonators n1 n2 }, .ok ())

/-- `addBranch` (circuit_graph.py 65-83). -/
def addBranch (o : Orc) (g : CG) (n1 n2 : Node) (component : String) : CG × Except Err Unit :=
  match pre component with
  | none => (g, .error .indexError)
  | some p =>
    if p = 'M' then (g, .error .typeError)
    else if p ∉ elementPrefixes then (g, .error .valueError)
    else insertBranch o g n1 n2 component

/-! ### Queries -/

/-- `is…Edge` (circuit_graph.py 253-283): the component's first character is compared; a missing edge is a
`KeyError`. (Component names in the map are never empty.) -/
def isEdgeOf (g : CG) (p : Char) (e : Edge) : Except Err Bool :=
  match g.cmap.get? e with
  | none => .error .keyError
  | some c => .ok (pre c = some p)

/-- The dictionary `{self.components_map[k]: k for k in keys}`; a key missing from `components_map` is a `KeyError`. -/
def edgesMap (g : CG) (keys : List Edge) : Except Err (Dict String Edge) :=
  keys.foldlM (fun d k => match g.cmap.get? k with
    | none => .error .keyError
    | some c => .ok (d.set c k)) []

/-- `getComponentEdge` (circuit_graph.py 325-338). -/
def getComponentEdge (g : CG) (component : String) : Except Err Edge :=
  if component ∉ g.cmap.values then .error .valueError
  else
    match edgesMap g (if pre component = some 'C' then g.cmap.keys else g.wc) with
    | .error e => .error e
    | .ok d => match d.get? component with
      | none => .error .keyError
      | some e => .ok e

/-- `getCapacitiveEdges` (circuit_graph.py 285-293) and, with `g.wc`, the listings of the other three kinds (lines
295-323). -/
def getEdgesOf (g : CG) (p : Char) : Except Err (Dict String Edge) :=
  match edgesMap g (if p = 'C' then g.cmap.keys else g.wc) with
  | .error e => .error e
  | .ok d => .ok (d.filter fun q => pre q.1 = some p)

/-- `isEdgeInSuperconductingLoop` (circuit_graph.py 242-251). -/
def isEdgeInLoop (g : CG) (e : Edge) : Except Err Bool :=
  if g.cmap.has e then .ok (g.loops.any fun p => e ∈ p.2) else .error .valueError

/-- `getEdgesSharedWithLoop` (circuit_graph.py 340-353), as a list without the order of the set. -/
def getEdgesSharedWithLoop (g : CG) (key : ℕ) : Except Err (List Edge) :=
  match g.loops.get? key with
  | none => .error .valueError
  | some l => .ok (l ++ (g.loops.filter fun p => p.1 ≠ key ∧ ¬ (∀ e ∈ l, e ∉ p.2)).flatMap Prod.snd)

/-! ### Couplings and biases -/

/-- `alt_edge if edge not in self.sc_spanning_tree_wc.edges else edge` -/
def orientWc (g : CG) (e : Edge) : Edge := if e ∈ g.wc then e else e.rev

/-- `coupleBranchesInductively` (circuit_graph.py 85-113). -/
def coupleBranches (g : CG) (inductor1 inductor2 mi : String) : CG × Except Err Unit :=
  match pre mi with
  | none => (g, .error .indexError)
  | some p =>
    if p ≠ 'M' then (g, .error .typeError)
    else if g.coupled.has mi then (g, .error .valueError)
    else match getComponentEdge g inductor1, getComponentEdge g inductor2 with
      | .error e, _ => (g, .error e)
      | _, .error e => (g, .error e)
      | .ok e1, .ok e2 =>
        match isEdgeOf g 'L' e1 with
        | .error e => (g, .error e)
        | .ok false => (g, .error .typeError)
        | .ok true =>
          match isEdgeOf g 'L' e2 with
          | .error e => (g, .error e)
          | .ok false => (g, .error .typeError)
          | .ok true =>
            let f1 := orientWc g e1
            let f2 := orientWc g e2
            if g.coupled.any fun q => (f1 = q.2.1 ∨ f1 = q.2.2) ∧ (f2 = q.2.1 ∨ f2 = q.2.2) ∧
                (q.2.1 = f1 ∨ q.2.1 = f2) ∧ (q.2.2 = f1 ∨ q.2.2 = f2) then (g, .error .valueError)
            else ({ g with coupled := g.coupled.set mi (f1, f2) }, .ok ())

/-- The resonator entry (circuit_graph.py 135-159). -/
def mkResonator (node : Node) (component : String) : Resonator :=
  let s := toString node
  { coupling := component, fr := "f" ++ s ++ "r", zr := "Z" ++ s ++ "r", cr := "C" ++ s ++ "r", lr := "L" ++ s ++ "r",
    gc := "g" ++ s ++ "r", frl := "f" ++ s ++ "rl", zrl := "Z" ++ s ++ "rl" }

/-- `coupleResonatorCapacitively` (circuit_graph.py 115-159). -/
def coupleResonator (g : CG) (node : Node) (component : String) : CG × Except Err Unit :=
  if node ∉ g.graph.nodes then (g, .error .valueError)
  else if node = 0 then (g, .error .valueError)
  else match g.resonators.get? node with
    | none => (g, .error .keyError)
    | some (some _) => (g, .error .valueError)
    | some none =>
      match pre component with
      | none => (g, .error .indexError)
      | some p =>
        if p ≠ 'C' then (g, .error .typeError)
        else if component ∈ g.cmap.values then (g, .error .valueError)
        else ({ g with resonators := g.resonators.set node (some (mkResonator node component)) }, .ok ())

/-- `removeAllResonators` (circuit_graph.py 161-165). -/
def removeAllResonators (g : CG) : CG :=
  { g with resonators := g.graph.nodes.foldl (fun d n => d.set n none) g.resonators }

/-- `addFluxBias` (circuit_graph.py 172-212); a `suffix` that is not a string is `none`. -/
def addFluxBias (g : CG) (component : String) (suffix : Option String) (mi : Option String) : CG × Except Err Unit :=
  match getComponentEdge g component with
  | .error e => (g, .error e)
  | .ok e =>
    match isEdgeInLoop g e with
    | .error x => (g, .error x)
    | .ok false => (g, .error .typeError)
    | .ok true =>
      match suffix with
      | none => (g, .error .typeError)
      | some s =>
        if s.length > 8 then (g, .error .valueError)
        else if e ∉ g.wc ∧ e.rev ∉ g.wc then (g, .error .typeError)
        else
          let e' := orientWc g e
          let check : Except Err Unit := match mi with
            | none => .ok ()
            | some m => match pre m with
              | none => .error .indexError
              | some p =>
                if p ≠ 'M' then .error .typeError
                else match isEdgeOf g 'L' e' with
                  | .error x => .error x
                  | .ok false => .error .typeError
                  | .ok true => if m ∈ g.cmap.values then .error .valueError else .ok ()
          match check with
          | .error x => (g, .error x)
          | .ok () =>
            if g.fluxBias.has e' then (g, .error .valueError)
            else if s ∈ g.fluxBias.values.map Bias.suffix then (g, .error .valueError)
            else ({ g with fluxBias := g.fluxBias.set e' ⟨mi, s⟩ }, .ok ())

/-- `addChargeBias` (circuit_graph.py 214-240). -/
def addChargeBias (g : CG) (node : Node) (suffix : Option String) (cap : Option String) : CG × Except Err Unit :=
  if node ∉ g.graph.nodes then (g, .error .valueError)
  else match suffix with
    | none => (g, .error .typeError)
    | some s =>
      if s.length > 8 then (g, .error .valueError)
      else
        let check : Except Err Unit := match cap with
          | none => .ok ()
          | some c => match pre c with
            | none => .error .indexError
            | some p =>
              if p ≠ 'C' then .error .typeError
              else if c ∈ g.cmap.values then .error .valueError else .ok ()
        match check with
        | .error x => (g, .error x)
        | .ok () =>
          if g.chargeBias.has node then (g, .error .valueError)
          else if s ∈ g.chargeBias.values.map Bias.suffix then (g, .error .valueError)
          else ({ g with chargeBias := g.chargeBias.set node ⟨cap, s⟩ }, .ok ())

/-! ### Histories -/

/-- A call of the public API; `addBranch` carries the set orders of that call. -/
inductive Call
  | addBranch (o : Orc) (n1 n2 : Node) (component : String)
  | coupleBranches (i1 i2 m : String)
  | coupleResonator (node : Node) (component : String)
  | removeAllResonators
  | addFluxBias (component : String) (suffix mi : Option String)
  | addChargeBias (node : Node) (suffix cap : Option String)

/-- One call. -/
def step (g : CG) : Call → CG × Except Err Unit
  | .addBranch o n1 n2 c => addBranch o g n1 n2 c
  | .coupleBranches a b m => coupleBranches g a b m
  | .coupleResonator n c => coupleResonator g n c
  | .removeAllResonators => (removeAllResonators g, .ok ())
  | .addFluxBias c s m => addFluxBias g c s m
  | .addChargeBias n s c => addChargeBias g n s c

/-- A history of calls, some of which may raise (the caller goes on). -/
def run (g : CG) (l : List Call) : CG := l.foldl (fun g c => (step g c).1) g

/-- The set orders of a call are orders. -/
def Call.OK : Call → Prop
  | .addBranch o _ _ _ => o.OK
  | _ => True

/-- Branches added one after the other, stopping at the first exception. -/
def build (o : Orc) : CG → List (Node × Node × String) → CG × Except Err Unit
  | g, [] => (g, .ok ())
  | g, (a, b, c) :: l =>
    let r := addBranch o g a b c
    match r.2 with
    | .error e => (r.1, .error e)
    | .ok () => build o r.1 l

end Verif.Circuit
