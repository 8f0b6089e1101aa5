import Verif.Model.Circuit

/-!
# The loops of a circuit (pyscqed/circuit_graph.py 514-594)

`loops_map`, `loop_adjacency_map` and the loop graph, which `addBranch` computes last.  They depend on the circuit graph only.
-/

namespace Verif.Circuit

open Verif

/-- `counter_dict` (circuit_graph.py 521-528): the branches by their two nodes. -/
def pairDict (es : List Edge) : Dict (Node × Node) (List Edge) :=
  es.foldl (fun d e => d.set (e.1, e.2.1) ((d.get? (e.1, e.2.1)).getD [] ++ [e])) []

/-- `duplicates_dict` (circuit_graph.py 529). -/
def duplicates (es : List Edge) : Dict (Node × Node) (List Edge) := (pairDict es).filter fun p => decide (1 < p.2.length)

/-- The loops of two parallel branches (circuit_graph.py 533-536). -/
def twoLoops (v : List Edge) : List (List Edge) := (v.zip v.tail).map fun p => [p.1, p.2]

/-- The edges of the simple graph (circuit_graph.py 542-543), in some order. -/
def simplePairs (es : List Edge) : List (Node × Node) := uniq (es.map fun e => (e.1, e.2.1))

/-- The edges of a cycle of nodes, with sorted nodes and key 0 (circuit_graph.py 551-554). -/
def cycleEdges (c : List Node) : List Edge :=
  (List.range c.length).map fun i =>
    let e : Edge := if i < c.length - 1 then (c.getD i 0, c.getD (i + 1) 0, 0) else (c.getD ((i + 1) % c.length) 0, c.getD i 0, 0)
    if e.1 < e.2.1 then e else (e.2.1, e.1, e.2.2)

/-- The loop over the edges of a cycle (circuit_graph.py 557-565), with `multi_edges_used` and `multi_edges`. -/
def bump (used multi : List Edge) : List Edge → List Edge × List Edge × List Edge
  | [] => ([], used, multi)
  | e :: l =>
    if e ∈ used then
      let r := bump used multi l
      ((e.1, e.2.1, e.2.2 + 1) :: r.1, r.2)
    else if e ∈ multi then
      let r := bump (used ++ [e]) (multi.erase e) l
      (e :: r.1, r.2)
    else
      let r := bump used multi l
      (e :: r.1, r.2)

/-- The loop over the cycles (circuit_graph.py 548-568). -/
def cycleLoops (used multi : List Edge) : List (List Node) → List (List Edge)
  | [] => []
  | c :: cs =>
    let r := bump used multi (cycleEdges c)
    r.1 :: cycleLoops r.2.1 r.2.2 cs

/-- `loops_map` (circuit_graph.py 514-568, 585); the keys are the positions in the list.  `cyc` is the result of `nx.cycle_basis` on the
simple graph. -/
def loopsMap (cyc : List (List Node)) (G : MGraph) : List (List Edge) :=
  (duplicates G.edges).flatMap (fun p => twoLoops p.2) ++ cycleLoops [] ((duplicates G.edges).flatMap Prod.snd) cyc

/-- `loop_adjacency_map` (circuit_graph.py 570-582, 586).  The loop graph (589-594) has the keys of `loops_map` as nodes and those of this
map as edges. -/
def loopAdjacency (loops : List (List Edge)) : Dict (ℕ × ℕ) (List Edge) :=
  (List.range (loops.length - 1)).foldl (fun d i =>
    (List.range' (i + 1) (loops.length - (i + 1))).foldl (fun d j =>
      let edges := (loops.getD i []).filter fun k => k ∈ loops.getD j []
      if 0 < edges.length then d.set (i, j) edges else d) d) []

end Verif.Circuit
