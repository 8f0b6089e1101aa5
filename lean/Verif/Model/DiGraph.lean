import Mathlib.Data.List.Basic

/-!
# Model of the `networkx.DiGraph` operations used by `ParamCollection`

Nodes and edges are insertion-ordered lists without repetition (networkx 3.3 keeps insertion-ordered
dictionaries of dictionaries; the adjacency order is never observed by the code modelled here).
-/

namespace Verif

/-- A directed graph. -/
structure DiGraph (ν : Type) where
  nodes : List ν
  edges : List (ν × ν)
  deriving DecidableEq, Repr

namespace DiGraph

variable {ν : Type} [DecidableEq ν]

/-- `nx.DiGraph()` -/
def empty : DiGraph ν := ⟨[], []⟩

/-- `G.add_node(n)` (used at parameters.py 227, 307). -/
def addNode (g : DiGraph ν) (n : ν) : DiGraph ν :=
  if n ∈ g.nodes then g else { g with nodes := g.nodes ++ [n] }

/-- `G.add_edge(u, v)` (used at parameters.py 597): adds missing end points. -/
def addEdge (g : DiGraph ν) (u v : ν) : DiGraph ν :=
  let g' := (g.addNode u).addNode v
  if (u, v) ∈ g'.edges then g' else { g' with edges := g'.edges ++ [(u, v)] }

/-- `G.remove_edge(u, v)` (used at parameters.py 708); `none` is the NetworkXError of a missing edge. -/
def removeEdge? (g : DiGraph ν) (u v : ν) : Option (DiGraph ν) :=
  if (u, v) ∈ g.edges then some { g with edges := g.edges.filter (fun e => decide (e ≠ (u, v))) }
  else none

/-- `G.in_degree[n]` -/
def inDegree (g : DiGraph ν) (n : ν) : ℕ := (g.edges.filter (fun e => decide (e.2 = n))).length

/-- One generation of `nx.topological_generations`: the nodes among `rem` all of whose predecessors
have been removed already. -/
def generation (g : DiGraph ν) (rem : List ν) : List ν :=
  rem.filter (fun n => decide (∀ e ∈ g.edges, e.2 = n → e.1 ∉ rem))

/-- The nodes left over when `nx.topological_generations` stops (networkx 3.3, dag.py): generations are
removed until one is empty.  Simplification: the code keeps a table of in-degrees and decrements it;
here the predecessors still present are looked up directly. `fuel` bounds the number of generations. -/
def leftover (g : DiGraph ν) : ℕ → List ν → List ν
  | 0, rem => rem
  | fuel + 1, rem =>
    if (g.generation rem).isEmpty then rem
    else leftover g fuel (rem.filter (fun n => decide (n ∉ g.generation rem)))

/-- `nx.is_directed_acyclic_graph(G)` (used at parameters.py 600). -/
def isDag (g : DiGraph ν) : Bool := (g.leftover g.nodes.length g.nodes).isEmpty

/-- One breadth-first step: the nodes in `S` or with a predecessor in `S`. -/
def bfsStep (g : DiGraph ν) (S : List ν) : List ν :=
  g.nodes.filter (fun v => decide (v ∈ S ∨ ∃ e ∈ g.edges, e.2 = v ∧ e.1 ∈ S))

/-- `k` breadth-first steps. -/
def bfs (g : DiGraph ν) : ℕ → List ν → List ν
  | 0, S => S
  | k + 1, S => bfs g k (g.bfsStep S)

/-- `nx.descendants(G, n)` (used at parameters.py 1217): every node reachable from `n`, except `n`.
The result is a Python set; callers must not rely on the order of this list. Also the union of the
values of `nx.dfs_successors(G, n)` (used at parameters.py 901, 922). -/
def descendants (g : DiGraph ν) (n : ν) : List ν :=
  (g.bfs g.nodes.length [n]).filter (fun v => decide (v ≠ n))

end DiGraph

end Verif
