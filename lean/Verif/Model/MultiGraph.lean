import Verif.Prelude.Py
import Verif.Prelude.Dict
import Mathlib.Data.List.Sort

/-!
# networkx multigraphs, as far as `circuit_graph.py` uses them

`nx.MultiGraph` keeps nodes in insertion order and, for every node, its neighbours in the order in which the first
edge to them was added; keys of parallel edges are in insertion order.  All of this is a function of the list of
nodes and of the chronological list of edges, because the code never removes a node or an edge.
Nodes are Python ints, modelled as natural numbers.
-/

namespace Verif.Circuit

open Verif

abbrev Node := ℕ

/-- An edge `(u, v, key)` as listed by `G.edges`. -/
abbrev Edge := ℕ × ℕ × ℕ

/-- `(e[1], e[0], e[2])`. -/
def Edge.rev (e : Edge) : Edge := (e.2.1, e.1, e.2.2)

/-- Order-preserving removal of repetitions. -/
def uniq {α : Type} [DecidableEq α] (l : List α) : List α :=
  l.foldl (fun acc x => if x ∈ acc then acc else acc ++ [x]) []

/-- `nx.MultiGraph`: nodes in insertion order, edges in chronological order, each with an attribute. -/
structure MGraph where
  nodes : List Node := []
  es : List (Edge × String) := []
  deriving DecidableEq, Repr

namespace MGraph

/-- `add_node` -/
def addNode (G : MGraph) (n : Node) : MGraph :=
  if n ∈ G.nodes then G else { G with nodes := G.nodes ++ [n] }

/-- `add_edge(u, v, key=k, component=c, label=c)` for a new key (used at circuit_graph.py 78, 429, 455, 478, 487). -/
def addEdge (G : MGraph) (u v k : ℕ) (c : String) : MGraph :=
  let G' := (G.addNode u).addNode v
  { G' with es := G'.es ++ [((u, v, k), c)] }

/-- An edge of the graph joins the two nodes. -/
def joins (e : Edge) (n m : Node) : Bool := (e.1 == n && e.2.1 == m) || (e.1 == m && e.2.1 == n)

/-- The key that `add_edge(u, v)` picks: the number of parallel edges (edges are never removed). -/
def newKey (G : MGraph) (u v : Node) : ℕ := (G.es.filter fun p => joins p.1 u v).length

/-- Neighbours in the order of `G.adj[n]`. -/
def nbrs (G : MGraph) (n : Node) : List Node :=
  uniq (G.es.filterMap fun p => if p.1.1 = n then some p.1.2.1 else if p.1.2.1 = n then some p.1.1 else none)

/-- The edges between two nodes, oriented `n`, `m`. -/
def between (G : MGraph) (n m : Node) : List (Edge × String) :=
  (G.es.filter fun p => joins p.1 n m).map fun p => ((n, m, p.1.2.2), p.2)

/-- The loop of `MultiEdgeView.__iter__`, with the list of nodes already seen. -/
def viewFrom (G : MGraph) : List Node → List Node → List (Edge × String)
  | _, [] => []
  | seen, n :: rest =>
    ((G.nbrs n).filter fun m => m ∉ seen).flatMap (fun m => G.between n m) ++ viewFrom G (n :: seen) rest

/-- `nx.get_edge_attributes(G, …)` in iteration order; the keys are `G.edges`. -/
def view (G : MGraph) : List (Edge × String) := G.viewFrom [] G.nodes

/-- `G.edges` -/
def edges (G : MGraph) : List Edge := G.view.map Prod.fst

end MGraph

/-! ### Connected components and Kruskal's algorithm -/

/-- A union-find structure as its `find` function; `union` relabels one class. -/
def ufUnion (f : Node → Node) (u v : Node) : Node → Node := fun x => if f x = f v then f u else f x

/-- The structure after uniting the endpoints of all edges. -/
def uf (es : List Edge) : Node → Node := es.foldl (fun f e => ufUnion f e.1 e.2.1) id

/-- `nx.connected_components(G)`: the classes in the order of their first nodes.  The nodes of one class are listed in
graph order here; the order used later is chosen by the oracle. -/
def components (G : MGraph) : List (List Node) :=
  let f := uf (G.es.map Prod.fst)
  (uniq (G.nodes.map f)).map fun r => G.nodes.filter fun n => f n = r

/-- The loop of `kruskal_mst_edges` (all weights are 1 and the sort is stable, so edges come in the order of
`G.edges`). -/
def kruskalStep (st : (Node → Node) × List (Edge × String)) (p : Edge × String) : (Node → Node) × List (Edge × String) :=
  if st.1 p.1.1 = st.1 p.1.2.1 then st else (ufUnion st.1 p.1.1 p.1.2.1, st.2 ++ [p])

/-- `nx.minimum_spanning_tree(G)` -/
def minimumSpanningTree (G : MGraph) : MGraph :=
  { nodes := G.nodes, es := (G.view.foldl kruskalStep (id, [])).2 }

/-! ### Directed paths -/

/-- `nx.all_simple_edge_paths(S, source, target)` as a depth-first search; `S` is the list of directed edges, `vis` the
nodes on the current path.  The fuel bounds the depth (a simple path has fewer edges than there are nodes). -/
def simplePaths (S : List Edge) (target : Node) : ℕ → List Node → Node → List (List Edge)
  | 0, _, _ => []
  | fuel + 1, vis, cur =>
    if cur = target then [[]]
    else (S.filter fun e => e.1 = cur ∧ e.2.1 ∉ vis).flatMap fun e =>
      (simplePaths S target fuel (e.2.1 :: vis) e.2.1).map (e :: ·)

/-- Python's `<=` on edge tuples. -/
def edgeLe (a b : Edge) : Bool :=
  a.1 < b.1 || (a.1 == b.1 && (a.2.1 < b.2.1 || (a.2.1 == b.2.1 && a.2.2 ≤ b.2.2)))

/-- Python's `<=` on lists of edge tuples. -/
def pathLe : List Edge → List Edge → Bool
  | [], _ => true
  | _ :: _, [] => false
  | a :: l, b :: l' => if a = b then pathLe l l' else edgeLe a b

/-- `sorted(nx.all_simple_edge_paths(S, source, target))[0]`, `none` is the `IndexError`. -/
def firstPath (S : List Edge) (source target : Node) : Option (List Edge) :=
  ((simplePaths S target (S.length + 1) [source] source).insertionSort fun a b => pathLe a b = true).head?

end Verif.Circuit
