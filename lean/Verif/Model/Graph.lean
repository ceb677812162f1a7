import Verif.Model.PyDict
import Mathlib.Data.Real.Basic

/-!
# Graphs

Model of `graph.py` and of the parts of networkx it uses.  A `networkx.Graph` is a dictionary from nodes to dictionaries from neighbours to the
edge's data; the data of an edge is one object for both directions, here its weight.  Directed graphs, multigraphs and other attributes are not
modelled.
-/

namespace ZQ.Graph

open ZQ

variable {V : Type} [DecidableEq V]

/-- `networkx.Graph`: the adjacency dictionary, and the weights (`none`: the edge has no weight attribute). -/
structure Graph (V : Type) where
  adj : PyDict V (List V)
  weight : V → V → Option ℝ

/-- `graph.nodes`, in insertion order. -/
def Graph.nodes (g : Graph V) : List V := PyDict.keys g.adj

/-- The neighbours of a node, in insertion order. -/
def Graph.neighbours (g : Graph V) (v : V) : List V := (PyDict.get? g.adj v).getD []

/-- networkx `EdgeView.__iter__` / `EdgeDataView`: neighbours already seen as nodes are skipped.  External library. -/
def edgesLoop : List V → PyDict V (List V) → List (V × V)
  | _, [] => []
  | seen, (n, nbrs) :: rest => ((nbrs.filter fun m => decide (m ∉ seen)).map fun m => (n, m)) ++ edgesLoop (n :: seen) rest

/-- `graph.edges`. -/
def Graph.edges (g : Graph V) : List (V × V) := edgesLoop [] g.adj

/-- What networkx maintains: every node once, every neighbour once, adjacency symmetric, neighbours are nodes, weights symmetric. -/
def Graph.Valid (g : Graph V) : Prop :=
  g.nodes.Nodup ∧ (∀ v, (g.neighbours v).Nodup) ∧ (∀ u v, v ∈ g.neighbours u → u ∈ g.neighbours v) ∧ ∀ u v, g.weight u v = g.weight v u

/-- graph.py:47-60 `compare_graphs`: `zip` stops at the shorter sequence. -/
def compareGraphs (g h : Graph V) : Bool :=
  if (g.nodes.zip h.nodes).any (fun p => decide (p.1 ≠ p.2)) then false
  else if (g.edges.zip h.edges).any (fun p => decide (p.1 ≠ p.2)) then false
  else true

/-- graph.py:63-71 `generate_graph_node_dict`. -/
def nodeDict (g : Graph V) : PyDict V ℕ := PyDict.ofItems g.nodes.zipIdx

/-! ## Adding nodes and edges (networkx) -/

/-- `Graph()`. -/
def empty : Graph V := ⟨[], fun _ _ => none⟩

/-- `graph.add_node`.  External library. -/
def addNode (g : Graph V) (v : V) : Graph V := if v ∈ g.nodes then g else ⟨PyDict.set g.adj v [], g.weight⟩

/-- A neighbour is added to a node's dictionary: an existing entry keeps its place. -/
def addNeighbour (adj : PyDict V (List V)) (u v : V) : PyDict V (List V) :=
  let l := (PyDict.get? adj u).getD []
  PyDict.set adj u (if v ∈ l then l else l ++ [v])

/-- The new weight, if one is given. -/
def newWeight (w old : Option ℝ) : Option ℝ :=
  match w with
  | some x => some x
  | none => old

/-- `graph.add_edge(u, v, weight=w)`; without a weight the data of an existing edge stays as it is.  External library. -/
def addEdge (g : Graph V) (u v : V) (w : Option ℝ) : Graph V :=
  let g := addNode (addNode g u) v
  ⟨addNeighbour (addNeighbour g.adj u v) v u,
    fun a b => if (a = u ∧ b = v) ∨ (a = v ∧ b = u) then newWeight w (g.weight a b) else g.weight a b⟩

/-- graph.py:192-195 `_weight_graph_edges` (after seeding): the next sample for every edge, in the order of `graph.edges`; `samples` is the
stream the sampler yields. -/
def weightEdges (g : Graph V) (samples : ℕ → ℝ) : Graph V :=
  (g.edges.zipIdx).foldl (fun acc e => addEdge acc e.1.1 e.1.2 (some (samples e.2))) g

/-! ## Saving and loading -/

/-- The dictionary written by `save_graph`. -/
structure GraphDict (V : Type) where
  schema : String
  nodes : List V
  links : List (V × V × Option ℝ)

/-- graph.py:19-31 `save_graph` with networkx `node_link_data`; JSON is the identity on the nodes. -/
def saveGraph (g : Graph V) : GraphDict V := ⟨"zapata-v1-graph", g.nodes, g.edges.map fun e => (e.1, e.2, g.weight e.1 e.2)⟩

/-- graph.py:34-44 `load_graph` with networkx `node_link_graph`: the nodes are added, then the links. -/
def loadGraph (d : GraphDict V) : Graph V :=
  d.links.foldl (fun acc l => addEdge acc l.1 l.2.1 l.2.2) (d.nodes.foldl addNode empty)

end ZQ.Graph
