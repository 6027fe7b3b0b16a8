/-!
Directed graphs with stable indices, as used by `mux_circuits` and `parasol_runtime` through
`petgraph::stable_graph::StableGraph` (external crate).  Only the operations the code calls are modelled.
-/
namespace Spf

/-- `petgraph::stable_graph::StableGraph<N, E>` (used at mux_circuits/src/lib.rs:166, fhe_circuit.rs:201).
`nodes[i] = none` is a vacant (removed) index.  `edges` lists `(source, target, weight)`, newest first, which is
the order in which petgraph iterates the edges of a node. -/
structure Graph (N E : Type) where
  nodes : List (Option N)
  edges : List (Nat × Nat × E)
  deriving Repr, DecidableEq

namespace Graph
variable {N E : Type}

/-- `StableGraph::new` (mux_circuits/src/lib.rs:362). -/
def empty : Graph N E := ⟨[], []⟩

/-- `StableGraph::node_weight` / `contains_node` (mux_circuits/src/opt.rs:31, 475). -/
def weight (g : Graph N E) (i : Nat) : Option N := g.nodes.getD i none

/-- `StableGraph::add_node` (mux_circuits/src/lib.rs:391): the new index is the number of slots. (petgraph reuses
vacant slots; no function modelled here adds a node to a graph with vacancies.) -/
def addNode (g : Graph N E) (n : N) : Graph N E × Nat := ({ g with nodes := g.nodes ++ [some n] }, g.nodes.length)

/-- `StableGraph::add_edge` (mux_circuits/src/opt.rs:243); panics (`none`) unless both endpoints exist. -/
def addEdge (g : Graph N E) (a b : Nat) (e : E) : Option (Graph N E) :=
  if (g.weight a).isSome ∧ (g.weight b).isSome then some { g with edges := (a, b, e) :: g.edges } else none

/-- `StableGraph::remove_node` (mux_circuits/src/opt.rs:258): also removes the incident edges; a no-op on a vacant
index. -/
def removeNode (g : Graph N E) (n : Nat) : Graph N E :=
  { nodes := g.nodes.set n none, edges := g.edges.filter fun e => !(e.1 == n) && !(e.2.1 == n) }

/-- `edges_directed(n, Outgoing)` (mux_circuits/src/opt.rs:354). -/
def outEdges (g : Graph N E) (n : Nat) : List (Nat × Nat × E) := g.edges.filter fun e => e.1 == n

/-- `edges_directed(n, Incoming)` (mux_circuits/src/opt.rs:525). -/
def inEdges (g : Graph N E) (n : Nat) : List (Nat × Nat × E) := g.edges.filter fun e => e.2.1 == n

/-- `neighbors_directed(n, Outgoing)` (mux_circuits/src/opt.rs:344), one entry per edge. -/
def succs (g : Graph N E) (n : Nat) : List Nat := (g.outEdges n).map (·.2.1)

/-- `neighbors_directed(n, Incoming)` (mux_circuits/src/opt.rs:484), one entry per edge. -/
def preds (g : Graph N E) (n : Nat) : List Nat := (g.inEdges n).map (·.1)

/-- `node_indices` / `node_identifiers` (mux_circuits/src/opt.rs:461): the occupied indices in increasing order. -/
def indices (g : Graph N E) : List Nat := (List.range g.nodes.length).filter fun i => (g.weight i).isSome

/-- `StableGraph::map` on node weights (mux_circuits/src/lib.rs:438). -/
def mapNodes {M : Type} (g : Graph N E) (f : N → M) : Graph M E := ⟨g.nodes.map (Option.map f), g.edges⟩

end Graph
end Spf
