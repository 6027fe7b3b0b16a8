import Verif.Model.Transforms
/-!
What a list of graph transforms means, with every node called by a name that is never reused: the nodes of the graph are
called by their index, the node added by transform number `k` is called `deferred k`.
-/
namespace Spf.Spec
open Spf.Transforms
variable {N E : Type}

/-- A graph on names: which names are nodes (and their weight), and the edges, newest first. -/
structure Named (N E : Type) where
  node : Name → Option N
  edges : List (Name × Name × E)

/-- The graph before any transform: its nodes under their own index. -/
def Named.ofGraph (g : Stable N E) : Named N E where
  node := fun
    | .node i => g.weight i
    | .deferred _ => none
  edges := g.edges.map fun e => (.node e.1, .node e.2.1, e.2.2)

/-- Transform number `k`. Every name it mentions must be a node at this point, and an edge it removes must exist (of
several parallel edges the newest goes). -/
def Named.step (k : Nat) (g : Named N E) : Transform N E → Option (Named N E)
  | .addNode n => some { g with node := fun x => if x = .deferred k then some n else g.node x }
  | .addEdge a b e =>
    if (g.node a).isSome ∧ (g.node b).isSome then some { g with edges := (a, b, e) :: g.edges } else none
  | .removeNode a =>
    if (g.node a).isSome then
      some ⟨fun x => if x = a then none else g.node x, g.edges.filter fun e => decide (e.1 ≠ a ∧ e.2.1 ≠ a)⟩
    else none
  | .removeEdge a b =>
    if ∃ e ∈ g.edges, e.1 = a ∧ e.2.1 = b then
      some { g with edges := g.edges.eraseP fun e => decide (e.1 = a ∧ e.2.1 = b) }
    else none

/-- The transforms from number `k` on, in order. -/
def Named.run : Nat → Named N E → List (Transform N E) → Option (Named N E)
  | _, g, [] => some g
  | k, g, t :: ts => (g.step k t).bind fun g => Named.run (k + 1) g ts

/-- `g` is the named graph `h` with each name `x` placed in slot `ρ x`: distinct nodes sit in distinct slots, the occupied
slots are those of the nodes and carry their weights, and the edges are the same in the same order. -/
structure Placed (ρ : Name → Nat) (h : Named N E) (g : Stable N E) : Prop where
  inj : ∀ x y, (h.node x).isSome → (h.node y).isSome → ρ x = ρ y → x = y
  node : ∀ i n, g.weight i = some n ↔ ∃ x, h.node x = some n ∧ ρ x = i
  edges : g.edges = h.edges.map fun e => (ρ e.1, ρ e.2.1, e.2.2)

/-- What petgraph maintains: the free list holds exactly the vacant slots, each once, and edges join nodes. -/
structure WellFormed (g : Stable N E) : Prop where
  nodup : g.free.Nodup
  free : ∀ i, i ∈ g.free ↔ i < g.slots.length ∧ g.weight i = none
  edges : ∀ e ∈ g.edges, (g.weight e.1).isSome ∧ (g.weight e.2.1).isSome

/-- The numbers of the transforms that add a node, in order. -/
def adders (ts : List (Transform N E)) : List Nat :=
  (List.range ts.length).filter fun k =>
    match ts[k]? with
    | some (.addNode _) => true
    | _ => false

/-- The names a transform mentions. -/
def mentions : Transform N E → List Name
  | .addNode _ => []
  | .addEdge a b _ => [a, b]
  | .removeEdge a b => [a, b]
  | .removeNode a => [a]

end Spf.Spec
