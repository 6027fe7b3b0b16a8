import Verif.Model.MuxGraph
/-!
Model of the graph-rewriting interface of `mux_circuits/src/opt.rs`: lists of transforms, deferred indices, and their
application to a `StableGraph` that reuses vacant slots.
-/
namespace Spf.Transforms
variable {N E : Type}

/-- mux_circuits/src/opt.rs:112-133 `TransformNodeIndex` (`DeferredIndex` is a `usize`, :112). -/
inductive Name | node (i : Nat) | deferred (k : Nat)
  deriving Repr, DecidableEq

/-- mux_circuits/src/opt.rs:79-106 `Transform<N, E>`. -/
inductive Transform (N E : Type)
  | addEdge (a b : Name) (e : E)
  | addNode (n : N)
  | removeNode (a : Name)
  | removeEdge (a b : Name)
  deriving Repr, DecidableEq

/-- `petgraph::stable_graph::StableGraph<N, E>` with its free list (external crate, used at mux_circuits/src/opt.rs:222):
`slots[i] = none` is a vacant slot, `free` holds the vacant slots, the next one to be used first. `edges` is newest first,
which is the order of petgraph's adjacency lists. -/
structure Stable (N E : Type) where
  slots : List (Option N)
  free : List Nat
  edges : List (Nat × Nat × E)
  deriving Repr, DecidableEq

/-- `StableGraph::node_weight` (mux_circuits/src/opt.rs:31). -/
def Stable.weight (g : Stable N E) (i : Nat) : Option N := g.slots.getD i none

/-- `StableGraph::add_node` (called at mux_circuits/src/opt.rs:238): the slot vacated last is reused, else a slot is
appended. -/
def Stable.addNode (g : Stable N E) (n : N) : Stable N E × Nat :=
  match g.free with
  | [] => ({ g with slots := g.slots ++ [some n] }, g.slots.length)
  | i :: rest => ({ g with slots := g.slots.set i (some n), free := rest }, i)

/-- `StableGraph::add_edge` (called at mux_circuits/src/opt.rs:243): panics (`none`) unless both endpoints exist. -/
def Stable.addEdge (g : Stable N E) (a b : Nat) (e : E) : Option (Stable N E) :=
  if (g.weight a).isSome ∧ (g.weight b).isSome then some { g with edges := (a, b, e) :: g.edges } else none

/-- `StableGraph::find_edge` then `remove_edge` (called at mux_circuits/src/opt.rs:250-252): the first edge from `a` to
`b` in the adjacency list of `a` goes; `none` is the panic `"No such edge"`. -/
def Stable.removeEdge (g : Stable N E) (a b : Nat) : Option (Stable N E) :=
  if g.edges.any fun e => e.1 == a && e.2.1 == b then
    some { g with edges := g.edges.eraseP fun e => e.1 == a && e.2.1 == b }
  else none

/-- `StableGraph::remove_node` (called at mux_circuits/src/opt.rs:258): the slot becomes vacant and every edge at the node
goes; nothing happens on a vacant slot. -/
def Stable.removeNode (g : Stable N E) (i : Nat) : Stable N E :=
  if (g.weight i).isSome then
    ⟨g.slots.set i none, i :: g.free, g.edges.filter fun e => !(e.1 == i) && !(e.2.1 == i)⟩
  else g

/-- mux_circuits/src/opt.rs:165-172 `materialize_index`: `none` is a panic (index out of range or not an `AddNode`). -/
def materialize (ids : List (Option Nat)) : Name → Option Nat
  | .node i => some i
  | .deferred k => ids.getD k none

/-- mux_circuits/src/opt.rs:184-188 `push`: the list of transforms and the index of the pushed one. -/
def push (ts : List (Transform N E)) (t : Transform N E) : List (Transform N E) × Nat :=
  let ts := ts ++ [t]
  (ts, ts.length - 1)

/-- mux_circuits/src/opt.rs:237-261: one transform; the new graph and the inserted node, if any. -/
def applyOne (ids : List (Option Nat)) (g : Stable N E) : Transform N E → Option (Stable N E × Option Nat)
  | .addNode n =>
    let r := g.addNode n
    some (r.1, some r.2)
  | .addEdge a b e =>
    match materialize ids a, materialize ids b with
    | some a, some b => (g.addEdge a b e).map fun g => (g, none)
    | _, _ => none
  | .removeEdge a b =>
    match materialize ids a, materialize ids b with
    | some a, some b => (g.removeEdge a b).map fun g => (g, none)
    | _, _ => none
  | .removeNode a =>
    match materialize ids a with
    | some a => some (g.removeNode a, none)
    | none => none

/-- mux_circuits/src/opt.rs:236-268: the loop over the transforms with `added_nodes` and `inserted_node_ids`. -/
def applyLoop : List (Transform N E) → List (Option Nat) → List Nat → Stable N E →
    Option (Stable N E × List (Option Nat) × List Nat)
  | [], ids, added, g => some (g, ids, added)
  | t :: ts, ids, added, g =>
    match applyOne ids g t with
    | none => none
    | some (g, inserted) =>
      let added := match inserted with
        | some i => added ++ [i]
        | none => added
      applyLoop ts (ids ++ [inserted]) added g

/-- mux_circuits/src/opt.rs:227-271 `GraphTransforms::apply`: the graph and the added nodes, or a panic. -/
def apply (ts : List (Transform N E)) (g : Stable N E) : Option (Stable N E × List Nat) :=
  (applyLoop ts [] [] g).map fun r => (r.1, r.2.2)

/-- The transforms of the CSE model (mux_circuits/src/opt.rs:349-363) as general transforms: both indices are
`NodeIndex`es. -/
def ofCse : Mux.Transform → Transform Mux.MuxOp Mux.MuxEdge
  | .addEdge a b e => .addEdge (.node a) (.node b) e
  | .removeNode n => .removeNode (.node n)

/-- Forget the free list of mux_circuits/src/opt.rs:222's `StableGraph`: the graph the CSE model works on. -/
def Stable.toGraph (g : Stable N E) : Graph N E := ⟨g.slots, g.edges⟩

end Spf.Transforms
