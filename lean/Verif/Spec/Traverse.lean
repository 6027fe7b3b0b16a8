import Verif.Spec.MuxSem
/-! Specification of graph traversal, on the edges of the graph only. -/
namespace Spf.Spec
variable {N E : Type}

/-- Every edge connects two existing nodes (guaranteed by `petgraph`). -/
def EdgesLive (g : Graph N E) : Prop := ∀ e ∈ g.edges, (g.weight e.1).isSome ∧ (g.weight e.2.1).isSome

/-- `Before fwd g a b`: `a` must be visited before `b`; an edge `a → b` in a forward traversal, an edge `b → a` in a
backward one. -/
def Before (fwd : Bool) (g : Graph N E) (a b : Nat) : Prop :=
  if fwd then ∃ k, (a, b, k) ∈ g.edges else ∃ k, (b, a, k) ∈ g.edges

/-- There is no infinite chain of predecessors starting at `n`: in a finite graph, `n` is not on a cycle and cannot be
reached from one. -/
def Grounded (fwd : Bool) (g : Graph N E) (n : Nat) : Prop := Acc (Before fwd g) n

/-- No cycles: nodes can be ranked along the edges. -/
def Acyclic (g : Graph N E) : Prop := ∃ rank : Nat → Nat, ∀ e ∈ g.edges, rank e.1 < rank e.2.1

/-- In the list, everything that must come before a node does. -/
def InOrder (fwd : Bool) (g : Graph N E) (order : List Nat) : Prop :=
  ∀ done n rest, order = done ++ n :: rest → ∀ p, Before fwd g p n → p ∈ done

/-- No vacant index below an occupied one: nothing was removed from the graph since it was last compacted. -/
def NoHoles (g : Graph N E) : Prop := ∀ m n, (g.weight n).isSome → m < n → (g.weight m).isSome

/-- The numbers of the output nodes, in the order of the nodes. -/
def outputNumbers (nodes : List (Option Mux.MuxOp)) : List Nat :=
  nodes.filterMap fun w => match w with | some (.output i) => some i | _ => none

/-- The `k` output nodes are numbered `0, 1, …, k-1` in the order of the nodes. -/
def OutputsInOrder (g : Mux.MGraph) (k : Nat) : Prop := outputNumbers g.nodes = List.range k

end Spf.Spec
