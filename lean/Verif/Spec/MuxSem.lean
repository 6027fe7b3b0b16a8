import Verif.Model.MuxGraph
/-!
Specification of multiplexer circuits: what a circuit computes, and when it is well formed.  Only the graph data
type (nodes, edges) is used, none of the algorithms.
-/
namespace Spf.Spec
open Spf.Mux

/-- Meaning of a node on an assignment `env` of the variables: constants, variables, `sel ? high : low`, and outputs
forward their operand.  (An inductive relation: any derivation is a finite evaluation order.) -/
inductive Eval (g : MGraph) (env : Nat → Bool) : Nat → Bool → Prop
  | zero {n} : g.weight n = some .zero → Eval g env n false
  | one {n} : g.weight n = some .one → Eval g env n true
  | var {n i} : g.weight n = some (.variable i) → Eval g env n (env i)
  | mux {n s l h bs bl bh} : g.weight n = some .mux → (s, n, MuxEdge.select) ∈ g.edges → (l, n, MuxEdge.low) ∈ g.edges →
      (h, n, MuxEdge.high) ∈ g.edges → Eval g env s bs → Eval g env l bl → Eval g env h bh →
      Eval g env n (bif bs then bh else bl)
  | output {n i s b} : g.weight n = some (.output i) → (s, n, MuxEdge.output) ∈ g.edges → Eval g env s b → Eval g env n b

/-- Which kinds of edges may enter a node. -/
def KindOK : MuxOp → MuxEdge → Prop
  | .mux, .output => False
  | .mux, _ => True
  | .output _, .output => True
  | _, _ => False

/-- Every gate has its operands, edges are of the right kind, outputs are sinks and there is no cycle. -/
structure Complete (g : MGraph) : Prop where
  live : ∀ e ∈ g.edges, (g.weight e.1).isSome ∧ (g.weight e.2.1).isSome
  kind : ∀ e ∈ g.edges, ∀ op, g.weight e.2.1 = some op → KindOK op e.2.2
  mux : ∀ n, g.weight n = some .mux → (∃ s, (s, n, MuxEdge.select) ∈ g.edges) ∧ (∃ s, (s, n, MuxEdge.low) ∈ g.edges) ∧
    (∃ s, (s, n, MuxEdge.high) ∈ g.edges)
  out : ∀ n i, g.weight n = some (.output i) → ∃ s, (s, n, MuxEdge.output) ∈ g.edges
  sink : ∀ e ∈ g.edges, ∀ i, g.weight e.1 ≠ some (.output i)
  acyclic : ∃ rank : Nat → Nat, ∀ e ∈ g.edges, rank e.1 < rank e.2.1

/-- Well-formed circuit: additionally every gate has exactly one operand of each kind. -/
structure WF (g : MGraph) : Prop extends Complete g where
  mux1 : ∀ n, g.weight n = some .mux → ∃ s l h,
    (g.inEdges n).Perm [(s, n, MuxEdge.select), (l, n, MuxEdge.low), (h, n, MuxEdge.high)]
  out1 : ∀ n i, g.weight n = some (.output i) → ∃ s, g.inEdges n = [(s, n, MuxEdge.output)]

/-- Circuit `c` has inputs `0 … nIn-1` (in order) and its output `i` is the function `outs[i]` of the inputs. -/
structure Computes (c : MuxCircuit) (nIn : Nat) (outs : List ((Nat → Bool) → Bool)) : Prop where
  nInputs : c.inputs.length = nIn
  inputs : ∀ n i, c.graph.weight n = some (.variable i) ↔ (i < nIn ∧ c.inputs[i]? = some n)
  outUnique : ∀ n n' i, c.graph.weight n = some (.output i) → c.graph.weight n' = some (.output i) → n = n'
  outIdx : ∀ i, (∃ n, c.graph.weight n = some (.output i)) ↔ i < outs.length
  value : ∀ n i f, c.graph.weight n = some (.output i) → outs[i]? = some f → ∀ env b, Eval c.graph env n b ↔ f env = b

/-- Inputs are used as selectors only, and only inputs are: the discipline that lets a circuit run on encrypted data
(selectors are GGSW ciphertexts, data operands GLWE ciphertexts). -/
def SelectorsOnly (g : MGraph) : Prop := ∀ e ∈ g.edges, e.2.2 = MuxEdge.select ↔ ∃ i, g.weight e.1 = some (.variable i)

/-- The multiplexers of the circuit fall into diagrams (`dia` names the diagram of a node): operands are constants, inputs or
multiplexers of the same diagram, no two multiplexers of a diagram have the same three operands, and the two data operands of a
multiplexer differ. Every constant, input and output occurs once. (What conversion of reduced decision diagrams yields.) -/
structure Reduced (g : MGraph) (dia : Nat → Nat) : Prop where
  inside : ∀ a n k, (a, n, k) ∈ g.edges → g.weight a = some .mux → g.weight n = some .mux → dia a = dia n
  unique : ∀ n n' s l h, g.weight n = some .mux → g.weight n' = some .mux → dia n = dia n' →
    (s, n, MuxEdge.select) ∈ g.edges → (l, n, MuxEdge.low) ∈ g.edges → (h, n, MuxEdge.high) ∈ g.edges →
    (s, n', MuxEdge.select) ∈ g.edges → (l, n', MuxEdge.low) ∈ g.edges → (h, n', MuxEdge.high) ∈ g.edges → n = n'
  distinct : ∀ n l h, (l, n, MuxEdge.low) ∈ g.edges → (h, n, MuxEdge.high) ∈ g.edges → l ≠ h
  leaves : ∀ n n' op, op ≠ MuxOp.mux → g.weight n = some op → g.weight n' = some op → n = n'

/-- The inputs tested along every path increase: the selector of a multiplexer comes before the selectors of its data operands. -/
def Ordered (g : MGraph) : Prop := ∀ m n k s s' i j, (m, n, k) ∈ g.edges → k ≠ MuxEdge.select → g.weight m = some .mux →
  (s, n, MuxEdge.select) ∈ g.edges → g.weight s = some (.variable i) →
  (s', m, MuxEdge.select) ∈ g.edges → g.weight s' = some (.variable j) → i < j

/-- No path of the circuit goes through more than `D` multiplexers (leaving out the select lines): the multiplexers have levels
from 1 to `D`, and those on the data lines of a multiplexer have lower levels than it. -/
def DepthAtMost (g : MGraph) (D : Nat) : Prop := ∃ lev : Nat → Nat, (∀ n, g.weight n = some .mux → 1 ≤ lev n ∧ lev n ≤ D) ∧
  ∀ m n k, (m, n, k) ∈ g.edges → k ≠ MuxEdge.select → g.weight m = some .mux → g.weight n = some .mux → lev m < lev n

end Spf.Spec
