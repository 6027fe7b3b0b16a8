import Verif.Model.Sched
import Verif.Spec.FheSem
/-! Specification of circuit execution: the operations one after the other, in the order of dispatch, on the initial
contents of the cells. It uses of the model only the description of the dispatched items and of the operators. -/
namespace Spf.Sched
variable {Op Val Err Cell E : Type}

/-- Result of one operation: it succeeded (its output and the cell it writes), it failed, or one of its inputs did not
succeed. -/
inductive Res (Val Err Cell : Type) | ok (out : Option Val) (write : Option (Cell × Val)) | err (e : Err) | skipped

/-- The output of a successful operation. -/
def Res.out? : Res Val Err Cell → Option (Option Val)
  | .ok o _ => some o
  | _ => none

/-- One operation, given the results of the earlier ones. -/
def seqItem (exec : Exec Op Val Err Cell E) (cells : Cell → Val) (rs : List (Res Val Err Cell)) (it : Item Op Err E) : Res Val Err Cell :=
  match it.op with
  | none => .ok none none
  | some op =>
    match it.deps.mapM (fun d => (rs[d.1]?.bind Res.out?).map fun v => (v, d.2)) with
    | none => .skipped
    | some ins => match exec op cells ins with
      | .ok (o, w) => .ok o w
      | .error e => .err e

/-- All operations, in order. -/
def seqRun (exec : Exec Op Val Err Cell E) (cells : Cell → Val) (prog : List (Item Op Err E)) : List (Res Val Err Cell) :=
  prog.foldl (fun rs it => rs ++ [seqItem exec cells rs it]) []

/-- A sequence of items as `spawn_graph` produces them: dependencies are earlier items of the same circuit; each circuit has
exactly one `Retire`, which is its last item. -/
structure WellFormed (prog : List (Item Op Err E)) : Prop where
  deps : ∀ (i : Nat) (it : Item Op Err E), prog[i]? = some it →
    ∀ d ∈ it.deps, d.1 < i ∧ ∃ it', prog[d.1]? = some it' ∧ it'.circ = it.circ
  last : ∀ (i : Nat) (it : Item Op Err E), prog[i]? = some it →
    ∃ (r : Nat) (ir : Item Op Err E), prog[r]? = some ir ∧ ir.circ = it.circ ∧ ir.op = none ∧ i ≤ r
  once : ∀ (i j : Nat) (it jt : Item Op Err E), prog[i]? = some it → prog[j]? = some jt → it.circ = jt.circ →
    it.op = none → j ≤ i

/-- The operators' use of cells: `reads`, `writes` bound what an operator touches; no cell is written by two
operations, and none that is written is read. -/
structure Cells (exec : Exec Op Val Err Cell E) (prog : List (Item Op Err E)) where
  reads : Op → Cell → Prop
  writes : Op → Cell → Prop
  read_ok : ∀ op c₁ c₂ ins, (∀ c, reads op c → c₁ c = c₂ c) → exec op c₁ ins = exec op c₂ ins
  write_ok : ∀ op cs ins o c v, exec op cs ins = .ok (o, some (c, v)) → writes op c
  one_writer : ∀ (i j : Nat) (it jt : Item Op Err E) (op op' : Op) (c : Cell), prog[i]? = some it → prog[j]? = some jt →
    it.op = some op → jt.op = some op' → writes op c → writes op' c → i = j
  no_race : ∀ (i j : Nat) (it jt : Item Op Err E) (op op' : Op) (c : Cell), prog[i]? = some it → prog[j]? = some jt →
    it.op = some op → jt.op = some op' → reads op c → ¬writes op' c

end Spf.Sched

namespace Spf.Sched
open Spf.Fhe

/-- `ord` is a topological order of the nodes of `g` (what `petgraph`'s `Topo` visits): every node once, and the source of
each edge before its target. Every edge joins nodes. -/
structure TopoOrder (g : FGraph) (ord : List Nat) : Prop where
  nodup : ord.Nodup
  mem : ∀ n, n ∈ ord ↔ (g.weight n).isSome
  edge : ∀ e ∈ g.edges, ∀ l₁ l₂, ord = l₁ ++ e.2.1 :: l₂ → e.1 ∈ l₁
  ends : ∀ e ∈ g.edges, (g.weight e.1).isSome ∧ (g.weight e.2.1).isSome

/-- Circuits that may be in flight together: no two output nodes write the same cell, and no cell is both an input and an
output. -/
structure Apart (gs : List (FGraph × List Nat)) : Prop where
  outputs : ∀ (k k' : Nat) (p p' : FGraph × List Nat) (n n' : Nat) (t : CtType) (c : Nat), gs[k]? = some p → gs[k']? = some p' →
    p.1.weight n = some (.output t c) → p'.1.weight n' = some (.output t c) → k = k' ∧ n = n'
  inputs : ∀ (k k' : Nat) (p p' : FGraph × List Nat) (n n' : Nat) (t : CtType) (c : Nat), gs[k]? = some p → gs[k']? = some p' →
    p.1.weight n = some (.input t c) → p'.1.weight n' ≠ some (.output t c)

/-- Every node has a value (or is an isolated `nop`), and nothing uses an output. -/
structure Evaluates (deg : Nat) (cells : CtType × Nat → Fhe.Val) (g : FGraph) : Prop where
  node : ∀ n op, g.weight n = some op → (op = .nop ∧ g.inEdges n = []) ∨ ∃ v, Spec.FEval deg (fun t c => cells (t, c)) g n v
  sink : ∀ e ∈ g.edges, ∀ t c, g.weight e.1 ≠ some (.output t c)

end Spf.Sched
