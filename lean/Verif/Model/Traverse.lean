import Verif.Model.MuxGraph
/-! Model of `mux_circuits/src/graph_ops.rs` (graph traversal) and of the circuit evaluator of
`mux_circuits/src/lib.rs` that uses it. -/
namespace Spf.Trav
open Graph Spf.Mux
variable {N E σ ε : Type}

/-- mux_circuits/src/graph_ops.rs:81-90: the neighbours in `prev_direction`, one entry per edge. -/
def prevs (forward : Bool) (g : Graph N E) (n : Nat) : List Nat := if forward then g.preds n else g.succs n

/-- mux_circuits/src/graph_ops.rs:81-90: the neighbours in `next_direction`, one entry per edge. -/
def nexts (forward : Bool) (g : Graph N E) (n : Nat) : List Nat := if forward then g.succs n else g.preds n

/-- The three collections of mux_circuits/src/graph_ops.rs:79-95 (the two `HashSet`s are lists here, `visited` newest
first; the top of the `ready_nodes` stack is the head of `stack`). -/
structure TravState where
  ready : List Nat
  visited : List Nat
  stack : List Nat
  deriving Repr, DecidableEq

/-- mux_circuits/src/graph_ops.rs:116-120 `node_ready`. -/
def ready? (fwd : Bool) (g : Graph N E) (visited : List Nat) (n : Nat) : Bool :=
  (prevs fwd g n).all (visited.contains ·)

/-- mux_circuits/src/graph_ops.rs:124-129 and 133-138: push the nodes that became ready. -/
def push (fwd : Bool) (g : Graph N E) : List Nat → TravState → TravState
  | [], st => st
  | i :: is, st =>
    if !st.ready.contains i && ready? fwd g st.visited i then
      push fwd g is { st with ready := i :: st.ready, stack := i :: st.stack }
    else push fwd g is st

/-- mux_circuits/src/graph_ops.rs:92-97: start from the nodes without predecessors; the last one is popped first. -/
def init (fwd : Bool) (g : Graph N E) : TravState :=
  let rs := (g.indices.filter fun x => (prevs fwd g x).isEmpty).reverse
  ⟨rs, [], rs⟩

/-- mux_circuits/src/graph_ops.rs:99-146, `fuel` iterations of the `while` loop with a callback that changes only its own
state `s` (it returns `()`, whose transform list is empty: graph_ops.rs:52-60, so no node is added). The loop ends with
the first error of the callback. -/
def loop (fwd : Bool) (g : Graph N E) (f : σ → Nat → Except ε σ) : Nat → TravState → σ → Except ε (TravState × σ)
  | 0, st, s => .ok (st, s)
  | fuel + 1, st, s =>
    match st.stack with
    | [] => .ok (st, s)
    | n :: rest =>
      let st := { st with stack := rest, visited := n :: st.visited }
      let next := nexts fwd g n
      match g.weight n with
      | none => loop fwd g f fuel st s
      | some _ =>
        match f s n with
        | .error e => .error e
        | .ok s =>
          let st := push fwd g (nexts fwd g n) st
          let st := push fwd g next st
          loop fwd g f fuel st s

/-- mux_circuits/src/graph_ops.rs:67-150 `traverse`. As many iterations as there are node slots empty the stack
(`C101_terminates`). -/
def traverse (fwd : Bool) (g : Graph N E) (f : σ → Nat → Except ε σ) (s : σ) : Except ε σ :=
  match loop fwd g f g.nodes.length (init fwd g) s with
  | .error e => .error e
  | .ok (_, s) => .ok s

/-- mux_circuits/src/graph_ops.rs:152-162 `forward_traverse`. -/
def forwardTraverse (g : Graph N E) (f : σ → Nat → Except ε σ) (s : σ) : Except ε σ := traverse true g f s

/-! ### the evaluator -/

/-- mux_circuits/src/lib.rs:254-259 `assign_input` on `(sel, low, high)`; `none` = `unreachable!()`. -/
def assignInput (e : Nat × Nat × MuxEdge) (slh : Option Nat × Option Nat × Option Nat) :
    Option (Option Nat × Option Nat × Option Nat) :=
  match e.2.2 with
  | .select => some (some e.1, slh.2.1, slh.2.2)
  | .low => some (slh.1, some e.1, slh.2.2)
  | .high => some (slh.1, slh.2.1, some e.1)
  | .output => none

/-- mux_circuits/src/lib.rs:244-271 `get_mux_inputs`: (select, low, high); `none` = a failed assertion or `unwrap`. -/
def getMuxInputs (g : MGraph) (n : Nat) : Option (Nat × Nat × Nat) :=
  if g.weight n ≠ some .mux then none
  else
    match g.inEdges n with
    | [a, b, c] =>
      match (assignInput a (none, none, none)).bind fun x => (assignInput b x).bind (assignInput c) with
      | some (some s, some l, some h) => some (s, l, h)
      | _ => none
    | _ => none

/-- `matches!(x, MuxOp::Mux)` (mux_circuits/src/lib.rs:189). -/
def isMux : MuxOp → Bool | .mux => true | _ => false
/-- `matches!(x, MuxOp::Variable(_))` (mux_circuits/src/lib.rs:194, 454). -/
def isVar : MuxOp → Bool | .variable _ => true | _ => false
/-- `matches!(x, MuxOp::Output(_))` (mux_circuits/src/lib.rs:199). -/
def isOut : MuxOp → Bool | .output _ => true | _ => false

/-- mux_circuits/src/lib.rs:183-203 `metrics`: (multiplexers, inputs, outputs). -/
def metrics (g : MGraph) : Nat × Nat × Nat :=
  let ws := g.nodes.filterMap id
  ((ws.filter isMux).length, (ws.filter isVar).length, (ws.filter isOut).length)

/-- `data[i] = b` (mux_circuits/src/lib.rs:465-488): panics out of range. -/
def setBit (data : List Bool) (i : Nat) (b : Bool) : Option (List Bool) :=
  if i < data.length then some (data.set i b) else none

/-- mux_circuits/src/lib.rs:460-492: the callback on node `n`; `none` = panic. -/
def testStep (g : MGraph) (inputs : List Bool) (data : List Bool) (n : Nat) : Option (List Bool) :=
  match g.weight n with
  | none => none
  | some (.variable x) => (inputs[x]?).bind fun b => setBit data n b
  | some .one => setBit data n true
  | some .zero => setBit data n false
  | some (.output _) => ((g.inEdges n).head?).bind fun e => (data[e.1]?).bind fun b => setBit data n b
  | some .mux =>
    (getMuxInputs g n).bind fun m =>
      (data[m.1]?).bind fun sel => (data[m.2.2]?).bind fun high => (data[m.2.1]?).bind fun low =>
        setBit data n (if sel then high else low)

/-- mux_circuits/src/lib.rs:496-508: the output nodes with their numbers, in node order. -/
def outputNodes (g : MGraph) : List (Nat × Nat) :=
  g.indices.filterMap fun x => match g.weight x with | some (.output i) => some (x, i) | _ => none

/-- Derived `Ord` of the pair `(NodeIndex, u32)`, used by `outputs.sort()` (mux_circuits/src/lib.rs:509). -/
def pairLe (a b : Nat × Nat) : Bool := decide (a.1 < b.1 ∨ a.1 = b.1 ∧ a.2 ≤ b.2)

/-- One insertion of `sortPairs`. -/
def insertPair (x : Nat × Nat) : List (Nat × Nat) → List (Nat × Nat)
  | [] => [x]
  | y :: ys => if pairLe x y then x :: y :: ys else y :: insertPair x ys

/-- `outputs.sort()` (mux_circuits/src/lib.rs:509), as an insertion sort (all stable sorts agree). -/
def sortPairs : List (Nat × Nat) → List (Nat × Nat)
  | [] => []
  | x :: xs => insertPair x (sortPairs xs)

/-- A panic of the callback, as the error of the traversal. -/
def orPanic {α : Type} : Option α → Except Unit α | none => .error () | some a => .ok a

/-- mux_circuits/src/lib.rs:448-511 `test_mux_circuit`. `node_count` is the number of occupied slots. -/
def testMuxCircuit (c : MuxCircuit) (inputs : List Bool) : Option (List Bool) :=
  if inputs.length ≠ (metrics c.graph).2.1 then none
  else
    match forwardTraverse c.graph (fun data n => orPanic (testStep c.graph inputs data n))
        (List.replicate c.graph.indices.length false) with
    | .error _ => none
    | .ok data => (sortPairs (outputNodes c.graph)).mapM fun p => data[p.1]?

end Spf.Trav
