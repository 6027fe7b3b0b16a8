import Verif.Model.Graph
/-! Model of `mux_circuits/src/lib.rs` (graph part) and `mux_circuits/src/opt.rs`. `none` = panic. -/
namespace Spf.Mux
open Graph

/-- mux_circuits/src/lib.rs:54-90 `MuxOp`. -/
inductive MuxOp | one | zero | mux | variable (i : Nat) | output (i : Nat)
  deriving Repr, DecidableEq

/-- mux_circuits/src/lib.rs:92-106 `MuxEdgeInfo`. -/
inductive MuxEdge | low | high | select | output
  deriving Repr, DecidableEq

abbrev MGraph := Graph MuxOp MuxEdge

/-- mux_circuits/src/lib.rs:164-170 `MuxCircuit`. -/
structure MuxCircuit where
  graph : MGraph
  inputs : List Nat
  deriving Repr, DecidableEq

/-- One record of `biodivine_lib_bdd::Bdd::to_bytes` (mux_circuits/src/lib.rs:369-384). Record 0 is the `false` leaf
`(num_vars, 0, 0)`, record 1 (if present) the `true` leaf `(num_vars, 1, 1)`, the last record is the root. -/
structure BddNode where
  var : Nat
  low : Nat
  high : Nat
  deriving Repr, DecidableEq

/-- Local variables of mux_circuits/src/lib.rs:361-365 and 376-377. -/
structure BState where
  g : Graph (MuxOp × Nat) MuxEdge
  maxInputs : Nat
  zero : Option Nat
  one : Option Nat
  added : List Nat
  last : Nat

/-- mux_circuits/src/lib.rs:388-401: choose or create the graph node. -/
def pickNode (st : BState) (nd : BddNode) : BState × Nat :=
  if nd.high = 0 ∧ nd.low = 0 then
    match st.zero with
    | some z => (st, z)
    | none => let (g, z) := st.g.addNode (.zero, nd.var); ({ st with g := g, zero := some z }, z)
  else if nd.high = 1 ∧ nd.low = 1 then
    match st.one with
    | some z => (st, z)
    | none => let (g, z) := st.g.addNode (.one, nd.var); ({ st with g := g, one := some z }, z)
  else let (g, z) := st.g.addNode (.mux, nd.var); ({ st with g := g }, z)

/-- mux_circuits/src/lib.rs:379-411: one record. -/
def bddNodeStep (st : BState) (nd : BddNode) : Option BState :=
  let st := { st with maxInputs := max st.maxInputs nd.var }
  let (st, node) := pickNode st nd
  let st := { st with added := st.added ++ [node] }
  if nd.low ≠ nd.high then
    match st.added[nd.low]?, st.added[nd.high]? with
    | some lo, some hi =>
      match st.g.addEdge lo node .low with
      | none => none
      | some g =>
        match g.addEdge hi node .high with
        | none => none
        | some g => some { st with g := g, last := node }
    | _, _ => none
  else some { st with last := node }

/-- The loop over the records of one diagram. -/
def bddNodes : BState → List BddNode → Option BState
  | st, [] => some st
  | st, nd :: nds =>
    match bddNodeStep st nd with
    | none => none
    | some st => bddNodes st nds

/-- mux_circuits/src/lib.rs:368-416: one diagram, then its output node. -/
def bddStep (st : BState) (i : Nat) (ser : List BddNode) : Option BState :=
  if ser = [] then none
  else
    match bddNodes { st with added := [], last := 0 } ser with
    | none => none
    | some st =>
      let (g, o) := st.g.addNode (.output i, 0)
      match g.addEdge st.last o .output with
      | none => none
      | some g => some { st with g := g }

/-- mux_circuits/src/lib.rs:367: loop over the diagrams. -/
def bddAll : BState → Nat → List (List BddNode) → Option BState
  | st, _, [] => some st
  | st, i, b :: bs =>
    match bddStep st i b with
    | none => none
    | some st => bddAll st (i + 1) bs

/-- mux_circuits/src/lib.rs:419-423: create the input nodes. -/
def addInputs (g : Graph (MuxOp × Nat) MuxEdge) : Nat → Graph (MuxOp × Nat) MuxEdge
  | 0 => g
  | k + 1 => ((addInputs g k).addNode (.variable k, 0)).1

/-- mux_circuits/src/lib.rs:428-435: tie the select lines. `base` is the index of the first input node. -/
def tieSelects (base numInputs : Nat) : List Nat → Graph (MuxOp × Nat) MuxEdge → Option (Graph (MuxOp × Nat) MuxEdge)
  | [], g => some g
  | n :: ns, g =>
    match g.weight n with
    | some (.mux, v) =>
      if v < numInputs then
        match g.addEdge (base + v) n .select with
        | none => none
        | some g => tieSelects base numInputs ns g
      else none
    | _ => tieSelects base numInputs ns g

/-- mux_circuits/src/lib.rs:358-445 `MuxCircuit::from(&[Bdd])`. -/
def fromBdds (bdds : List (List BddNode)) : Option MuxCircuit :=
  match bddAll ⟨Graph.empty, 0, none, none, [], 0⟩ 0 bdds with
  | none => none
  | some st =>
    let base := st.g.nodes.length
    let g := addInputs st.g st.maxInputs
    match tieSelects base st.maxInputs g.indices g with
    | none => none
    | some g => some ⟨g.mapNodes Prod.fst, (List.range st.maxInputs).map (base + ·)⟩

/-! ### common subexpression elimination -/

/-- mux_circuits/src/opt.rs:522-566 `get_mux_operands`: (select, low, high). -/
def getMuxOperands (g : MGraph) (n : Nat) : Option (Nat × Nat × Nat) :=
  let es := g.inEdges n
  if es.length ≠ 3 then none
  else
    match es.find? (fun e => e.2.2 == MuxEdge.select), es.find? (fun e => e.2.2 == MuxEdge.low),
        es.find? (fun e => e.2.2 == MuxEdge.high) with
    | some s, some l, some h => some (s.1, l.1, h.1)
    | _, _, _ => none

/-- mux_circuits/src/opt.rs:79-106 `Transform`, the two constructors CSE uses. -/
inductive Transform | addEdge (a b : Nat) (e : MuxEdge) | removeNode (n : Nat)
  deriving Repr, DecidableEq

/-- mux_circuits/src/opt.rs:349-363 `move_edges`. -/
def moveEdges (g : MGraph) (nodeToAdd removed : Nat) : List Transform :=
  (g.outEdges removed).map (fun e => .addEdge nodeToAdd e.2.1 e.2.2) ++ [.removeNode removed]

/-- mux_circuits/src/opt.rs:336-396: the callback body, looping over the children of `index`. `visited` is the
`HashMap` from key to node. For multiplexer graphs only `is_mux` nodes have a key (lib.rs:126-150). -/
def cseChildren (g : MGraph) : List Nat → List ((Nat × Nat × Nat) × Nat) → Option (List Transform)
  | [], _ => some []
  | e :: es, visited =>
    match g.weight e with
    | none => none      -- `unwrap` of a vacant node
    | some .mux =>
      match getMuxOperands g e with
      | none => none
      | some key =>
        match visited.lookup key with
        | some equiv =>
          if equiv ≠ e then
            match cseChildren g es visited with
            | none => none
            | some ts => some (moveEdges g equiv e ++ ts)
          else cseChildren g es visited
        | none => cseChildren g es ((key, e) :: visited)
    | some _ => cseChildren g es visited

/-- mux_circuits/src/opt.rs:227-271 `GraphTransforms::apply`. -/
def applyTransforms : List Transform → MGraph → Option MGraph
  | [], g => some g
  | .addEdge a b e :: ts, g =>
    match g.addEdge a b e with
    | none => none
    | some g => applyTransforms ts g
  | .removeNode n :: ts, g => applyTransforms ts (g.removeNode n)

/-- State of mux_circuits/src/opt.rs:435-518 `traverse` (forward). `stack` has its top at the head. -/
structure TState where
  g : MGraph
  ready : List Nat
  visited : List Nat
  stack : List Nat

/-- mux_circuits/src/opt.rs:482-487 `node_ready`. -/
def nodeReady (g : MGraph) (visited : List Nat) (n : Nat) : Bool := (g.preds n).all (visited.contains ·)

/-- mux_circuits/src/opt.rs:490-506: push the nodes that became ready. -/
def pushReady (g : MGraph) (visited : List Nat) : List Nat → List Nat × List Nat → List Nat × List Nat
  | [], rs => rs
  | i :: is, (ready, stack) =>
    if !ready.contains i && nodeReady g visited i then pushReady g visited is (i :: ready, i :: stack)
    else pushReady g visited is (ready, stack)

/-- mux_circuits/src/opt.rs:467-515: one iteration of the loop on node `n` (already popped). -/
def cseIter (st : TState) (n : Nat) : Option TState :=
  let visited := n :: st.visited
  let next := st.g.succs n
  match st.g.weight n with
  | none => some { st with visited := visited }
  | some _ =>
    match cseChildren st.g (st.g.succs n) [] with
    | none => none
    | some ts =>
      match applyTransforms ts st.g with
      | none => none
      | some g =>
        let rs := (st.ready, st.stack)
        let rs := if (g.weight n).isSome then pushReady g visited (g.succs n) rs else rs
        let rs := pushReady g visited next rs
        some ⟨g, rs.1, visited, rs.2⟩

/-- `fuel` iterations of the `while let Some(n) = ready_nodes.pop()` loop. -/
def cseLoop : Nat → TState → Option TState
  | 0, st => some st
  | fuel + 1, st =>
    match st.stack with
    | [] => some st
    | n :: rest =>
      match cseIter { st with stack := rest } n with
      | none => none
      | some st => cseLoop fuel st

/-- mux_circuits/src/opt.rs:461-467: nodes without predecessors; the last one is popped first. -/
def initState (g : MGraph) : TState :=
  let rs := (g.indices.filter fun x => (g.preds x).isEmpty).reverse
  ⟨g, rs, [], rs⟩

/-- mux_circuits/src/opt.rs:328-399 `common_subexpression_elimination`. Every node enters the stack at most once, so
as many iterations as there are nodes run the loop to completion (`C12_terminates`). -/
def cse (g : MGraph) : Option MGraph := (cseLoop g.nodes.length (initState g)).map (·.g)

/-- Renaming of `Graph::from(StableGraph)` (petgraph, called at mux_circuits/src/lib.rs:335): the occupied indices are
renumbered consecutively. -/
def compactIndex (nodes : List (Option MuxOp)) (i : Nat) : Nat := ((nodes.take i).filter Option.isSome).length

/-- mux_circuits/src/lib.rs:334-355 `compact_indices`; the inputs are the variable nodes sorted by variable number
(`sort_by` is stable; insertion sort here). -/
def insertVar (x : Nat × Nat) : List (Nat × Nat) → List (Nat × Nat)
  | [] => [x]
  | y :: ys => if y.1 ≤ x.1 then y :: insertVar x ys else x :: y :: ys

/-- mux_circuits/src/lib.rs:340-350: collect the variable nodes. -/
def varNodes (g : MGraph) : List (Nat × Nat) :=
  g.indices.filterMap fun n => match g.weight n with | some (.variable x) => some (x, n) | _ => none

/-- mux_circuits/src/lib.rs:334-337: the compacted graph. -/
def compactGraph (g : MGraph) : MGraph :=
  { nodes := g.nodes.filter Option.isSome
    edges := g.edges.map fun e => (compactIndex g.nodes e.1, compactIndex g.nodes e.2.1, e.2.2) }

/-- mux_circuits/src/lib.rs:334-355 `compact_indices`. -/
def compactIndices (g : MGraph) : MuxCircuit :=
  let g' := compactGraph g
  { graph := g', inputs := ((varNodes g').foldl (fun acc x => insertVar x acc) []).map (·.2) }

/-- mux_circuits/src/lib.rs:276-279 `optimize`. -/
def optimize (c : MuxCircuit) : Option MuxCircuit := (cse c.graph).map compactIndices

/-- mux_circuits/src/lib.rs:301-305: the nodes remapped to input `i`, in order. -/
def inputMap (encoded inputs : List Nat) (i : Nat) : List Nat :=
  ((encoded.zip inputs).filter fun p => p.1 == i).map (·.2)

/-- mux_circuits/src/lib.rs:307-309: add the new input nodes. -/
def addVars (g : MGraph) : Nat → MGraph
  | 0 => g
  | k + 1 => ((addVars g k).addNode (.variable k)).1

/-- mux_circuits/src/lib.rs:322-325: copy the buffered edges. -/
def copyEdges (d : Nat) : List (Nat × Nat × MuxEdge) → MGraph → Option MGraph
  | [], g => some g
  | e :: es, g =>
    match g.addEdge d e.2.1 e.2.2 with
    | none => none
    | some g => copyEdges d es g

/-- mux_circuits/src/lib.rs:313-329: the loop over the nodes `orig` remapped to node `d`. -/
def redirect (d : Nat) : List Nat → MGraph → Option MGraph
  | [], g => some g
  | o :: os, g =>
    match copyEdges d (g.outEdges o) g with
    | none => none
    | some g => redirect d os (g.removeNode o)

/-- mux_circuits/src/lib.rs:312-330: the loop over the new inputs. -/
def redirectAll (base : Nat) (encoded inputs : List Nat) : List Nat → MGraph → Option MGraph
  | [], g => some g
  | i :: is, g =>
    match redirect (base + i) (inputMap encoded inputs i) g with
    | none => none
    | some g => redirectAll base encoded inputs is g

/-- mux_circuits/src/lib.rs:288-331 `remap_inputs`. The two `assert_eq!`s: one name per input, and every new index is
used (the keys of the map are exactly `0..count`; a key out of range makes the second assertion or the
`get(..).unwrap()` fail). -/
def remapInputs (c : MuxCircuit) (count : Nat) (encoded : List Nat) : Option MuxCircuit :=
  if c.inputs.length ≠ encoded.length then none
  else if ¬ ((∀ i ∈ encoded, i < count) ∧ ∀ i ∈ List.range count, i ∈ encoded) then none
  else
    let base := c.graph.nodes.length
    match redirectAll base encoded c.inputs (List.range count) (addVars c.graph count) with
    | none => none
    | some g => some (compactIndices g)

end Spf.Mux
