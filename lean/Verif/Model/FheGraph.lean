import Verif.Model.MuxGraph
/-! Model of `parasol_runtime/src/fhe_circuit.rs` and of the operator validation of
`parasol_runtime/src/circuit_processor/task.rs`. `none` = panic or runtime error. -/
namespace Spf.Fhe
open Graph

/-- parasol_runtime/src/crypto/ciphertext.rs:6-24 `CiphertextType`. -/
inductive CtType | lwe0 | lwe1 | glwe1 | ggsw1 | glev1
  deriving Repr, DecidableEq

/-- parasol_runtime/src/fhe_circuit.rs:32-125 `FheOp`. The shared ciphertext cell of an input or output is represented by
an identifier. -/
inductive FheOp
  | input (t : CtType) (cell : Nat) | output (t : CtType) (cell : Nat)
  | sampleExtract (i : Nat) | keyswitchL1toL0 | not | glweAdd | cmux | glevCmux | multiplyGgswGlwe
  | circuitBootstrap | schemeSwitch
  | zeroLwe0 | oneLwe0 | zeroGlwe1 | oneGlwe1 | zeroGgsw1 | oneGgsw1 | zeroGlev1 | oneGlev1
  | retire | nop | mulXN (n : Nat)
  deriving Repr, DecidableEq

/-- parasol_runtime/src/fhe_circuit.rs:172-197 `FheEdge`. -/
inductive FheEdge | low | high | sel | unary | glwe | ggsw | left | right
  deriving Repr, DecidableEq

abbrev FGraph := Graph FheOp FheEdge

/-- The message carried by a ciphertext (`Ciphertext`, parasol_runtime/src/crypto/ciphertext.rs:26-33): a bit, or, for a
GLWE ciphertext, the bit polynomial as a function of the coefficient index. Encryption noise is abstracted. -/
inductive Val | lwe0 (b : Bool) | lwe1 (b : Bool) | glwe1 (p : Nat → Bool) | ggsw1 (b : Bool) | glev1 (b : Bool)

/-- kind of a ciphertext (ciphertext.rs:47-65 `is_lwe0` …). -/
def Val.type : Val → CtType
  | .lwe0 _ => .lwe0 | .lwe1 _ => .lwe1 | .glwe1 _ => .glwe1 | .ggsw1 _ => .ggsw1 | .glev1 _ => .glev1

/-- the constant polynomial with the given constant coefficient (`trivial_glwe_l1_one`, encryption.rs; used at
circuit_processor/mod.rs:96-97). -/
def constPoly (b : Bool) : Nat → Bool := fun i => i == 0 && b

/-- the (unique) input on an edge kind (`task.inputs.iter().find(..)`, circuit_processor/mod.rs:369-373). -/
def pick (ins : List (Val × FheEdge)) (k : FheEdge) : Option Val := (ins.find? fun p => p.2 == k).map (·.1)

/-- circuit_processor/mod.rs:255-546 `exec_op`, preceded by task.rs:31-178 `validate`: the value an operator
produces from its inputs. `deg` is the polynomial degree, `cells` the contents of the shared cells. For output operators
the result is the value written to the cell. -/
def execOp (deg : Nat) (cells : CtType → Nat → Val) (op : FheOp) (ins : List (Val × FheEdge)) : Option Val :=
  match op, ins with
  | .input t c, [] => some (cells t c)
  | .zeroLwe0, [] => some (.lwe0 false)
  | .oneLwe0, [] => some (.lwe0 true)
  | .zeroGlwe1, [] => some (.glwe1 (constPoly false))
  | .oneGlwe1, [] => some (.glwe1 (constPoly true))
  | .zeroGgsw1, [] => some (.ggsw1 false)
  | .oneGgsw1, [] => some (.ggsw1 true)
  | .zeroGlev1, [] => some (.glev1 false)
  | .oneGlev1, [] => some (.glev1 true)
  | .output t _, [(v, .unary)] => if v.type = t then some v else none
  | .sampleExtract i, [(.glwe1 p, .unary)] => if i < deg then some (.lwe1 (p i)) else none
  | .keyswitchL1toL0, [(.lwe1 b, .unary)] => some (.lwe0 b)
  | .circuitBootstrap, [(.lwe0 b, .unary)] => some (.ggsw1 b)
  | .schemeSwitch, [(.glev1 b, .unary)] => some (.ggsw1 b)
  | .not, [(.glwe1 p, .unary)] => some (.glwe1 fun i => Bool.xor (p i) (constPoly true i))
  | .mulXN n, [(.glwe1 p, .unary)] => some (.glwe1 fun i => decide (i < deg) && p ((i + (deg - n % deg)) % deg))
  | .glweAdd, [_, _] =>
    match pick ins .left, pick ins .right with
    | some (.glwe1 p), some (.glwe1 q) => some (.glwe1 fun i => Bool.xor (p i) (q i))
    | _, _ => none
  | .cmux, [_, _, _] =>
    match pick ins .sel, pick ins .low, pick ins .high with
    | some (.ggsw1 s), some (.glwe1 l), some (.glwe1 h) => some (.glwe1 (bif s then h else l))
    | _, _, _ => none
  | .glevCmux, [_, _, _] =>
    match pick ins .sel, pick ins .low, pick ins .high with
    | some (.ggsw1 s), some (.glev1 l), some (.glev1 h) => some (.glev1 (bif s then h else l))
    | _, _, _ => none
  | .multiplyGgswGlwe, [_, _] =>
    match pick ins .glwe, pick ins .ggsw with
    | some (.glwe1 p), some (.ggsw1 b) => some (.glwe1 fun i => b && p i)
    | _, _ => none
  | _, _ => none

/-- parasol_runtime/src/fhe_circuit.rs:230-263 `MuxMode`. -/
inductive MuxMode | glwe | glev
  deriving Repr, DecidableEq

/-- fhe_circuit.rs:239-244 -/
def MuxMode.mux : MuxMode → FheOp | .glwe => .cmux | .glev => .glevCmux
/-- fhe_circuit.rs:246-251 -/
def MuxMode.zero : MuxMode → FheOp | .glwe => .zeroGlwe1 | .glev => .zeroGlev1
/-- fhe_circuit.rs:253-258 -/
def MuxMode.one : MuxMode → FheOp | .glwe => .oneGlwe1 | .glev => .oneGlev1

/-- fhe_circuit.rs:485-492 `map_edge`. -/
def mapEdge : Mux.MuxEdge → Option FheEdge
  | .high => some .high | .low => some .low | .select => some .sel | .output => none

/-- fhe_circuit.rs:300-305: the FHE operator of a multiplexer-circuit node. -/
def mapOp (mode : MuxMode) : Mux.MuxOp → Option FheOp
  | .mux => some mode.mux | .one => some mode.one | .zero => some mode.zero | _ => none

/-- fhe_circuit.rs:297-312: copy the non-I/O nodes; the second component is `node_renames`, newest first. -/
def copyNodes (mode : MuxMode) (mg : Mux.MGraph) : List Nat → FGraph → List (Nat × Nat) → FGraph × List (Nat × Nat)
  | [], g, ren => (g, ren)
  | i :: is, g, ren =>
    match (mg.weight i).bind (mapOp mode) with
    | some op => copyNodes mode mg is (g.addNode op).1 ((i, (g.addNode op).2) :: ren)
    | none => copyNodes mode mg is g ren

/-- one iteration of the loops at fhe_circuit.rs:358-365: connect `src` to the renamed targets. -/
def connectInput (ren : List (Nat × Nat)) (src : Nat) : List (Nat × Nat × Mux.MuxEdge) → FGraph → Option FGraph
  | [], g => some g
  | e :: es, g =>
    match ren.lookup e.2.1, mapEdge e.2.2 with
    | some t, some k =>
      match g.addEdge src t k with
      | none => none
      | some g => connectInput ren src es g
    | _, _ => none

/-- fhe_circuit.rs:347-355: operators a multiplexer circuit may be connected to. -/
def acceptsMux : FheOp → Bool
  | .input .ggsw1 _ => true | .circuitBootstrap => true | .zeroGgsw1 => true | .oneGgsw1 => true | .schemeSwitch => true
  | _ => false

/-- fhe_circuit.rs:335-366: hook up the inputs. -/
def connectInputs (mg : Mux.MGraph) (ren : List (Nat × Nat)) : List (Nat × Nat) → FGraph → Option FGraph
  | [], g => some g
  | (f, m) :: ps, g =>
    match mg.weight m, g.weight f with
    | some (.variable _), some op =>
      if acceptsMux op then
        match connectInput ren f (mg.outEdges m) g with
        | none => none
        | some g => connectInputs mg ren ps g
      else none
    | _, _ => none

/-- fhe_circuit.rs:369-391: the returned nodes. -/
def findOutputs (mg : Mux.MGraph) (ren : List (Nat × Nat)) : List Nat → List Nat → Option (List Nat)
  | [], outs => some outs
  | n :: ns, outs =>
    match mg.weight n with
    | some (.output o) =>
      match (mg.inEdges n).head? with
      | none => none
      | some e =>
        match ren.lookup e.1 with
        | none => none
        | some t => if o < outs.length then findOutputs mg ren ns (outs.set o t) else none
    | _ => findOutputs mg ren ns outs

/-- fhe_circuit.rs:402-417: the out-edges of one inner node. -/
def connectInner (ren : List (Nat × Nat)) : List (Nat × Nat × Mux.MuxEdge) → FGraph → Option FGraph
  | [], g => some g
  | e :: es, g =>
    match ren.lookup e.1 with
    | none => none
    | some s =>
      match ren.lookup e.2.1 with
      | none => connectInner ren es g
      | some t =>
        match mapEdge e.2.2 with
        | none => none
        | some k =>
          match g.addEdge s t k with
          | none => none
          | some g => connectInner ren es g

/-- fhe_circuit.rs:394-418: connect the rest of the graph. -/
def connectRest (mg : Mux.MGraph) (ren : List (Nat × Nat)) : List Nat → FGraph → Option FGraph
  | [], g => some g
  | n :: ns, g =>
    match mg.weight n with
    | some (.output _) => connectRest mg ren ns g
    | some (.variable _) => connectRest mg ren ns g
    | _ =>
      match connectInner ren (mg.outEdges n) g with
      | none => none
      | some g => connectRest mg ren ns g

/-- fhe_circuit.rs:293 and 372: `matches!(x, MuxOp::Output(_))`. -/
def isOutput : Option Mux.MuxOp → Bool
  | some (.output _) => true
  | _ => false

/-- fhe_circuit.rs:274-421 `insert_mux_circuit`. -/
def insertMuxCircuit (g : FGraph) (c : Mux.MuxCircuit) (nodes : List Nat) (mode : MuxMode) : Option (FGraph × List Nat) :=
  if c.inputs.length ≠ nodes.length then none
  else
    let nOut := (c.graph.indices.filter fun n => isOutput (c.graph.weight n)).length
    let cn := copyNodes mode c.graph c.graph.indices g []
    match connectInputs c.graph cn.2 (nodes.zip c.inputs) cn.1 with
    | none => none
    | some g1 =>
      match findOutputs c.graph cn.2 c.graph.indices (List.replicate nOut 0) with
      | none => none
      | some outs =>
        match connectRest c.graph cn.2 c.graph.indices g1 with
        | none => none
        | some g2 => some (g2, outs)

/-- fhe_circuit.rs:563-622 `insert_ciphertext_conversion`, with `fuel` bounding the recursion (`none` when it runs out;
`C15_conversion` shows 5 calls always suffice). -/
def convert : Nat → FGraph → Nat → CtType → CtType → Option (FGraph × Nat)
  | 0, _, _, _, _ => none
  | fuel + 1, g, cur, inT, outT =>
    if inT = outT then some (g, cur)
    else
      match inT with
      | .lwe0 =>
        let (g, idx) := g.addNode .circuitBootstrap
        match g.addEdge cur idx .unary with
        | none => none
        | some g => convert fuel g idx .ggsw1 outT
      | .ggsw1 =>
        if outT = .glev1 then
          let (g, idx) := g.addNode .glevCmux
          let (g, zero) := g.addNode .zeroGlev1
          let (g, one) := g.addNode .oneGlev1
          match g.addEdge zero idx .low with
          | none => none
          | some g =>
            match g.addEdge one idx .high with
            | none => none
            | some g =>
              match g.addEdge cur idx .sel with
              | none => none
              | some g => convert fuel g idx outT outT
        else
          let (g, idx) := g.addNode .multiplyGgswGlwe
          let (g, one) := g.addNode .oneGlwe1
          match g.addEdge one idx .glwe with
          | none => none
          | some g =>
            match g.addEdge cur idx .ggsw with
            | none => none
            | some g => convert fuel g idx .glwe1 outT
      | .glwe1 =>
        let (g, idx) := g.addNode (.sampleExtract 0)
        match g.addEdge cur idx .unary with
        | none => none
        | some g => convert fuel g idx .lwe1 outT
      | .lwe1 =>
        let (g, idx) := g.addNode .keyswitchL1toL0
        match g.addEdge cur idx .unary with
        | none => none
        | some g => convert fuel g idx .lwe0 outT
      | .glev1 =>
        let (g, idx) := g.addNode .schemeSwitch
        match g.addEdge cur idx .unary with
        | none => none
        | some g => convert fuel g idx .ggsw1 outT

/-! ### pruning -/

variable {N E : Type}

/-- State of the first loop of `prune` (fhe_circuit.rs:520-523). `rename` is newest first. -/
structure PState (N E : Type) where
  out : Graph N E
  queue : List Nat
  rename : List (Nat × Nat)

/-- fhe_circuit.rs:533-535 and 538-541: copy a node unless it is already renamed; `push` says whether a newly copied
node is queued. -/
def copyOnce (g : Graph N E) (push : Bool) (n : Nat) (st : PState N E) : Option (PState N E) :=
  match st.rename.lookup n with
  | some _ => some st
  | none =>
    match g.weight n with
    | none => none
    | some w =>
      let (out, id) := st.out.addNode w
      some ⟨out, if push then st.queue ++ [n] else st.queue, (n, id) :: st.rename⟩

/-- fhe_circuit.rs:537-543: the loop over the predecessors. -/
def copyPreds (g : Graph N E) : List Nat → PState N E → Option (PState N E)
  | [], st => some st
  | n :: ns, st =>
    match copyOnce g true n st with
    | none => none
    | some st => copyPreds g ns st

/-- fhe_circuit.rs:530-544: the loop over the queue; `fuel` bounds the number of iterations (`none` when exhausted). -/
def pruneLoop (g : Graph N E) : Nat → PState N E → Option (PState N E)
  | 0, st => if st.queue = [] then some st else none
  | fuel + 1, st =>
    match st.queue with
    | [] => some st
    | cur :: rest =>
      match copyOnce g false cur { st with queue := rest } with
      | none => none
      | some st =>
        match copyPreds g (g.preds cur) st with
        | none => none
        | some st => pruneLoop g fuel st

/-- fhe_circuit.rs:547-552: copy the in-edges of one node. -/
def copyIn (ren : List (Nat × Nat)) : List (Nat × Nat × E) → Graph N E → Option (Graph N E)
  | [], out => some out
  | e :: es, out =>
    match ren.lookup e.1, ren.lookup e.2.1 with
    | some s, some t =>
      match out.addEdge s t e.2.2 with
      | none => none
      | some out => copyIn ren es out
    | _, _ => none

/-- fhe_circuit.rs:546-553: the loop over the renamed nodes. (The iteration order of the `HashMap` is arbitrary; here it
is the order of the list, and nothing proved depends on it.) -/
def copyAllIn (g : Graph N E) (ren : List (Nat × Nat)) : List Nat → Graph N E → Option (Graph N E)
  | [], out => some out
  | n :: ns, out =>
    match copyIn ren (g.inEdges n) out with
    | none => none
    | some out => copyAllIn g ren ns out

/-- fhe_circuit.rs:516-556 `prune`. `order` is the iteration order of the map, a permutation of the renamed nodes. -/
def prune (g : Graph N E) (nodes : List Nat) (order : List Nat → List Nat) : Option (Graph N E × List (Nat × Nat)) :=
  match pruneLoop g (nodes.length + g.nodes.length) ⟨Graph.empty, nodes, []⟩ with
  | none => none
  | some st =>
    match copyAllIn g st.rename (order (st.rename.map (·.1))) st.out with
    | none => none
    | some out => some (out, st.rename)

end Spf.Fhe
