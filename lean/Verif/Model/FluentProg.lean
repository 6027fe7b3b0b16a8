import Verif.Model.FluentMul
/-! Straight-line programs over the fluent integers: the sequences of library calls a user writes against one
`FheCircuitCtx`. Each instruction appends one handle. -/
namespace Spf.Fluent
open Spf.Fhe

/-- A handle into the circuit with its Rust type parameters: `DynamicGenericIntGraphNodes<T, V>`
(fluent/dynamic_generic_int_graph_nodes.rs:22-29), `BitNode<T>` (fluent/bit.rs:74-80),
`PackedDynamicGenericIntGraphNode<T, V>` (fluent/packed_dynamic_generic_int_graph_node.rs:16-20). -/
inductive Handle where
  | int (s : Sign) (t : CtType) (ns : List Nat)
  | bit (t : CtType) (n : Nat)
  | packed (s : Sign) (p : Packed)

/-- One library call; operands are positions of earlier results. `x` names the program input whose ciphertexts are in the
given cells. -/
inductive Instr where
  | input (s : Sign) (t : CtType) (x : Nat) (cells : List Nat)
  | inputBit (t : CtType) (x : Nat) (cell : Nat)
  | inputPacked (s : Sign) (w : Nat) (x : Nat) (cell : Nat)
  | constBit (t : CtType) (b : Bool)
  | convert (i : Nat) (t : CtType)
  | add (i j : Nat) (mode : MuxMode)
  | sub (i j : Nat) (mode : MuxMode)
  | and (i j : Nat) (mode : MuxMode)
  | cmp (gt eq : Bool) (i j : Nat) (mode : MuxMode)
  | eq (i j : Nat) (mode : MuxMode)
  | neq (i j : Nat) (mode : MuxMode)
  | select (c i j : Nat)
  | resize (i : Nat) (w : Nat)
  | pack (i : Nat)
  | unpack (i : Nat)

/-- fluent/mod.rs `Muxable::MUX_MODE`: the kind of ciphertext a multiplexer circuit yields. -/
def outType : MuxMode → CtType
  | .glwe => .glwe1
  | .glev => .glev1

/-- A graph operation that yields an integer. -/
def liftInt (ctx : Ctx) (s : Sign) (t : CtType) : Option (FGraph × List Nat) → Option (Ctx × Handle)
  | none => none
  | some (g, ns) => some ({ ctx with circuit := g }, .int s t ns)

/-- A graph operation that yields a bit. -/
def liftBit (ctx : Ctx) (t : CtType) : Option (FGraph × Nat) → Option (Ctx × Handle)
  | none => none
  | some (g, n) => some ({ ctx with circuit := g }, .bit t n)

/-- A context operation that yields an integer. -/
def liftCtx (s : Sign) (t : CtType) : Option (Ctx × List Nat) → Option (Ctx × Handle)
  | none => none
  | some (ctx, ns) => some (ctx, .int s t ns)

/-- Bind the two integer operands of a call (`none`: the program does not type-check in Rust). -/
def withInts (hs : List Handle) (i j : Nat) (k : Sign → List Nat → List Nat → Option (Ctx × Handle)) : Option (Ctx × Handle) :=
  match hs[i]?, hs[j]? with
  | some (.int s _ a), some (.int _ _ b) => k s a b
  | _, _ => none

/-- Execute one call. The bodies are the functions of `Model.Fluent`; the `BitNode` operations are
fluent/bit.rs:51-56 (input), 148-188 (constants), 192-204 (conversion); packed inputs are
fluent/generic_int.rs:261-267 (one L1 GLWE input node). -/
def execI (lib : BddLib) (deg : Nat) (ctx : Ctx) (hs : List Handle) : Instr → Option (Ctx × Handle)
  | .input s t _ cells => liftInt ctx s t (some (graphInputs t cells ctx.circuit))
  | .inputBit t _ cell => liftBit ctx t (some (ctx.circuit.addNode (.input t cell)))
  | .inputPacked s w _ cell =>
    let (g, n) := ctx.circuit.addNode (.input .glwe1 cell)
    some ({ ctx with circuit := g }, .packed s ⟨w, n⟩)
  | .constBit t b =>
    match (if b then one t ctx else zero t ctx) with
    | none => none
    | some (ctx, n) => some (ctx, .bit t n)
  | .convert i t =>
    match hs[i]? with
    | some (.int s u ns) => liftInt ctx s t (convertAll u t ns ctx.circuit)
    | some (.bit u n) => liftBit ctx t (Fhe.convert 5 ctx.circuit n u t)
    | _ => none
  | .add i j mode => withInts hs i j fun s a b => liftInt ctx s (outType mode) (add lib a b mode ctx.circuit)
  | .sub i j mode => withInts hs i j fun s a b => liftInt ctx s (outType mode) (sub lib a b mode ctx.circuit)
  | .and i j mode => withInts hs i j fun s a b => liftInt ctx s (outType mode) (and (circuitOf lib) a b mode ctx.circuit)
  | .cmp gt e i j mode => withInts hs i j fun s a b => liftBit ctx (outType mode) (cmp lib s gt e a b mode ctx.circuit)
  | .eq i j mode => withInts hs i j fun _ a b => liftBit ctx (outType mode) (Fluent.eq lib a b mode ctx.circuit)
  | .neq i j mode => withInts hs i j fun _ a b => liftBit ctx (outType mode) (neq lib a b mode ctx.circuit)
  | .select c i j =>
    match hs[c]? with
    | some (.bit _ n) => withInts hs i j fun s a b => liftInt ctx s .glwe1 (selectBits n a b ctx.circuit)
    | _ => none
  | .resize i w =>
    match hs[i]? with
    | some (.int s t ns) => liftCtx s t (resize s t ns w ctx)
    | _ => none
  | .pack i =>
    match hs[i]? with
    | some (.int s _ ns) =>
      match pack deg ns ctx.circuit with
      | none => none
      | some (g, p) => some ({ ctx with circuit := g }, .packed s p)
    | _ => none
  | .unpack i =>
    match hs[i]? with
    | some (.packed s p) => liftInt ctx s .lwe1 (unpack p ctx.circuit)
    | _ => none

/-- Execute a program: calls in order, each appending its handle. -/
def exec (lib : BddLib) (deg : Nat) : List Instr → Ctx → List Handle → Option (Ctx × List Handle)
  | [], ctx, hs => some (ctx, hs)
  | i :: is, ctx, hs =>
    match execI lib deg ctx hs i with
    | none => none
    | some (ctx, h) => exec lib deg is ctx (hs ++ [h])

/-- The kind of ciphertext behind a handle and the nodes that `collect_outputs`/`collect_output` attach outputs to:
fluent/dynamic_generic_int_graph_nodes.rs:88-104, fluent/bit.rs:134-142,
fluent/packed_dynamic_generic_int_graph_node.rs:52-69. -/
def handleNodes : Handle → CtType × List Nat
  | .int _ t ns => (t, ns)
  | .bit t n => (t, [n])
  | .packed _ p => (.glwe1, [p.id])

/-- Collect the results at the given positions, one call after the other, into the given cells. In Rust each call allocates
its cells, one per node, and returns them; here the caller names them (`none`: the number is wrong, or there is no such
handle). -/
def collectAll (hs : List Handle) : List (Nat × List Nat) → FGraph → Option FGraph
  | [], g => some g
  | (k, cs) :: outs, g =>
    match hs[k]? with
    | none => none
    | some h =>
      if (handleNodes h).2.length = cs.length then
        match collectOutputs (handleNodes h).1 (handleNodes h).2 cs g with
        | none => none
        | some (g, _) => collectAll hs outs g
      else none

end Spf.Fluent
