import Verif.Model.FheGraph
import Verif.Model.Arith
import Verif.Model.PlainInt
/-! Model of `parasol_runtime/src/fluent`: building FHE circuits from encrypted integers. `none` = panic. A `BitNode` is
the index of its node; its ciphertext type (the Rust type parameter) is an argument of the functions that use it. -/
namespace Spf.Fluent
open Spf.Fhe Spf.Mux Graph

/-- The decision-diagram library (`biodivine_lib_bdd`): the serialized diagram of a Boolean function over the given
number of variables. Its contract is `Spec.BddLibOk`. -/
structure BddLib where
  nodes : Nat → BddFn → List BddNode

/-- mux_circuits/src/add.rs:54 (and the last line of every generator) `MuxCircuit::from(out.as_slice())`. -/
def circuitOf (lib : BddLib) (nv : Nat) (outs : List BddFn) : Option MuxCircuit := fromBdds (outs.map (lib.nodes nv))

/-- mux_circuits/src/and.rs:17-22 (also or.rs:17-22, bitshift.rs:155-158): `MuxCircuit::from` followed by `optimize`. -/
def optCircuitOf (lib : BddLib) (nv : Nat) (outs : List BddFn) : Option MuxCircuit := (circuitOf lib nv outs).bind optimize

/-- fluent/mod.rs:50-56 `FheCircuitCtx`: the circuit and the cached constants (arrays of length 4; the bump allocator is
not modelled). -/
structure Ctx where
  circuit : FGraph
  oneCache : List (Option Nat)
  zeroCache : List (Option Nat)

/-- fluent/mod.rs:64-73 `FheCircuitCtx::new`. -/
def Ctx.new : Ctx := ⟨Graph.empty, [none, none, none, none], [none, none, none, none]⟩

/-- crypto/ciphertext.rs:8-23 the discriminants of `CiphertextType`, used as cache indices. -/
def typeIndex : CtType → Nat
  | .lwe0 => 0 | .lwe1 => 1 | .glwe1 => 2 | .ggsw1 => 3 | .glev1 => 4

/-- fluent/mod.rs:185, 224, 263, 308, 347 `graph_trivial_one` (`unimplemented!()` for L1 LWE). -/
def trivialOne : CtType → Option FheOp
  | .lwe0 => some .oneLwe0 | .lwe1 => none | .ggsw1 => some .oneGgsw1 | .glwe1 => some .oneGlwe1 | .glev1 => some .oneGlev1

/-- fluent/mod.rs:189, 228, 267, 312, 343 `graph_trivial_zero`. -/
def trivialZero : CtType → Option FheOp
  | .lwe0 => some .zeroLwe0 | .lwe1 => none | .ggsw1 => some .zeroGgsw1 | .glwe1 => some .zeroGlwe1 | .glev1 => some .zeroGlev1

/-- fluent/bit.rs:148-165 `BitNode::one`: indexing the cache out of bounds panics. -/
def one (t : CtType) (ctx : Ctx) : Option (Ctx × Nat) :=
  match ctx.oneCache[typeIndex t]? with
  | none => none
  | some (some n) => some (ctx, n)
  | some none =>
    match trivialOne t with
    | none => none
    | some op =>
      let (g, n) := ctx.circuit.addNode op
      some ({ ctx with circuit := g, oneCache := ctx.oneCache.set (typeIndex t) (some n) }, n)

/-- fluent/bit.rs:171-188 `BitNode::zero`. -/
def zero (t : CtType) (ctx : Ctx) : Option (Ctx × Nat) :=
  match ctx.zeroCache[typeIndex t]? with
  | none => none
  | some (some n) => some (ctx, n)
  | some none =>
    match trivialZero t with
    | none => none
    | some op =>
      let (g, n) := ctx.circuit.addNode op
      some ({ ctx with circuit := g, zeroCache := ctx.zeroCache.set (typeIndex t) (some n) }, n)

/-- fluent/dynamic_generic_int.rs:96-106 `graph_inputs` (and bit.rs:51-56, generic_int.rs:261-267): one input node per
ciphertext cell, from least to most significant. -/
def graphInputs (t : CtType) : List Nat → FGraph → FGraph × List Nat
  | [], g => (g, [])
  | c :: cs, g =>
    let (g, n) := g.addNode (.input t c)
    let (g, ns) := graphInputs t cs g
    (g, n :: ns)

/-- fluent/dynamic_generic_int_graph_nodes.rs:67-74 `convert`, with bit.rs:192-204. -/
def convertAll (inT outT : CtType) : List Nat → FGraph → Option (FGraph × List Nat)
  | [], g => some (g, [])
  | n :: ns, g =>
    match Fhe.convert 5 g n inT outT with
    | none => none
    | some (g, m) =>
      match convertAll inT outT ns g with
      | none => none
      | some (g, ms) => some (g, m :: ms)

/-- fluent/dynamic_generic_int_graph_nodes.rs:89-104 `collect_outputs` (and bit.rs:134-142,
packed_dynamic_generic_int_graph_node.rs:52-69): one output node per bit, writing the freshly allocated cells `cells`. -/
def collectOutputs (t : CtType) : List Nat → List Nat → FGraph → Option (FGraph × List Nat)
  | n :: ns, c :: cs, g =>
    let (g, o) := g.addNode (.output t c)
    match g.addEdge n o .unary with
    | none => none
    | some g =>
      match collectOutputs t ns cs g with
      | none => none
      | some (g, os) => some (g, o :: os)
  | _, _, g => some (g, [])

/-- fluent/dynamic_generic_int_graph_nodes.rs:107-130 `resize`. -/
def resize (sign : Sign) (t : CtType) (bits : List Nat) (new : Nat) (ctx : Ctx) : Option (Ctx × List Nat) :=
  match resizeConfig sign bits.length new with
  | none => none
  | some (minLen, extend, useMsb) =>
    if useMsb then
      match bits.getLast? with
      | none => none
      | some b => some (ctx, bits.take minLen ++ List.replicate extend b)
    else
      match zero t ctx with
      | none => none
      | some (ctx, b) => some (ctx, bits.take minLen ++ List.replicate extend b)

/-- `usize::next_power_of_two` (fluent/dynamic_generic_int_graph_nodes.rs:149). -/
def nextPowerOfTwo (n : Nat) : Nat := if n ≤ 1 then 1 else 2 ^ (Nat.log2 (n - 1) + 1)

/-- fluent/dynamic_generic_int_graph_nodes.rs:154-170: multiply bit `i` by `X^i`. -/
def shiftBits : Nat → List Nat → FGraph → Option (FGraph × List Nat)
  | _, [], g => some (g, [])
  | i, n :: ns, g =>
    if i > 0 then
      let (g, rot) := g.addNode (.mulXN i)
      match g.addEdge n rot .unary with
      | none => none
      | some g =>
        match shiftBits (i + 1) ns g with
        | none => none
        | some (g, ms) => some (g, rot :: ms)
    else
      match shiftBits (i + 1) ns g with
      | none => none
      | some (g, ms) => some (g, n :: ms)

/-- fluent/dynamic_generic_int_graph_nodes.rs:178-193: one level of the tree (`chunks(2)`). -/
def addPairs : List Nat → FGraph → Option (FGraph × List Nat)
  | x :: y :: rest, g =>
    let (g, add) := g.addNode .glweAdd
    match g.addEdge x add .left with
    | none => none
    | some g =>
      match g.addEdge y add .right with
      | none => none
      | some g =>
        match addPairs rest g with
        | none => none
        | some (g, ns) => some (g, add :: ns)
  | ns, g => some (g, ns)

/-- fluent/dynamic_generic_int_graph_nodes.rs:175-196: the tree reduction, `k` rounds. -/
def addTree : Nat → List Nat → FGraph → Option (FGraph × List Nat)
  | 0, ns, g => some (g, ns)
  | k + 1, ns, g =>
    if ns.length > 1 then
      match addPairs ns g with
      | none => none
      | some (g, ns) => addTree k ns g
    else none

/-- A packed integer in a circuit (fluent/packed_dynamic_generic_int_graph_node.rs:16-20). -/
structure Packed where
  bitLen : Nat
  id : Nat

/-- fluent/dynamic_generic_int_graph_nodes.rs:139-205 `pack`; `deg` is the L1 polynomial degree. (`n as u32` does not
truncate since `n` is at most the degree.) -/
def pack (deg : Nat) (bits : List Nat) (g : FGraph) : Option (FGraph × Packed) :=
  let n := bits.length
  if n ≤ deg then
    if n > 0 then
      let logN := Nat.log2 (nextPowerOfTwo n)
      match shiftBits 0 bits g with
      | none => none
      | some (g, shifted) =>
        match addTree logN shifted g with
        | none => none
        | some (g, [id]) => some (g, ⟨n, id⟩)
        | some _ => none
    else none
  else none

/-- fluent/packed_dynamic_generic_int_graph_node.rs:24-37 `unpack`, bits `i, …` onwards. -/
def unpackFrom (id : Nat) : Nat → Nat → FGraph → Option (FGraph × List Nat)
  | 0, _, g => some (g, [])
  | k + 1, i, g =>
    let (g, se) := g.addNode (.sampleExtract i)
    match g.addEdge id se .unary with
    | none => none
    | some g =>
      match unpackFrom id k (i + 1) g with
      | none => none
      | some (g, ns) => some (g, se :: ns)

/-- fluent/packed_dynamic_generic_int_graph_node.rs:24-37 `unpack`. -/
def unpack (p : Packed) (g : FGraph) : Option (FGraph × List Nat) := unpackFrom p.id p.bitLen 0 g

/-- fluent/generic_int.rs:231-242 `PackedDynamicGenericInt::encode` on the bits of the value (`to_bits`, see
`Model.PlainInt`): the coefficients of the plaintext polynomial. -/
def packedEncode (deg : Nat) (bits : List Bool) : Option (List Bool) :=
  if bits.length < deg then some ((bits ++ List.replicate deg false).take deg) else none

/-- fluent/generic_int.rs:245-258 `PackedDynamicGenericInt::decrypt`: the bits read from the coefficients of the decrypted
polynomial (given to `from_bits`, see `Model.PlainInt`). -/
def packedDecode (deg bitLen : Nat) (coeffs : List Bool) : Option (List Bool) :=
  if bitLen < deg then some (coeffs.take bitLen) else none

/-- `.zip(..).flat_map(|(a, b)| [a.node, b.node])` (fluent/dynamic_generic_int_graph_nodes.rs:225-228, 389-394). -/
def zipNodes (a b : List Nat) : List Nat := (a.zip b).flatMap fun p => [p.1, p.2]

/-- fluent/dynamic_generic_int_graph_nodes.rs:224-231 (263-270, 302-309): interleave the operands, padding the shorter
with `zero`. -/
def interleavePadded (a b : List Nat) (zero : Nat) : List Nat :=
  zipNodes a b ++ ((a.drop b.length).flatMap fun x => [x, zero]) ++ ((b.drop a.length).flatMap fun x => [zero, x])

/-- `insert_mux_circuit` on a generated circuit (`none` when the generator panics). -/
def insertGen (lib : BddLib) (nv : Nat) (outs : Option (List BddFn)) (inputs : List Nat) (mode : MuxMode) (g : FGraph) :
    Option (FGraph × List Nat) :=
  match outs with
  | none => none
  | some outs =>
    match circuitOf lib nv outs with
    | none => none
    | some c => insertMuxCircuit g c inputs mode

/-- fluent/uint.rs:38-40 and int.rs:55-57 `gen_compare_circuit`. -/
def genCompare : Sign → Nat → Bool → Bool → Option (List BddFn)
  | .unsigned, n, gt, eq => Arith.compareOrMaybeEqual n gt eq
  | .signed, n, gt, eq => Arith.compareOrMaybeEqualSigned n gt eq

/-- Insert a one-output comparison circuit on padded operands (`cmp_result[0]`). -/
def insertCmp (lib : BddLib) (gen : Nat → Option (List BddFn)) (a b : List Nat) (mode : MuxMode) (g : FGraph) :
    Option (FGraph × Nat) :=
  let maxLen := max b.length a.length
  match gen maxLen with
  | none => none
  | some outs =>
    let (g, zero) := g.addNode .zeroGgsw1
    match insertGen lib (2 * maxLen) (some outs) (interleavePadded a b zero) mode g with
    | none => none
    | some (g, r) =>
      match r[0]? with
      | none => none
      | some n => some (g, n)

/-- fluent/dynamic_generic_int_graph_nodes.rs:209-243 `cmp` (`gt`, `ge`, `lt`, `le` at 328-373 fix the flags). -/
def cmp (lib : BddLib) (sign : Sign) (gt eq : Bool) (a b : List Nat) (mode : MuxMode) (g : FGraph) : Option (FGraph × Nat) :=
  insertCmp lib (fun n => genCompare sign n gt eq) a b mode g

/-- fluent/dynamic_generic_int_graph_nodes.rs:250-282 `eq`. -/
def eq (lib : BddLib) (a b : List Nat) (mode : MuxMode) (g : FGraph) : Option (FGraph × Nat) :=
  insertCmp lib Arith.compareEqual a b mode g

/-- fluent/dynamic_generic_int_graph_nodes.rs:289-321 `neq`. -/
def neq (lib : BddLib) (a b : List Nat) (mode : MuxMode) (g : FGraph) : Option (FGraph × Nat) :=
  insertCmp lib Arith.compareNotEqual a b mode g

/-- fluent/dynamic_generic_int_graph_nodes.rs:444-469 `add`. -/
def add (lib : BddLib) (a b : List Nat) (mode : MuxMode) (g : FGraph) : Option (FGraph × List Nat) :=
  let n := a.length
  match insertGen lib (n + n) (Arith.rippleCarryAdder n n false) (zipNodes a b) mode g with
  | none => none
  | some (g, r) => some (g, r.take n)

/-- fluent/dynamic_generic_int_graph_nodes.rs:380-405 `sub`. -/
def sub (lib : BddLib) (a b : List Nat) (mode : MuxMode) (g : FGraph) : Option (FGraph × List Nat) :=
  let n := a.length
  match insertGen lib (2 * n) (Arith.fullSubtractor n false) (zipNodes a b) mode g with
  | none => none
  | some (g, r) => some (g, r.take n)

/-- fluent/bit.rs:103-118 `select`: one `CMux` per bit. -/
def selectBits (sel : Nat) : List Nat → List Nat → FGraph → Option (FGraph × List Nat)
  | t :: ts, f :: fs, g =>
    let (g, mux) := g.addNode .cmux
    match g.addEdge f mux .low with
    | none => none
    | some g =>
      match g.addEdge t mux .high with
      | none => none
      | some g =>
        match g.addEdge sel mux .sel with
        | none => none
        | some g =>
          match selectBits sel ts fs g with
          | none => none
          | some (g, ns) => some (g, mux :: ns)
  | _, _, g => some (g, [])

end Spf.Fluent
