import Verif.Model.Fluent
import Verif.Model.Gradeschool
/-! Model of `parasol_runtime/src/circuits/mul.rs` on circuits, and of `DynamicGenericIntGraphNodes::mul` and `and`. -/
namespace Spf.Fluent
open Spf.Fhe Spf.Mux Spf.Mul Graph

/-- Where multiplexer circuits come from: given the number of inputs and the Boolean functions of the outputs, a circuit.
In the code this is `MuxCircuit::from` of the decision diagrams, followed by `remap_inputs` and `optimize` for some
generators (mux_circuits/src/mul.rs:49-56, 583, and.rs:20) or a circuit loaded from a file (mul.rs:10-28). Its contract is
`Spec.CircLibOk`. -/
abbrev CircLib := Nat → List BddFn → Option MuxCircuit

/-- `insert_mux_circuit` of a generated circuit. -/
def insertLib (lib : CircLib) (nv : Nat) (outs : Option (List BddFn)) (inputs : List Nat) (mode : MuxMode) (g : FGraph) :
    Option (FGraph × List Nat) :=
  match outs with
  | none => none
  | some outs =>
    match lib nv outs with
    | none => none
    | some c => insertMuxCircuit g c inputs mode

/-- fluent/mod.rs `Muxable::CIPHERTEXT_TYPE`. -/
def muxType : MuxMode → CtType
  | .glwe => .glwe1
  | .glev => .glev1

/-- circuits/mul.rs:97: the longer operand (`a` after the swap). -/
def longerN (a b : List Nat) : List Nat := if a.length < b.length then b else a
/-- circuits/mul.rs:97: the shorter operand (`b` after the swap). -/
def shorterN (a b : List Nat) : List Nat := if a.length < b.length then a else b

/-- circuits/mul.rs:90-193 `mul_impl`. The third branch converts the partial products from L1 GLWE whatever the output
kind (lines 177-184). -/
def mulNodes (lib : CircLib) (mode : MuxMode) (a₀ b₀ : List Nat) (g : FGraph) : Option (FGraph × List Nat) :=
  let a := longerN a₀ b₀
  let b := shorterN a₀ b₀
  let aLoLen := (partitionInteger a.length).1
  let aHiLen := (partitionInteger a.length).2
  let bLoLen := (partitionInteger b.length).1
  let bHiLen := (partitionInteger b.length).2
  if aHiLen = 0 ∧ bHiLen = 0 then
    insertLib lib (a.length + b.length) (multiplierImpl a.length b.length) (a ++ b) mode g
  else if bHiLen = 0 then
    if _hA : a.length ≤ circuitCutoff then none   -- unreachable: then `a_hi_len` is 0
    else
    match mulNodes lib mode (a.take aLoLen) (b.take bLoLen) g with
    | none => none
    | some (g, aLobLo) =>
      match mulNodes lib mode (a.drop aLoLen) (b.take bLoLen) g with
      | none => none
      | some (g, aHibLo) =>
        let lo := aLobLo.take aLoLen
        let hi := aLobLo.drop aLoLen
        match convertAll (muxType mode) .ggsw1 (zipNodes hi (aHibLo.take aLoLen) ++ aHibLo.drop aLoLen) g with
        | none => none
        | some (g, adderInputs) =>
          match insertLib lib (bLoLen + (aHiLen + bLoLen)) (Arith.rippleCarryAdder bLoLen (aHiLen + bLoLen) false) adderInputs mode g with
          | none => none
          | some (g, sumOut) => if lo.length + sumOut.length ≠ a.length + b.length then none else some (g, lo ++ sumOut)
  else
    if _hA : a.length ≤ circuitCutoff ∨ b.length ≤ circuitCutoff then none   -- unreachable: `b_hi_len ≠ 0`
    else
    match mulNodes lib mode (a.take aLoLen) (b.take bLoLen) g with
    | none => none
    | some (g, p00) =>
      match mulNodes lib mode (a.take aLoLen) (b.drop bLoLen) g with
      | none => none
      | some (g, p01) =>
        match mulNodes lib mode (a.drop aLoLen) (b.take bLoLen) g with
        | none => none
        | some (g, p10) =>
          match mulNodes lib mode (a.drop aLoLen) (b.drop bLoLen) g with
          | none => none
          | some (g, p11) =>
            match encodeGradeschoolReduction 0 a.length b.length p00 p01 p10 p11 with
            | none => none
            | some bits =>
              match convertAll .glwe1 .ggsw1 bits g with
              | none => none
              | some (g, bits) =>
                insertLib lib (2 * (b.length + a.length)) (gradeschoolReduceImpl a.length b.length) bits mode g
termination_by a₀.length + b₀.length
decreasing_by
  all_goals
    have hsum : a.length + b.length = a₀.length + b₀.length := by
      simp only [a, b, longerN, shorterN]; split <;> omega
    have h1 : aLoLen = (a.length + 1) / 2 := by
      simp only [aLoLen, partitionInteger]; rw [if_neg (by simp only [circuitCutoff] at *; omega)]
    simp only [circuitCutoff, List.length_take, List.length_drop] at *
    simp only [a, b, aLoLen] at *
    omega

/-- circuits/mul.rs:74-84 `append_uint_multiply`. -/
def appendUint (lib : CircLib) (mode : MuxMode) (a b : List Nat) (g : FGraph) : Option (FGraph × List Nat × List Nat) :=
  match mulNodes lib mode a b g with
  | none => none
  | some (g, r) => if a.length ≤ r.length then some (g, r.take a.length, r.drop a.length) else none

/-- circuits/mul.rs:199-203 `neg`. -/
def negNodes (lib : CircLib) (a : List Nat) (g : FGraph) : Option (FGraph × List Nat) :=
  insertLib lib a.length (Arith.negator a.length) a .glwe g

/-- One `CMux` node (circuits/mul.rs:45-58, 229-232). -/
def cmuxNode (sel lo hi : Nat) (g : FGraph) : Option (FGraph × Nat) :=
  let (g, n) := g.addNode .cmux
  match g.addEdge sel n .sel with
  | none => none
  | some g =>
    match g.addEdge lo n .low with
    | none => none
    | some g =>
      match g.addEdge hi n .high with
      | none => none
      | some g => some (g, n)

/-- circuits/mul.rs:224-241: the multiplexers of `abs`. -/
def absMux (sel : Nat) : List Nat → List Nat → FGraph → Option (FGraph × List Nat)
  | f :: fs, t :: ts, g =>
    match cmuxNode sel f t g with
    | none => none
    | some (g, n) =>
      match Fhe.convert 5 g n .glwe1 .ggsw1 with
      | none => none
      | some (g, m) =>
        match absMux sel fs ts g with
        | none => none
        | some (g, ms) => some (g, m :: ms)
  | _, _, g => some (g, [])

/-- circuits/mul.rs:209-242 `abs`. -/
def absNodes (lib : CircLib) (a : List Nat) (g : FGraph) : Option (FGraph × List Nat) :=
  match convertAll .ggsw1 .glwe1 a g with
  | none => none
  | some (g, pos) =>
    match negNodes lib a g with
    | none => none
    | some (g, neg) =>
      match a.getLast? with
      | none => none
      | some sel => absMux sel pos neg g

/-- circuits/mul.rs:41-66: choose the sign of the product, bit by bit. -/
def signMux (out : CtType) (s1 s2 : Nat) : List Nat → List Nat → FGraph → Option (FGraph × List Nat)
  | p :: ps, n :: ns, g =>
    match cmuxNode s1 p n g with
    | none => none
    | some (g, m11) =>
      match cmuxNode s1 n p g with
      | none => none
      | some (g, m12) =>
        match cmuxNode s2 m11 m12 g with
        | none => none
        | some (g, m2) =>
          match Fhe.convert 5 g m2 .glwe1 out with
          | none => none
          | some (g, r) =>
            match signMux out s1 s2 ps ns g with
            | none => none
            | some (g, rs) => some (g, r :: rs)
  | _, _, g => some (g, [])

/-- circuits/mul.rs:18-71 `append_int_multiply`. -/
def appendInt (lib : CircLib) (mode : MuxMode) (a b : List Nat) (g : FGraph) : Option (FGraph × List Nat × List Nat) :=
  match absNodes lib a g with
  | none => none
  | some (g, absA) =>
    match absNodes lib b g with
    | none => none
    | some (g, absB) =>
      match mulNodes lib .glwe absA absB g with
      | none => none
      | some (g, pos) =>
        match convertAll .glwe1 .ggsw1 pos g with
        | none => none
        | some (g, posG) =>
          match negNodes lib posG g with
          | none => none
          | some (g, neg) =>
            match a.getLast?, b.getLast? with
            | some s1, some s2 =>
              match signMux (muxType mode) s1 s2 pos neg g with
              | none => none
              | some (g, r) => if a.length ≤ r.length then some (g, r.take a.length, r.drop a.length) else none
            | _, _ => none

/-- fluent/uint.rs:42-48 and int.rs:59-65 `append_multiply`. -/
def appendMultiply (lib : CircLib) : Sign → MuxMode → List Nat → List Nat → FGraph → Option (FGraph × List Nat × List Nat)
  | .unsigned => appendUint lib
  | .signed => appendInt lib

/-- an output node without consumers (fluent/dynamic_generic_int_graph_nodes.rs:487-506) -/
def isSinkOutput (g : FGraph) (n : Nat) : Bool :=
  match g.weight n with
  | some (.output _ _) => (g.succs n).isEmpty
  | _ => false

/-- `rename.get(&x).unwrap()` for a list of nodes. -/
def renameAll (ren : List (Nat × Nat)) : List Nat → Option (List Nat)
  | [] => some []
  | n :: ns =>
    match ren.lookup n, renameAll ren ns with
    | some m, some ms => some (m :: ms)
    | _, _ => none

/-- fluent/dynamic_generic_int_graph_nodes.rs:476-521 `mul`: the circuit is pruned to the low half of the product and the
outputs collected so far, and renumbered. The cached constants are not renamed. `order` is the iteration order of the
hash map in `prune`. -/
def mul (lib : CircLib) (sign : Sign) (mode : MuxMode) (order : List Nat → List Nat) (a b : List Nat) (ctx : Ctx) :
    Option (Ctx × List Nat) :=
  let existing := ctx.circuit.indices.filter (isSinkOutput ctx.circuit)
  match appendMultiply lib sign mode a b ctx.circuit with
  | none => none
  | some (g, lo, _) =>
    match prune g (lo ++ existing) order with
    | none => none
    | some (pruned, ren) =>
      match renameAll ren lo with
      | none => none
      | some lo => some ({ ctx with circuit := pruned }, lo)

/-- fluent/dynamic_generic_int_graph_nodes.rs:412-437 `and` (`n as u16`: widths up to 65535). -/
def and (lib : CircLib) (a b : List Nat) (mode : MuxMode) (g : FGraph) : Option (FGraph × List Nat) :=
  let n := a.length
  match insertLib lib (2 * (n % 65536)) (Arith.makeAndCircuit (n % 65536)) (zipNodes a b) mode g with
  | none => none
  | some (g, r) => some (g, r.take n)

end Spf.Fluent
