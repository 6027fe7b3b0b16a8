import Verif.Model.Exec
import Verif.Model.Fluent
import Verif.Model.FluentMul
/-! The instructions of the processor on ciphertexts: registers and memory hold references to ciphertext cells, and an instruction on
encrypted operands spawns a circuit on these cells (`parasol_cpu/src/proc/ops/*.rs`; paths below are relative to
`parasol_cpu/src/proc`). -/
namespace Spf.Cells
open Spf.Cpu Spf.Fhe Spf.Fluent Spf.Mux Graph

/-- mod.rs:99-105 `Register`: a ciphertext register is a list of shared cells (`Arc<AtomicRefCell<L1GlweCiphertext>>`), least
significant bit first. A cell is named by its number. -/
inductive CReg
  | plain (val width : Nat)
  | cells (cs : List Nat)
  deriving Repr, DecidableEq

/-- mod.rs:123-128 `Register::width`. -/
def CReg.width : CReg → Nat
  | .plain _ w => w
  | .cells cs => cs.length

/-- mod.rs:170-174 `Register::default`. -/
def CReg.default : CReg := .plain 0 32

/-- The cells that hold the trivial encryptions of zero and one. In Rust (ops/mod.rs:102-116) every use of a constant clones the ciphertext
into a new cell; since instructions write only cells allocated for their results, one cell for each does. -/
def zeroCell : Nat := 0
/-- see `zeroCell` -/
def oneCell : Nat := 1

/-- ops/mod.rs:102-116 `trivially_encrypt_value_l1glwe`, one bit. -/
def bitCell (b : Bool) : Nat := if b then oneCell else zeroCell

/-- mod.rs:203-223 `register_to_l1glwe_by_trivial_lift` with ops/mod.rs:102-116. -/
def lift : CReg → List Nat
  | .plain v w => (valueBits v w).map bitCell
  | .cells cs => cs

/-- What an instruction asks the circuit processor to compute, on input cells: a generated circuit (`opt`: the generator optimises it), or
one operator per bit. -/
inductive Job
  | circuit (opt : Bool) (fs : List BddFn) (ins : List Nat)
  | xor (a b : List Nat)
  | not (a : List Nat)
  | cmux (sel : Nat) (a b : List Nat)
  | mul (a b : List Nat)

/-- Where circuits come from, and the iteration order of the hash map in `prune` (parasol_runtime/src/fhe_circuit.rs): decision diagrams, the
circuits multiplication is built from. -/
structure Gens where
  lib : BddLib
  circ : CircLib
  order : List Nat → List Nat

/-- The number of ciphertexts the circuit produces: one per output of a generated circuit (parasol_runtime/src/fhe_circuit.rs:430-433),
one per bit (ops/xor.rs:65-67, ops/not.rs:38-40, ops/cmux.rs:129-131, ops/mul.rs:91-93). -/
def Job.size : Job → Nat
  | .circuit _ fs _ => fs.length
  | .xor a _ => a.length
  | .not a => a.length
  | .cmux _ a _ => a.length
  | .mul a _ => a.length

/-- The cells a job reads. -/
def Job.ins : Job → List Nat
  | .circuit _ _ ins => ins
  | .xor a b => a ++ b
  | .not a => a
  | .cmux s a b => s :: (a ++ b)
  | .mul a b => a ++ b

/-- parasol_runtime/src/fhe_circuit.rs:473-480 (also ops/and.rs:71-81, ops/cmux.rs:105-118, and ops/mod.rs:75-85 with the conversion of
parasol_runtime/src/fhe_circuit.rs:563-622, which comes to the same: `bootInput_convert`): one input cell, extracted, switched to level 0
and bootstrapped. -/
def bootInput (c : Nat) (g : FGraph) : Option (FGraph × Nat) :=
  let (g, i) := g.addNode (.input .glwe1 c)
  let (g, se) := g.addNode (.sampleExtract 0)
  match g.addEdge i se .unary with
  | none => none
  | some g =>
    let (g, ks) := g.addNode .keyswitchL1toL0
    match g.addEdge se ks .unary with
    | none => none
    | some g =>
      let (g, cbs) := g.addNode .circuitBootstrap
      match g.addEdge ks cbs .unary with
      | none => none
      | some g => some (g, cbs)

/-- parasol_runtime/src/fhe_circuit.rs:470-483, ops/and.rs:71-81. -/
def bootInputs : List Nat → FGraph → Option (FGraph × List Nat)
  | [], g => some (g, [])
  | c :: cs, g =>
    match bootInput c g with
    | none => none
    | some (g, n) =>
      match bootInputs cs g with
      | none => none
      | some (g, ns) => some (g, n :: ns)

/-- The per-bit loops of ops/xor.rs:69-77, ops/not.rs:42-48, ops/cmux.rs:133-147: `step` adds the nodes for a bit, whose result goes to an
output node. -/
def perBit {α : Type} (step : α → FGraph → Option (FGraph × Nat)) : List α → List Nat → FGraph → Option FGraph
  | x :: xs, o :: os, g =>
    match step x g with
    | none => none
    | some (g, n) =>
      let (g, out) := g.addNode (.output .glwe1 o)
      match g.addEdge n out .unary with
      | none => none
      | some g => perBit step xs os g
  | _, _, g => some g

/-- ops/xor.rs:70-74 -/
def xorBit (p : Nat × Nat) (g : FGraph) : Option (FGraph × Nat) :=
  let (g, a) := g.addNode (.input .glwe1 p.1)
  let (g, b) := g.addNode (.input .glwe1 p.2)
  let (g, x) := g.addNode .glweAdd
  match g.addEdge a x .left with
  | none => none
  | some g =>
    match g.addEdge b x .right with
    | none => none
    | some g => some (g, x)

/-- ops/not.rs:43-45 -/
def notBit (c : Nat) (g : FGraph) : Option (FGraph × Nat) :=
  let (g, a) := g.addNode (.input .glwe1 c)
  let (g, x) := g.addNode .not
  match g.addEdge a x .unary with
  | none => none
  | some g => some (g, x)

/-- ops/cmux.rs:134-143 -/
def cmuxBit (sel : Nat) (p : Nat × Nat) (g : FGraph) : Option (FGraph × Nat) :=
  let (g, a) := g.addNode (.input .glwe1 p.1)
  let (g, b) := g.addNode (.input .glwe1 p.2)
  let (g, x) := g.addNode .cmux
  match g.addEdge sel x .sel with
  | none => none
  | some g =>
    match g.addEdge a x .high with
    | none => none
    | some g =>
      match g.addEdge b x .low with
      | none => none
      | some g => some (g, x)

/-- The circuit of a job, with results in the cells `outs`. For generated circuits parasol_runtime/src/fhe_circuit.rs:424-483, for
products ops/mul.rs:77-113 (the circuit is pruned to the low half); `none`: panic. -/
def Job.build (G : Gens) : Job → List Nat → Option FGraph
  | .circuit opt fs ins, outs =>
    match (if opt then optCircuitOf G.lib ins.length fs else circuitOf G.lib ins.length fs) with
    | none => none
    | some mc =>
      match bootInputs ins Graph.empty with
      | none => none
      | some (g, ns) =>
        match insertMuxCircuit g mc ns .glwe with
        | none => none
        | some (g, rs) =>
          match collectOutputs .glwe1 rs outs g with
          | none => none
          | some (g, _) => some g
  | .xor a b, outs => perBit xorBit (a.zip b) outs Graph.empty
  | .not a, outs => perBit notBit a outs Graph.empty
  | .cmux s a b, outs =>
    match bootInput s Graph.empty with
    | none => none
    | some (g, sel) => perBit (cmuxBit sel) (a.zip b) outs g
  | .mul a b, outs =>
    match bootInputs a Graph.empty with
    | none => none
    | some (g, as) =>
      match bootInputs b g with
      | none => none
      | some (g, bs) =>
        match appendUint G.circ .glwe as bs g with
        | none => none
        | some (g, lo, _) =>
          match collectOutputs .glwe1 lo outs g with
          | none => none
          | some (g, os) =>
            match prune g os G.order with
            | none => none
            | some (g, _) => some g

/-- What an instruction does: results at once, or a job whose results go to newly allocated cells (`fresh` onwards) and the results made of
these. -/
inductive Act
  | done (rs : List CReg)
  | spawn (job : Job) (rs : List Nat → List CReg)

/-- Spawning a generated circuit: a panicking generator panics, as does a circuit with another number of inputs
(parasol_runtime/src/fhe_circuit.rs:283). -/
def circuitJob (opt : Bool) (gen : Option (List BddFn)) (arity : Nat) (ins : List Nat) (rs : List Nat → List CReg) : Except Err Act :=
  match gen with
  | none => .error .panic
  | some fs => if arity ≠ ins.length then .error .panic else .ok (.spawn (.circuit opt fs ins) rs)

/-- mod.rs:179-201 `check_register_width`. -/
def checkWidth (a b : CReg) : Except Err Unit :=
  if a.width ≠ b.width then .error .widthMismatch
  else if a.width < 1 ∨ a.width > 128 then .error .unsupportedWidth
  else .ok ()

/-- an instruction on plaintexts, as in `Cpu` -/
def onPlain (r : Except Err (List Reg)) : Except Err Act :=
  match r with
  | .error e => .error e
  | .ok rs => .ok (.done (rs.map fun
    | .plain v w => .plain v w
    | .cipher _ => .cells []))

/-- ops/{add,sub,and,or,xor,comparisons}.rs: the generated circuit of a two-operand instruction and whether the generator optimises it;
see `Cpu.add` and the following. -/
def binGen (w : Nat) : Bin → Option (Bool × Option (List BddFn))
  | .add => some (false, Arith.rippleCarryAdder w w false)
  | .sub => some (false, Arith.fullSubtractor w false)
  | .and => some (true, Arith.makeAndCircuit w)
  | .or => some (true, Arith.makeOrCircuit w)
  | .cmp c => some (false, c.circuit w)
  | .xor | .mul => none

/-- the results of a two-operand instruction: additions and subtractions drop the carry (ops/add.rs:71-74, ops/sub.rs:71-74) -/
def binRes : Bin → List Nat → List CReg
  | .add, os | .sub, os => [.cells os.dropLast]
  | _, os => [.cells os]

/-- ops/mul.rs:49-67: an encrypted operand comes first; building the circuit panics for some widths (parasol_runtime/src/circuits/mul.rs:90-193; whether
it does depends on the widths only). -/
def mul (a b : CReg) : Except Err Act :=
  match Mul.appendUintMultiply (List.replicate a.width false) (List.replicate a.width false) with
  | none => .error .panic
  | some _ =>
    match a with
    | .cells cs => .ok (.spawn (.mul cs (lift b)) fun os => [.cells os])
    | .plain _ _ => .ok (.spawn (.mul (lift b) (lift a)) fun os => [.cells os])

/-- ops/{add,sub,and,or,xor,mul,comparisons}.rs, see `Cpu.execBin`. -/
def bin (f : Bin) (a b : CReg) : Except Err Act := do
  checkWidth a b
  match a, b with
  | .plain x w, .plain y w' => onPlain (Cpu.one (execBin f (.plain x w) (.plain y w')))
  | _, _ =>
    match f with
    | .mul => mul a b
    | .xor => .ok (.spawn (.xor (lift a) (lift b)) fun os => [.cells os])
    | f =>
      match binGen a.width f with
      | none => .error .panic
      | some (opt, gen) => circuitJob opt gen (2 * a.width) (zipNodes (lift a) (lift b)) (binRes f)

/-- ops/add.rs:82-175 `add_carry` and ops/sub.rs:84-177 `sub_borrow`. -/
def carry (sub : Bool) (a b c : CReg) : Except Err Act := do
  checkWidth a b
  if c.width ≠ 1 then .error .widthMismatch
  else
    match a, b, c with
    | .plain x w, .plain y w', .plain z w'' =>
      onPlain (Cpu.two (if sub then subB (.plain x w) (.plain y w') (.plain z w'') else addC (.plain x w) (.plain y w') (.plain z w'')))
    | _, _, _ =>
      circuitJob false (if sub then Arith.fullSubtractor a.width true else Arith.rippleCarryAdder a.width a.width true) (2 * a.width + 1)
        (lift c ++ zipNodes (lift a) (lift b)) fun os => [.cells os.dropLast, .cells [os.getLastD zeroCell]]

/-- ops/not.rs:15-71 `not`. -/
def not : CReg → Except Err Act
  | .plain x w => onPlain (Cpu.one (Cpu.not (.plain x w)))
  | .cells cs => .ok (.spawn (.not cs) fun os => [.cells os])

/-- ops/neg.rs:10-53 `neg`. -/
def neg : CReg → Except Err Act
  | .plain x w => onPlain (Cpu.one (Cpu.neg (.plain x w)))
  | .cells _ => .error .panic

/-- ops/bitshift.rs:67-87 -/
def fillVacated (dir : Shift.Dir) (fill : Nat) : Nat → List Nat → List Nat
  | 0, l => l
  | k + 1, l =>
    let l := fillVacated dir fill k l
    match dir with
    | .left => l.set k fill
    | .right => l.set (l.length - k - 1) fill

/-- ops/bitshift.rs:50-88 `encrypted_value_plain_shift`: cells are moved, nothing is computed. -/
def plainShift (c : List Nat) (shift : Nat) (dir : Shift.Dir) (mode : Shift.Mode) : Except Err (List Nat) :=
  match c.getLast? with
  | none => .error .panic
  | some oldMsb =>
    if c.length < shift then .error .panic
    else
      let r := match dir with
        | .left => Shift.rotR shift c
        | .right => Shift.rotL shift c
      match mode with
      | .logical => .ok (fillVacated dir zeroCell shift r)
      | .rotation => .ok r
      | .arithmetic => if dir = .right then .ok (fillVacated .right oldMsb shift r) else .error .panic

/-- ops/bitshift.rs:101-189 `shift_operation`. -/
def shift (s : Sh) (a sh : CReg) : Except Err Act :=
  match a, sh with
  | .plain v w, .plain n w' => onPlain (Cpu.one (shiftOp s (.plain v w) (.plain n w')))
  | .cells c, .plain n _ =>
    match plainShift c (n % 2 ^ 32) s.dir s.mode with
    | .error e => .error e
    | .ok r => .ok (.done [.cells r])
  | a, .cells cs =>
    circuitJob true (Shift.bitshift (lift a).length cs.length s.dir s.mode) ((lift a).length + cs.length) ((lift a).reverse ++ cs.reverse)
      fun os => [.cells os.reverse]

/-- ops/casting.rs:56-131 `ext`. -/
def ext (signed : Bool) (src : CReg) (new : Nat) : Except Err Act :=
  match src with
  | .plain v w => onPlain (Cpu.one (Cpu.ext signed (.plain v w) new))
  | .cells cs =>
    if new < cs.length then .error .widthMismatch
    else if signed then
      match cs.getLast? with
      | none => .error .panic
      | some msb => .ok (.done [.cells (cs ++ List.replicate (new - cs.length) msb)])
    else .ok (.done [.cells (cs ++ List.replicate (new - cs.length) zeroCell)])

/-- ops/casting.rs:135-186 `trunc`. -/
def trunc (src : CReg) (new : Nat) : Except Err Act :=
  match src with
  | .plain v w => onPlain (Cpu.one (Cpu.trunc (.plain v w) new))
  | .cells cs => if new > cs.length then .error .widthMismatch else .ok (.done [.cells (cs.take new)])

/-- ops/cmux.rs:19-165 `cmux`. -/
def cmux (sel a b : CReg) : Except Err Act := do
  checkWidth a b
  if sel.width ≠ 1 then .error .widthMismatch
  else
    match sel with
    | .plain s _ =>
      match a, b with
      | .plain x _, .plain y _ => return .done [.plain (if s ≠ 0 then x else y) a.width]
      | _, _ => return .done [.cells (if s ≠ 0 then lift a else lift b)]
    | .cells s => return .spawn (.cmux (s.getD 0 zeroCell) (lift a) (lift b)) fun os => [.cells os]

/-- fhe_processor.rs:757-909 `exec_instruction`, all instructions that do not access memory; see `Inst.alu`. -/
def alu (i : Inst) (vs : List CReg) : Except Err Act :=
  match i.op, vs with
  | .loadI, [] => onPlain (Cpu.one (loadi (i.nat 1) (i.nat 2)))
  | .trunc, [v] => trunc v (i.nat 2)
  | .zext, [v] => ext false v (i.nat 2)
  | .sext, [v] => ext true v (i.nat 2)
  | .move, [v] => .ok (.done [v])
  | .not, [v] => not v
  | .neg, [v] => neg v
  | .addC, [a, b, c] => carry false a b c
  | .subB, [a, b, c] => carry true a b c
  | .cmux, [s, a, b] => cmux s a b
  | .branchNonZero, _ | .branchZero, _ | .branch, _ | .ret, _ | .dbg, _ => .ok (.done [])
  | op, [a, b] => match op.bin? with
    | some f => bin f a b
    | none => match op.sh? with
      | some s => shift s a b
      | none => .error .panic
  | _, _ => .error .panic

end Spf.Cells
