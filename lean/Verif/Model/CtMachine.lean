import Verif.Model.CellMachine
import Verif.Model.CtExec
/-! The processor with ciphertexts as the contents of registers and memory (`parasol_cpu/src/proc/fhe_processor.rs`, FP below;
`parasol_cpu/src/proc/ops/*.rs`, paths below are relative to `parasol_cpu/src/proc`): an instruction on encrypted operands puts their ciphertexts into cells of its own,
runs the circuit of `Verif.Model.CellAlu` on these, and its results are the contents of the output cells. This gives an instance of the out-of-order machine of
`Verif.Model.Machine`. Everything is parametrised by the type of the contents (`Dom`); `ctDom` is the one of the processor.

Simplifications: those of `Verif.Model.Machine`; the cells shared between registers, memory and circuits (`Verif.Model.CellMachine`) are replaced by their contents, which never
change once an instruction has produced them. -/
namespace Spf.CtCpu
open Spf.Cpu Spf.Cells Spf.Fhe Spf.CtExec Spf.Tfhe

/-- mod.rs:99-105 `Register`, with the contents of its cells. -/
inductive VReg (α : Type)
  | plain (val width : Nat)
  | cts (bits : List α)

variable {α : Type}

/-- the ciphertexts of a register -/
def VReg.bits : VReg α → List α
  | .plain _ _ => []
  | .cts l => l

/-- The register as the front end sees it: the processor looks at the contents of plaintexts only. -/
def VReg.shape : VReg α → Reg
  | .plain v w => .plain v w
  | .cts l => .cipher (l.map fun _ => false)

/-- memory/mod.rs:523-536 `try_load`, as a function of the address; an encrypted byte is eight ciphertexts. -/
abbrev VView (α : Type) := Nat → Option (Byte α)

/-- ops/load.rs:42-54 -/
def loadPlains (m : VView α) : List Nat → Except Err (List (BitVec 8))
  | [] => .ok []
  | a :: as => match m a with
    | none => .error (.accessViolation a)
    | some (.cipher _) => .error .bufferNotPlaintext
    | some (.plain b) => match loadPlains m as with
      | .error e => .error e
      | .ok bs => .ok (b :: bs)

/-- ops/load.rs:61-73 -/
def loadCts (m : VView α) : List Nat → Except Err (List α)
  | [] => .ok []
  | a :: as => match m a with
    | none => .error (.accessViolation a)
    | some (.plain _) => .error .bufferNotCiphertext
    | some (.cipher b) => match loadCts m as with
      | .error e => .error e
      | .ok bs => .ok (b ++ bs)

/-- ops/load.rs:38-78 -/
def loadReg (m : VView α) (width : Nat) : List Nat → Except Err (VReg α)
  | [] => .error .panic
  | a :: as => match m a with
    | none => .error (.accessViolation a)
    | some (.plain b) => match loadPlains m as with
      | .error e => .error e
      | .ok bs => .ok (.plain (bytesVal (b :: bs)) width)
    | some (.cipher b) => match loadCts m as with
      | .error e => .error e
      | .ok bs => .ok (.cts (b ++ bs))

/-- ops/store.rs:45-56 -/
def storeByte (v : VReg α) (i : Nat) : Except Err (Byte α) :=
  match v with
  | .plain x _ => .ok (.plain (BitVec.ofNat 8 (x / 2 ^ (8 * i))))
  | .cts b => if 8 * i + 8 ≤ b.length then .ok (.cipher ((b.drop (8 * i)).take 8)) else .error .panic

/-- ops/store.rs:44-60 -/
def storeBytes (v : VReg α) : List Nat → Nat → VView α → Except Err (VView α)
  | [], _, m => .ok m
  | a :: as, i, m => match storeByte v i with
    | .error e => .error e
    | .ok b => match m a with
      | none => .error (.accessViolation a)
      | some _ => storeBytes v as (i + 1) (fun x => if x = a then some b else m x)

/-- The contents of ciphertext cells: those of the two constants (ops/mod.rs:102-116), and the result of running the circuit of a job that reads cells with the given
contents and writes the given cells (`none`: the circuit panics or fails). -/
structure Dom (α : Type) where
  zero : α
  one : α
  run : Job → List Nat → (Nat → α) → Option (List α)

/-- Cells for the ciphertexts of the operands, from `k` onwards. -/
def number : Nat → List (VReg α) → List CReg
  | _, [] => []
  | k, .plain v w :: vs => .plain v w :: number k vs
  | k, .cts l :: vs => .cells (List.range' k l.length) :: number (k + l.length) vs

/-- the number of ciphertexts of the operands -/
def total (vs : List (VReg α)) : Nat := (vs.flatMap VReg.bits).length

/-- The contents of these cells; the cells 0 and 1 hold the constants (`Cells.zeroCell`, `Cells.oneCell`). -/
def value (D : Dom α) (vs : List (VReg α)) (c : Nat) : α := (D.zero :: D.one :: vs.flatMap VReg.bits).getD c D.zero

/-- a register of cells, with their contents -/
def VReg.ofCells (val : Nat → α) : CReg → VReg α
  | .plain v w => .plain v w
  | .cells cs => .cts (cs.map val)

/-- FP:757-909 `exec_instruction`, the instructions that do not access memory. -/
def alu (D : Dom α) (i : Inst) (vs : List (VReg α)) : Except Err (List (VReg α)) :=
  match Cells.alu i (number 2 vs) with
  | .error e => .error e
  | .ok (.done rs) => .ok (rs.map (VReg.ofCells (value D vs)))
  | .ok (.spawn job rs) =>
    let fresh := total vs + 2
    let outs := List.range' fresh job.size
    match D.run job outs (value D vs) with
    | none => .error .panic
    | some os => .ok ((rs outs).map (VReg.ofCells fun c => os.getD (c - fresh) D.zero))

/-- FP:727-910 `exec_instruction`; see `Inst.exec`. -/
def exec (D : Dom α) (i : Inst) (vs : List (VReg α)) (m : VView α) : Except Err (List (VReg α) × VView α) :=
  match i.op with
  | .load => match span (vs.map VReg.shape) (i.nat 2) (i.arg 3) with
    | .error e => .error e
    | .ok l => match loadReg m (i.nat 2) l with
      | .error e => .error e
      | .ok r => .ok ([r], m)
  | .store =>
    if i.nat 0 = i.nat 1 then .error .panic
    else match span (vs.map VReg.shape) (i.nat 2) (i.arg 3) with
      | .error e => .error e
      | .ok l => match storeBytes (vs.getD 1 (.plain 0 32)) l 0 m with
        | .error e => .error e
        | .ok m' => .ok ([], m')
  | _ => match alu D i vs with
    | .error e => .error e
    | .ok o => .ok (o, m)

/-- The instruction set of the processor on such contents; addresses, gas, successor and whether an instruction runs in the background depend on plaintexts and widths
only (FP:168-307, 912-947). -/
def isa (D : Dom α) : Machine.Isa Inst (VReg α) Nat (Option (Byte α)) where
  srcs := Inst.srcs
  dsts := Inst.dsts
  dflt := .plain 0 32
  access := fun i vs => i.access (vs.map VReg.shape)
  exec := exec D
  async := fun i vs => i.async (vs.map VReg.shape)
  next := fun i pc vs => i.next pc (vs.map VReg.shape)
  gas := fun i vs => i.gas (vs.map VReg.shape)

/-- The value of node `n` of a circuit, its operands first; the fuel bounds the depth
(parasol_runtime/src/circuit_processor/mod.rs:255-546, 590-640; every schedule yields these values, see `C106_run_schedule`). -/
def evalNode {V : Type} (exec : FheOp → List (V × FheEdge) → Option V) (g : FGraph) : Nat → Nat → Option V
  | 0, _ => none
  | k + 1, n => match g.weight n with
    | none => none
    | some op => match (g.inEdges n).mapM (fun e => (evalNode exec g k e.1).map fun v => (v, e.2.2)) with
      | none => none
      | some ins => exec op ins

/-- Does node `n` write to cell `o`? (parasol_runtime/src/circuit_processor/mod.rs:518-546) -/
def isOut (g : FGraph) (o n : Nat) : Bool := decide (g.weight n = some (.output .glwe1 o))

/-- The contents a circuit writes to cell `o` (parasol_runtime/src/circuit_processor/mod.rs:518-546). -/
def evalOut {V : Type} (exec : FheOp → List (V × FheEdge) → Option V) (g : FGraph) (o : Nat) : Option V :=
  match g.indices.find? (isOut g o) with
  | none => none
  | some n => evalNode exec g g.nodes.length n

/-- parasol_cpu/src/proc/mod.rs:241-242: the trivial encryptions of zero and one the processor is created with (which panics for polynomials without coefficients; the
model then takes an all-zero ciphertext). -/
def trivialCt {W : Nat} (P : EvalParams) (b : Bool) : Ct W :=
  match trivialGlwe1 P b with
  | some c => .glwe1 c
  | none => .glwe1 (glweZero P.glweSize P.degree)

/-- Ciphertexts: a job builds its circuit and runs it on the ciphertexts with the compute key `K`
(parasol_runtime/src/circuit_processor/mod.rs:590-640). -/
def ctDom {W : Nat} (G : Gens) (P : EvalParams) (K : EvalKey W) (err : FheOp → List (Ct W × FheEdge) → OpErr W) : Dom (Ct W) where
  zero := trivialCt P false
  one := trivialCt P true
  run := fun job outs val =>
    match job.build G outs with
    | none => none
    | some g => outs.mapM (evalOut (execCt P K err fun _ c => val c) g)

end Spf.CtCpu
