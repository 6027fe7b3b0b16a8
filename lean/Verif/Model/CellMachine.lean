import Verif.Model.CellAlu
/-! A program on ciphertexts, one instruction at a time: registers and memory hold references to ciphertext cells, an instruction on
encrypted operands runs a circuit that writes newly allocated cells (`parasol_cpu/src/proc/fhe_processor.rs`, FP below;
`parasol_cpu/src/proc/ops`). That the processor, which overlaps instructions, has the effect of program order is C38; on ciphertexts, C106. -/
namespace Spf.Cells
open Spf.Cpu

/-- memory/mod.rs:523-536 `try_load`, as a function of the address; an encrypted byte is eight shared cells. -/
abbrev CView := Nat → Option (Byte Nat)

/-- The register as the front end sees it: the processor looks at the contents of plaintexts only. -/
def CReg.shape : CReg → Reg
  | .plain v w => .plain v w
  | .cells cs => .cipher (cs.map fun _ => false)

/-- ops/load.rs:42-54 -/
def loadPlains (m : CView) : List Nat → Except Err (List (BitVec 8))
  | [] => .ok []
  | a :: as => match m a with
    | none => .error (.accessViolation a)
    | some (.cipher _) => .error .bufferNotPlaintext
    | some (.plain b) => match loadPlains m as with
      | .error e => .error e
      | .ok bs => .ok (b :: bs)

/-- ops/load.rs:61-73: the cells of the bytes after an encrypted one -/
def loadCells (m : CView) : List Nat → Except Err (List Nat)
  | [] => .ok []
  | a :: as => match m a with
    | none => .error (.accessViolation a)
    | some (.plain _) => .error .bufferNotCiphertext
    | some (.cipher b) => match loadCells m as with
      | .error e => .error e
      | .ok bs => .ok (b ++ bs)

/-- ops/load.rs:38-78 -/
def loadReg (m : CView) (width : Nat) : List Nat → Except Err CReg
  | [] => .error .panic
  | a :: as => match m a with
    | none => .error (.accessViolation a)
    | some (.plain b) => match loadPlains m as with
      | .error e => .error e
      | .ok bs => .ok (.plain (bytesVal (b :: bs)) width)
    | some (.cipher b) => match loadCells m as with
      | .error e => .error e
      | .ok bs => .ok (.cells (b ++ bs))

/-- ops/store.rs:45-56: byte `i` of a register; the cells of an encrypted one are shared, not copied -/
def storeByte (v : CReg) (i : Nat) : Except Err (Byte Nat) :=
  match v with
  | .plain x _ => .ok (.plain (BitVec.ofNat 8 (x / 2 ^ (8 * i))))
  | .cells b => if 8 * i + 8 ≤ b.length then .ok (.cipher ((b.drop (8 * i)).take 8)) else .error .panic

/-- ops/store.rs:44-60 -/
def storeBytes (v : CReg) : List Nat → Nat → CView → Except Err CView
  | [], _, m => .ok m
  | a :: as, i, m => match storeByte v i with
    | .error e => .error e
    | .ok b => match m a with
      | none => .error (.accessViolation a)
      | some _ => storeBytes v as (i + 1) (fun x => if x = a then some b else m x)

/-- Registers, memory, program counter, and the next cell to allocate (`Arc::new(AtomicRefCell::new(..))`,
parasol_runtime/src/fhe_circuit.rs:442-450, ops/xor.rs:65-67, ops/not.rs:38-40, ops/cmux.rs:129-131). -/
structure CState where
  reg : Nat → CReg
  mem : CView
  pc : Nat
  fresh : Nat

/-- FP:727-910 `exec_instruction`: the circuit to run, if any, with its output cells; the results; the memory. See `Inst.exec`. -/
def exec (i : Inst) (vs : List CReg) (m : CView) (fresh : Nat) : Except Err (Option (Job × List Nat) × List CReg × CView) :=
  match i.op with
  | .load => match span (vs.map CReg.shape) (i.nat 2) (i.arg 3) with
    | .error e => .error e
    | .ok l => match loadReg m (i.nat 2) l with
      | .error e => .error e
      | .ok r => .ok (none, [r], m)
  | .store =>
    if i.nat 0 = i.nat 1 then .error .panic
    else match span (vs.map CReg.shape) (i.nat 2) (i.arg 3) with
      | .error e => .error e
      | .ok l => match storeBytes (vs.getD 1 .default) l 0 m with
        | .error e => .error e
        | .ok m' => .ok (none, [], m')
  | _ => match alu i vs with
    | .error e => .error e
    | .ok (.done rs) => .ok (none, rs, m)
    | .ok (.spawn job rs) => .ok (some (job, List.range' fresh job.size), rs (List.range' fresh job.size), m)

/-- FP:727-910: results `k, k+1, …` go to the destination registers (tomasulo/registers.rs:112-122 `entry_force_mut`). -/
def writeRegs (reg : Nat → CReg) (outs : List CReg) : Nat → List Nat → Nat → CReg
  | _, [] => reg
  | k, d :: ds => writeRegs (fun r => if r = d then outs.getD k .default else reg r) outs (k + 1) ds

/-- The number of cells an instruction allocates. -/
def allocated : Option (Job × List Nat) → Nat
  | none => 0
  | some (_, outs) => outs.length

/-- FP:657-692, 912-947 the loop of `run_program`, one instruction (see `Spf.Seq.step`): the circuit it runs, the state after it, and whether the program
has returned. -/
def step (prog : Nat → Except Err Inst) (s : CState) : Except Err (Option (Job × List Nat) × CState × Bool) :=
  match prog s.pc with
  | .error e => .error e
  | .ok i =>
    let vs := i.srcs.map s.reg
    match i.access (vs.map CReg.shape) with
    | .error e => .error e
    | .ok _ => match exec i vs s.mem s.fresh with
      | .error e => .error e
      | .ok (job, outs, mem') =>
        let s' : CState := { reg := writeRegs s.reg outs 0 i.dsts, mem := mem', pc := s.pc, fresh := s.fresh + allocated job }
        match i.next s.pc (vs.map CReg.shape) with
        | .ok pc' => .ok (job, { s' with pc := pc' }, false)
        | .error .halt => .ok (job, s', true)
        | .error e => .error e

end Spf.Cells
