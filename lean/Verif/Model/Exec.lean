import Verif.Model.Machine
import Verif.Model.Isa
import Verif.Model.Alu
/-! The instruction set of the processor as an instance of `Machine.Isa`: which registers an instruction reads and writes
(`parasol_cpu/src/proc/assembly.rs` 353-468), the addresses it touches, what it computes, where it continues and what it costs
(`parasol_cpu/src/proc/fhe_processor.rs`, FP below; `ops` = `parasol_cpu/src/proc/ops`).

Registers hold plaintexts or encrypted bits as in `Verif.Model.Alu`. The memory is seen as a function from addresses to
bytes, `none` where no page is mapped (`Mem.view`). A store that fails half-way leaves the memory unchanged here; the run fails
anyway. A panic is reported as a fault. -/
namespace Spf.Cpu
open Spf.Machine (Isa)

/-- memory/mod.rs:523-536 `try_load`, as a function of the address. -/
abbrev View := Nat → Option (Byte Bool)

/-- The bytes of a memory. -/
def Mem.view (m : Mem Bool) : View := fun a =>
  match m.load a with
  | .ok b => some b
  | .error _ => none

/-- operand `k` of an instruction -/
def Inst.arg (i : Inst) (k : Nat) : Int := i.args.getD k 0
/-- operand `k` of an instruction as a register number or width -/
def Inst.nat (i : Inst) (k : Nat) : Nat := (i.arg k).toNat

/-- the source registers, assembly.rs:353-468 -/
def Inst.srcs (i : Inst) : List Nat :=
  match i.op with
  | .store => [i.nat 0, i.nat 1]
  | .load | .trunc | .zext | .sext | .move | .not | .neg => [i.nat 1]
  | .loadI | .branch | .ret => []
  | .addC | .subB => [i.nat 2, i.nat 3, i.nat 4]
  | .branchNonZero | .branchZero | .dbg => [i.nat 0]
  | .cmux => [i.nat 1, i.nat 2, i.nat 3]
  | _ => [i.nat 1, i.nat 2]

/-- the destination registers, assembly.rs:353-468 -/
def Inst.dsts (i : Inst) : List Nat :=
  match i.op with
  | .store | .branchNonZero | .branchZero | .branch | .ret | .dbg => []
  | .addC | .subB => [i.nat 0, i.nat 1]
  | _ => [i.nat 0]

/-- ops/mod.rs:131-133 `is_invalid_load_store_alignment`. -/
def invalidAlignment (addr nb : Nat) : Bool := nb == 0 || addr % nb != 0 || decide (nb > 16) || !(2 ^ nb.log2 == nb)

/-- FP:168-197 (and the same checks in ops/load.rs:26-36, ops/store.rs:30-42): the addresses of a load or store. -/
def span (vs : List Reg) (width : Nat) (offset : Int) : Except Err (List Nat) :=
  match vs with
  | .plain p _ :: _ =>
    match trySignedOffset (p % 2 ^ 32) offset with
    | .error e => .error e
    | .ok base => if invalidAlignment base (width / 8) then .error (.unaligned base) else .ok (List.range' base (width / 8))
  | _ => .error .illegalOperands

/-- FP:199-214 -/
def Inst.access (i : Inst) (vs : List Reg) : Except Err (List Nat) :=
  match i.op with
  | .store | .load => span vs (i.nat 2) (i.arg 3)
  | _ => .ok []

/-- ops/load.rs:42-54: the bytes after a plaintext one -/
def loadPlains (m : View) : List Nat → Except Err (List (BitVec 8))
  | [] => .ok []
  | a :: as => match m a with
    | none => .error (.accessViolation a)
    | some (.cipher _) => .error .bufferNotPlaintext
    | some (.plain b) => match loadPlains m as with
      | .error e => .error e
      | .ok bs => .ok (b :: bs)

/-- ops/load.rs:61-73: the bytes after an encrypted one -/
def loadCiphers (m : View) : List Nat → Except Err (List Bool)
  | [] => .ok []
  | a :: as => match m a with
    | none => .error (.accessViolation a)
    | some (.plain _) => .error .bufferNotCiphertext
    | some (.cipher b) => match loadCiphers m as with
      | .error e => .error e
      | .ok bs => .ok (b ++ bs)

/-- ops/load.rs:40, 47: `result |= (b as u128) << (8 * i)`, bytes at distinct positions. -/
def bytesVal : List (BitVec 8) → Nat
  | [] => 0
  | b :: bs => b.toNat + 256 * bytesVal bs

/-- ops/load.rs:38-78 -/
def loadReg (m : View) (width : Nat) : List Nat → Except Err Reg
  | [] => .error .panic
  | a :: as => match m a with
    | none => .error (.accessViolation a)
    | some (.plain b) => match loadPlains m as with
      | .error e => .error e
      | .ok bs => .ok (.plain (bytesVal (b :: bs)) width)
    | some (.cipher b) => match loadCiphers m as with
      | .error e => .error e
      | .ok bs => .ok (.cipher (b ++ bs))

/-- ops/store.rs:45-56: byte `i` of a register -/
def storeByte (v : Reg) (i : Nat) : Except Err (Byte Bool) :=
  match v with
  | .plain x _ => .ok (.plain (BitVec.ofNat 8 (x / 2 ^ (8 * i))))
  | .cipher b => if 8 * i + 8 ≤ b.length then .ok (.cipher ((b.drop (8 * i)).take 8)) else .error .panic

/-- ops/store.rs:44-60 -/
def storeBytes (v : Reg) : List Nat → Nat → View → Except Err View
  | [], _, m => .ok m
  | a :: as, i, m => match storeByte v i with
    | .error e => .error e
    | .ok b => match m a with
      | none => .error (.accessViolation a)
      | some _ => storeBytes v as (i + 1) (fun x => if x = a then some b else m x)

/-- FP:783-857: the two-operand instructions -/
def Op.bin? : Op → Option Bin
  | .add => some .add | .sub => some .sub | .mul => some .mul | .and => some .and | .or => some .or | .xor => some .xor
  | .cmpEq => some (.cmp .eq) | .cmpGt => some (.cmp .gt) | .cmpGe => some (.cmp .ge) | .cmpLt => some (.cmp .lt)
  | .cmpLe => some (.cmp .le) | .cmpGtS => some (.cmp .gts) | .cmpGeS => some (.cmp .ges) | .cmpLtS => some (.cmp .lts)
  | .cmpLeS => some (.cmp .les)
  | _ => none

/-- FP:795-809: the shifts -/
def Op.sh? : Op → Option Sh
  | .shr => some .shr | .shra => some .shra | .shl => some .shl | .rotr => some .rotr | .rotl => some .rotl
  | _ => none

/-- one result -/
def one (r : Except Err Reg) : Except Err (List Reg) :=
  match r with
  | .error e => .error e
  | .ok v => .ok [v]

/-- two results -/
def two (r : Except Err (Reg × Reg)) : Except Err (List Reg) :=
  match r with
  | .error e => .error e
  | .ok (v, w) => .ok [v, w]

/-- FP:757-909 `exec_instruction`, all instructions that do not access memory. Branches, `Ret` and `Dbg` compute nothing
(`Dbg` calls a handler of the host). -/
def Inst.alu (i : Inst) (vs : List Reg) : Except Err (List Reg) :=
  match i.op, vs with
  | .loadI, [] => one (loadi (i.nat 1) (i.nat 2))
  | .trunc, [v] => one (Cpu.trunc v (i.nat 2))
  | .zext, [v] => one (ext false v (i.nat 2))
  | .sext, [v] => one (ext true v (i.nat 2))
  | .move, [v] => one (mov v)
  | .not, [v] => one (Cpu.not v)
  | .neg, [v] => one (Cpu.neg v)
  | .addC, [a, b, c] => two (Cpu.addC a b c)
  | .subB, [a, b, c] => two (Cpu.subB a b c)
  | .cmux, [s, a, b] => one (Cpu.cmux s a b)
  | .branchNonZero, _ | .branchZero, _ | .branch, _ | .ret, _ | .dbg, _ => .ok []
  | op, [a, b] => match op.bin? with
    | some f => one (execBin f a b)
    | none => match op.sh? with
      | some s => one (shiftOp s a b)
      | none => .error .panic
  | _, _ => .error .panic

/-- FP:727-910 `exec_instruction`. A store whose two operands are the same register borrows it twice and panics
(ops/store.rs:25-28, tomasulo/registers.rs:112-122). -/
def Inst.exec (i : Inst) (vs : List Reg) (m : View) : Except Err (List Reg × View) :=
  match i.op with
  | .load => match span vs (i.nat 2) (i.arg 3) with
    | .error e => .error e
    | .ok l => match loadReg m (i.nat 2) l with
      | .error e => .error e
      | .ok r => .ok ([r], m)
  | .store =>
    if i.nat 0 = i.nat 1 then .error .panic
    else match span vs (i.nat 2) (i.arg 3) with
      | .error e => .error e
      | .ok l => match storeBytes (vs.getD 1 .default) l 0 m with
        | .error e => .error e
        | .ok m' => .ok ([], m')
  | _ => match i.alu vs with
    | .error e => .error e
    | .ok o => .ok (o, m)

/-- Whether the instruction spawned a graph and retires when it completes (`make_parent_op`, ops/add.rs:65-74 and so on), given
that it did not fail: arithmetic with an encrypted operand, `Cmux` with an encrypted selector (ops/cmux.rs:42-81), shifts by an
encrypted distance (ops/bitshift.rs:132-147). -/
def Inst.async (i : Inst) (vs : List Reg) : Bool :=
  match i.op with
  | .add | .sub | .mul | .and | .or | .xor | .not | .addC | .subB | .cmpEq | .cmpGt | .cmpGtS | .cmpGe | .cmpGeS | .cmpLt
  | .cmpLtS | .cmpLe | .cmpLeS => vs.any (!·.isPlain)
  | .cmux => vs.head?.any (!·.isPlain)
  | .shl | .shr | .shra | .rotl | .rotr => (vs.drop 1).any (!·.isPlain)
  | _ => false

/-- `pc + INSTRUCTION_SIZE`, a `u32` addition with overflow check -/
def nextPc (pc : Nat) : Except Err Nat := if pc + 8 < 2 ^ 32 then .ok (pc + 8) else .error .panic

/-- `u32::wrapping_add_signed` -/
def jumpPc (pc : Nat) (off : Int) : Nat := (((pc : Int) + off) % 2 ^ 32).toNat

/-- FP:912-947 `next_program_counter`. -/
def Inst.next (i : Inst) (pc : Nat) (vs : List Reg) : Except Err Nat :=
  match i.op with
  | .branchNonZero => match vs with
    | .plain v _ :: _ => if v ≠ 0 then .ok (jumpPc pc (i.arg 1)) else nextPc pc
    | _ => .error .branchNotPlaintext
  | .branchZero => match vs with
    | .plain v _ :: _ => if v = 0 then .ok (jumpPc pc (i.arg 1)) else nextPc pc
    | _ => .error .branchNotPlaintext
  | .branch => .ok (jumpPc pc (i.arg 0))
  | .ret => .error .halt
  | _ => nextPc pc

/-- FP:223-227 `is_register_ciphertext`, of source `k`. -/
def isCt (vs : List Reg) (k : Nat) : Bool := vs[k]?.any (!·.isPlain)

/-- FP:221-307 `compute_gas`. -/
def Inst.gas (i : Inst) (vs : List Reg) : Nat :=
  match i.op with
  | .load | .loadI | .store | .branchNonZero | .branchZero | .branch | .move | .dbg => 1
  | .sext | .zext | .trunc => 1
  | .not | .neg => if isCt vs 0 then 100000 else 1
  | .mul => if isCt vs 0 || isCt vs 1 then 500000 else 1
  | .shl | .shr | .shra | .rotl | .rotr => if isCt vs 1 then 100000 else 1
  | .addC | .subB | .cmux => if isCt vs 0 || isCt vs 1 || isCt vs 2 then 100000 else 1
  | .ret => 0
  | _ => if isCt vs 0 || isCt vs 1 then 100000 else 1

/-- The instruction set of the processor. -/
def parasol : Isa Inst Reg Nat (Option (Byte Bool)) where
  srcs := Inst.srcs
  dsts := Inst.dsts
  dflt := .default
  access := Inst.access
  exec := Inst.exec
  async := Inst.async
  next := Inst.next
  gas := Inst.gas

/-- memory/mod.rs:587-594 `try_load_plaintext_dword` and FP:667-668: the instruction at an address. -/
def fetchInst (m : Mem Bool) (pc : Nat) : Except Err Inst :=
  if pc % 8 ≠ 0 then .error (.unaligned pc)
  else
    let rec word : Nat → Nat → Except Err Nat
      | 0, _ => .ok 0
      | k + 1, i => match tryOffset pc i with
        | .error e => .error e
        | .ok a => match m.loadPlain a with
          | .error e => .error e
          | .ok b => match word k (i + 1) with
            | .error e => .error e
            | .ok w => .ok (b.toNat + 256 * w)
    match word 8 0 with
    | .error e => .error e
    | .ok w => decode w

/-- The sources whose contents the front end itself looks at: the address of a load or store, the condition of a branch
(FP:199-214, 918-940). They come first in the operand order. -/
def Inst.key (i : Inst) : Nat :=
  match i.op with
  | .load | .store | .branchNonZero | .branchZero => 1
  | _ => 0

end Spf.Cpu
