import Verif.Model.Memory
/-! Model of the instruction encoding generated by the `define_op!` macro in `parasol_cpu/src/proc/assembly.rs` (22-349)
from the table at 353-468. The macro is a function of the table; so is the model: an instruction is an operation of the table
with the list of its operands in the order of the table (destinations, sources, metadata). -/
namespace Spf.Cpu

/-- The operations of the table, parasol_cpu/src/proc/assembly.rs:353-468. -/
inductive Op
  | store | load | loadI | trunc | zext | sext | move | not | and | or | xor | add | addC | sub | subB | neg | mul | rotl | rotr
  | shl | shr | shra | cmpEq | cmpGt | cmpGtS | cmpGe | cmpGeS | cmpLt | cmpLtS | cmpLe | cmpLeS | branchNonZero | branchZero
  | branch | ret | cmux | dbg
  deriving Repr, DecidableEq

/-- The fields of the table: a register (`dst`, `src`: six bits, assembly.rs:79-83), `meta` of 32 bits of type `u32` or
`i32`, `cmeta` with the codecs `width_dec`/`width_enc` (7 bits) or `offset_dec`/`offset_enc` (32 bits, `i32`), and unused
bits. -/
inductive Field | reg | u32 | i32 | width | offset | unused (n : Nat)
  deriving Repr, DecidableEq

/-- the operations in the order of the table -/
def allOps : List Op := [.store, .load, .loadI, .trunc, .zext, .sext, .move, .not, .and, .or, .xor, .add, .addC, .sub, .subB,
  .neg, .mul, .rotl, .rotr, .shl, .shr, .shra, .cmpEq, .cmpGt, .cmpGtS, .cmpGe, .cmpGeS, .cmpLt, .cmpLtS, .cmpLe, .cmpLeS,
  .branchNonZero, .branchZero, .branch, .ret, .cmux, .dbg]

/-- The opcodes, assembly.rs:353-468 (and `op_code`, 198-209). -/
def Op.code : Op → Nat
  | .store => 0x01 | .load => 0x09 | .loadI => 0x0A | .trunc => 0x11 | .zext => 0x15 | .sext => 0x16 | .move => 0x21
  | .not => 0x31 | .and => 0x32 | .or => 0x33 | .xor => 0x34 | .add => 0x41 | .addC => 0x42 | .sub => 0x45 | .subB => 0x46
  | .neg => 0x49 | .mul => 0x51 | .rotl => 0x81 | .rotr => 0x82 | .shl => 0x85 | .shr => 0x86 | .shra => 0x87 | .cmpEq => 0x91
  | .cmpGt => 0x95 | .cmpGtS => 0x96 | .cmpGe => 0x97 | .cmpGeS => 0x98 | .cmpLt => 0x99 | .cmpLtS => 0x9A | .cmpLe => 0x9B
  | .cmpLeS => 0x9C | .branchNonZero => 0xB1 | .branchZero => 0xB2 | .branch => 0xB5 | .ret => 0xBA | .cmux => 0xC1 | .dbg => 0xF0

/-- `OpCode::try_from`, assembly.rs:252-261. -/
def Op.ofCode (c : Nat) : Option Op := allOps.find? fun o => o.code = c

/-- The operand fields, assembly.rs:353-468. -/
def Op.format : Op → List Field
  | .store => [.reg, .reg, .width, .offset]
  | .load => [.reg, .reg, .width, .offset]
  | .loadI => [.reg, .u32, .width]
  | .trunc | .zext | .sext => [.reg, .reg, .width, .unused 7]
  | .move | .not | .neg => [.reg, .reg]
  | .and | .or | .xor | .add | .sub | .mul | .rotl | .rotr | .shl | .shr | .shra | .cmpEq | .cmpGt | .cmpGtS | .cmpGe | .cmpGeS
  | .cmpLt | .cmpLtS | .cmpLe | .cmpLeS => [.reg, .reg, .reg]
  | .addC | .subB => [.reg, .reg, .reg, .reg, .reg]
  | .branchNonZero | .branchZero => [.reg, .i32]
  | .branch => [.i32]
  | .ret => [.unused 44]
  | .cmux => [.reg, .reg, .reg, .reg]
  | .dbg => [.reg, .u32]

/-- number of bits of a field -/
def Field.bits : Field → Nat
  | .reg => 6 | .u32 => 32 | .i32 => 32 | .width => 7 | .offset => 32 | .unused n => n

/-- assembly.rs:8-11 `width_enc`. -/
def widthEnc (x : Nat) : Except Err Nat :=
  if 0 < x ∧ x ≤ 128 then .ok (if x = 128 then 0 else x) else .error .panic

/-- assembly.rs:3-6 `width_dec`. -/
def widthDec (x : Nat) : Except Err Nat := if x < 128 then .ok (if x = 0 then 128 else x) else .error .panic

/-- `x as u64` of an integer of at most 64 bits (std). -/
def asU64 (x : Int) : Nat := (x % 2 ^ 64).toNat

/-- `x as i32` of a 64-bit word (std). -/
def asI32 (x : Nat) : Int := if x % 2 ^ 32 < 2 ^ 31 then ((x % 2 ^ 32 : Nat) : Int) else ((x % 2 ^ 32 : Nat) : Int) - 2 ^ 32

/-- assembly.rs:13-15 `offset_dec`: `input as u32 as i32 as u64`. -/
def offsetDec (x : Nat) : Nat := asU64 (asI32 (x % 2 ^ 32))
/-- assembly.rs:17-19 `offset_enc`. -/
def offsetEnc (x : Nat) : Nat := x

/-- assembly.rs:154-171: the bits of an operand. Registers are not masked; metadata is. -/
def Field.enc : Field → Int → Except Err Nat
  | .reg, v => .ok v.toNat
  | .u32, v => .ok (asU64 v &&& (0x1 <<< 32 - 1))
  | .i32, v => .ok (asU64 v &&& (0x1 <<< 32 - 1))
  | .width, v => match widthEnc (asU64 v) with | .ok x => .ok (x &&& (0x1 <<< 7 - 1)) | .error e => .error e
  | .offset, v => .ok (offsetEnc (asU64 v) &&& (0x1 <<< 32 - 1))
  | .unused _, _ => .ok 0

/-- assembly.rs:92-116: the operand in the low bits of a word; `none` for unused bits. -/
def Field.dec : Field → Nat → Except Err (Option Int)
  | .reg, v => .ok (some ((v &&& (0x1 <<< 6 - 1) : Nat) : Int))
  | .u32, v => .ok (some ((v &&& (0x1 <<< 32 - 1) : Nat) : Int))
  | .i32, v => .ok (some (asI32 (v &&& (0x1 <<< 32 - 1))))
  | .width, v => match widthDec (v &&& (0x1 <<< 7 - 1)) with | .ok x => .ok (some (x : Int)) | .error e => .error e
  | .offset, v => .ok (some (asI32 (offsetDec (asU64 (asI32 (v &&& (0x1 <<< 32 - 1)))))))
  | .unused _, _ => .ok none

/-- An instruction: an operation and its operands. -/
structure Inst where
  op : Op
  args : List Int
  deriving Repr, DecidableEq

/-- assembly.rs:153-173: or-ing the operands into the word at increasing shifts; an operand list of the wrong length does not
exist in the code (here: `panic`). Bits shifted out of the 64-bit word do not occur: the formats have at most 51 bits. -/
def encGo : List Field → List Int → Nat → Nat → Except Err Nat
  | [], [], _, acc => .ok acc
  | .unused n :: fs, as, sh, acc => encGo fs as (sh + n) acc
  | f :: fs, a :: as, sh, acc =>
    match f.enc a with
    | .ok b => encGo fs as (sh + f.bits) (acc ||| (b <<< sh))
    | .error e => .error e
  | _, _, _, _ => .error .panic

/-- assembly.rs:136-177 `impl From<IsaOp> for u64`. -/
def Inst.encode (i : Inst) : Except Err Nat := encGo i.op.format i.args 8 i.op.code

/-- assembly.rs:92-120: taking the operands off the word; what remains must be zero. -/
def decGo : List Field → Nat → Except Err (List Int)
  | [], v => if v = 0 then .ok [] else .error .panic
  | f :: fs, v =>
    match f.dec v with
    | .error e => .error e
    | .ok x =>
      match decGo fs (v >>> f.bits) with
      | .error e => .error e
      | .ok as => .ok (match x with | some a => a :: as | none => as)

/-- assembly.rs:76-133 `impl TryFrom<u64> for IsaOp`. -/
def decode (w : Nat) : Except Err Inst :=
  match Op.ofCode (w &&& 0xFF) with
  | none => .error .badOpcode
  | some op =>
    match decGo op.format (w >>> 8) with
    | .error e => .error e
    | .ok as => .ok ⟨op, as⟩

end Spf.Cpu
