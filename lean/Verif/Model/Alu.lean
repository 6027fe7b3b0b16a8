import Verif.Model.Memory
import Verif.Model.Gradeschool
import Verif.Model.Shift
/-! Model of the arithmetic and logic instructions of `parasol_cpu/src/proc/ops/*.rs` (paths below are relative to
`parasol_cpu/src/proc`). `Except.error .panic` = the Rust panics (debug profile: overflow checks are on). Ciphertext bits
are represented by the bit they encrypt; circuits by the Boolean functions of their generators, whose insertion into an
FHE circuit is C11–C15. Only plaintext and L1 GLWE registers are modelled: no instruction creates any other kind. -/
namespace Spf.Cpu
open Spf.Mul (applyCircuit appendUintMultiply)
open Spf.Shift (Dir Mode bitshift)

/-- mod.rs:99-105 `Register`. A ciphertext is its bits, least significant first. -/
inductive Reg
  | plain (val width : Nat)
  | cipher (bits : List Bool)
  deriving Repr, DecidableEq

/-- mod.rs:123-128 `Register::width`. -/
def Reg.width : Reg → Nat
  | .plain _ w => w
  | .cipher b => b.length

/-- mod.rs:130-133 `is_plaintext`. -/
def Reg.isPlain : Reg → Bool
  | .plain _ _ => true
  | .cipher _ => false

/-- mod.rs:170-174 `Register::default`. -/
def Reg.default : Reg := .plain 0 32

/-- one more than `u128::MAX`. -/
def two128 : Nat := 2 ^ 128

/-- `a << s` on `u128` with overflow checks: a shift by 128 or more panics, bits shifted out are lost. -/
def shl128 (a s : Nat) : Except Err Nat := if s < 128 then .ok (a * 2 ^ s % two128) else .error .panic
/-- `a >> s` on `u128` with overflow checks. -/
def shr128 (a s : Nat) : Except Err Nat := if s < 128 then .ok (a / 2 ^ s) else .error .panic
/-- `a - b` on unsigned integers with overflow checks. -/
def sub128 (a b : Nat) : Except Err Nat := if b ≤ a then .ok (a - b) else .error .panic
/-- `u128::wrapping_add`. -/
def wadd (a b : Nat) : Nat := (a + b) % two128
/-- `u128::wrapping_sub`. -/
def wsub (a b : Nat) : Nat := (a + two128 - b) % two128
/-- `u128::wrapping_mul`. -/
def wmul (a b : Nat) : Nat := a * b % two128
/-- `!a` on `u128`. -/
def not128 (a : Nat) : Nat := two128 - 1 - a

/-- ops/add.rs:38 (and most other operations): `let mask = (0x1 << width) - 1;`. -/
def mask (w : Nat) : Except Err Nat :=
  match shl128 1 w with
  | .error e => .error e
  | .ok m => sub128 m 1

/-- mod.rs:179-201 `check_register_width`. -/
def checkWidth (a b : Reg) : Except Err Unit :=
  if a.width ≠ b.width then .error .widthMismatch
  else if a.width < 1 ∨ a.width > 128 then .error .unsupportedWidth
  else .ok ()

/-- mux_circuits/src/lib.rs:514-522 `convert_value_to_bits` (shifting by 128 or more panics; not reached, see
`checkWidth`). -/
def valueBits (val width : Nat) : List Bool := (List.range width).map fun i => val / 2 ^ i % 2 == 1

/-- mod.rs:203-223 `register_to_l1glwe_by_trivial_lift` with ops/mod.rs:102-116 `trivially_encrypt_value_l1glwe`. -/
def lift : Reg → List Bool
  | .plain v w => valueBits v w
  | .cipher b => b

/-- the input layout `c1.iter().zip(c2.iter()).flat_map(|(a, b)| [a, b])` (ops/and.rs:65-69,
parasol_runtime/src/circuits/add.rs:24). -/
def zipBits (a b : List Bool) : List Bool := (a.zip b).flatMap fun p => [p.1, p.2]

/-- spawning a circuit: a panicking generator panics; otherwise the outputs carry the circuit's values
(`insert_mux_circuit_and_connect_inputs`, parasol_runtime/src/fhe_circuit.rs:425-460). -/
def runCircuit (c : Option (List BddFn)) (arity : Nat) (inputs : List Bool) : Except Err (List Bool) :=
  match applyCircuit c arity inputs with
  | none => .error .panic
  | some r => .ok r

/-- parasol_runtime/src/circuits/add.rs:10-32 `add_circuit`. -/
def addCircuit (w : Nat) (a b : List Bool) (carry : Option (List Bool)) : Except Err (List Bool) :=
  runCircuit (Arith.rippleCarryAdder w w carry.isSome) (2 * w + if carry.isSome then 1 else 0)
    (carry.getD [] ++ zipBits a b)

/-- parasol_runtime/src/circuits/mod.rs:19-41 `sub_circuit`. -/
def subCircuit (w : Nat) (a b : List Bool) (borrow : Option (List Bool)) : Except Err (List Bool) :=
  runCircuit (Arith.fullSubtractor w borrow.isSome) (2 * w + if borrow.isSome then 1 else 0)
    (borrow.getD [] ++ zipBits a b)

/-- ops/add.rs:13-80 `add`. -/
def add (a b : Reg) : Except Err Reg := do
  checkWidth a b
  match a, b with
  | .plain x w, .plain y _ => return .plain (wadd x y &&& (← mask w)) w
  | _, _ => return .cipher (← addCircuit a.width (lift a) (lift b) none).dropLast

/-- ops/add.rs:179-188 `add_with_carry`. -/
def addWithCarry (a b c w : Nat) : Except Err (Nat × Nat) := do
  let m ← mask w
  let full := wadd (wadd a b) c
  return (full &&& m, (← shr128 full w) &&& 1)

/-- ops/add.rs:82-175 `add_carry`: (sum, carry out). -/
def addC (a b c : Reg) : Except Err (Reg × Reg) := do
  checkWidth a b
  if c.width ≠ 1 then .error .widthMismatch
  else
    match a, b, c with
    | .plain x w, .plain y _, .plain z _ =>
      let r ← addWithCarry x y z w
      return (.plain r.1 w, .plain r.2 1)
    | _, _, _ =>
      let out ← addCircuit a.width (lift a) (lift b) (some (lift c))
      return (.cipher out.dropLast, .cipher [out.getLastD false])

/-- ops/sub.rs:14-81 `sub`. -/
def sub (a b : Reg) : Except Err Reg := do
  checkWidth a b
  match a, b with
  | .plain x w, .plain y _ => return .plain (wsub x y &&& (← mask w)) w
  | _, _ => return .cipher (← subCircuit a.width (lift a) (lift b) none).dropLast

/-- mux_circuits/src/util.rs:13-43 `borrowing_sub`, `arbitrary_width_borrowing_sub`. -/
def borrowingSub (a b c w : Nat) : Except Err (Nat × Nat) := do
  let m ← mask w
  let cn := if c ≠ 0 then 1 else 0
  let d := wsub a b
  let e := wsub d cn
  return (e &&& m, if a < b ∨ d < cn then 1 else 0)

/-- ops/sub.rs:84-177 `sub_borrow`: (difference, borrow out). -/
def subB (a b c : Reg) : Except Err (Reg × Reg) := do
  checkWidth a b
  if c.width ≠ 1 then .error .widthMismatch
  else
    match a, b, c with
    | .plain x w, .plain y _, .plain z _ =>
      let r ← borrowingSub x y z w
      return (.plain r.1 w, .plain r.2 1)
    | _, _, _ =>
      let out ← subCircuit a.width (lift a) (lift b) (some (lift c))
      return (.cipher out.dropLast, .cipher [out.getLastD false])

/-- ops/and.rs:16-104 `and`. -/
def and (a b : Reg) : Except Err Reg := do
  checkWidth a b
  match a, b with
  | .plain x w, .plain y _ => return .plain (x &&& y &&& (← mask w)) w
  | _, _ => return .cipher (← runCircuit (Arith.makeAndCircuit a.width) (2 * a.width) (zipBits (lift a) (lift b)))

/-- ops/or.rs:16-104 `or`. -/
def or (a b : Reg) : Except Err Reg := do
  checkWidth a b
  match a, b with
  | .plain x w, .plain y _ => return .plain ((x ||| y) &&& (← mask w)) w
  | _, _ => return .cipher (← runCircuit (Arith.makeOrCircuit a.width) (2 * a.width) (zipBits (lift a) (lift b)))

/-- ops/xor.rs:16-94 `xor`. Rust parses `val1 ^ val2 & mask` as `val1 ^ (val2 & mask)`. On ciphertexts one `GlweAdd` per
bit (ops/xor.rs:69-77), which adds the messages modulo 2. -/
def xor (a b : Reg) : Except Err Reg := do
  checkWidth a b
  match a, b with
  | .plain x w, .plain y _ => return .plain (x ^^^ (y &&& (← mask w))) w
  | _, _ => return .cipher (List.zipWith Bool.xor (lift a) (lift b))

/-- ops/not.rs:15-71 `not`: one `Not` operator per ciphertext bit. -/
def not : Reg → Except Err Reg
  | .plain x w => do return .plain (not128 x &&& (← mask w)) w
  | .cipher b => return .cipher (b.map (!·))

/-- ops/neg.rs:10-53 `neg`: encrypted operands hit `todo!()`. -/
def neg : Reg → Except Err Reg
  | .plain x w => do return .plain (wsub 0 x &&& (← mask w)) w
  | .cipher _ => .error .panic

/-- ops/mul.rs:23-137 `unsigned_multiply`: the low half; the graph is then pruned to it (C14). -/
def mul (a b : Reg) : Except Err Reg := do
  checkWidth a b
  let m ← (if a.width < 128 then mask a.width else .ok (two128 - 1))
  match a, b with
  | .plain x w, .plain y _ => return .plain (wmul x y &&& m) w
  | _, _ =>
    match appendUintMultiply (lift a) (lift b) with
    | none => .error .panic
    | some r => return .cipher r.1

/-- ops/comparisons.rs:17-24 `to_signed`; the result is an `i128`. -/
def toSigned (val w : Nat) : Except Err Int := do
  let sign ← shl128 1 (← sub128 w 1)
  if sign &&& val = 0 then
    return if val < 2 ^ 127 then (val : Int) else (val : Int) - two128
  else
    let m ← sub128 (sign * 2 % two128) 1
    let r := not128 m ||| val
    return if r < 2 ^ 127 then (r : Int) else (r : Int) - two128

/-- The nine comparison instructions (ops/comparisons.rs:109-296). -/
inductive Cmp
  | eq | gt | ge | lt | le | gts | ges | lts | les
  deriving Repr, DecidableEq

/-- the plaintext closures of ops/comparisons.rs:125, 146, 167, 188, 209, 230, 251, 272, 293. -/
def Cmp.plain (c : Cmp) (a wa b wb : Nat) : Except Err Bool :=
  match c with
  | .eq => .ok (a == b)
  | .gt => .ok (decide (a > b))
  | .ge => .ok (decide (a ≥ b))
  | .lt => .ok (decide (a < b))
  | .le => .ok (decide (a ≤ b))
  | .gts => do return decide ((← toSigned a wa) > (← toSigned b wb))
  | .ges => do return decide ((← toSigned a wa) ≥ (← toSigned b wb))
  | .lts => do return decide ((← toSigned a wa) < (← toSigned b wb))
  | .les => do return decide ((← toSigned a wa) ≤ (← toSigned b wb))

/-- the circuit generators of ops/comparisons.rs:126, 147, 168, 189, 210, 231, 252, 273, 294. -/
def Cmp.circuit (c : Cmp) (n : Nat) : Option (List BddFn) :=
  match c with
  | .eq => Arith.compareEqual n
  | .gt => Arith.compareOrMaybeEqual n true false
  | .ge => Arith.compareOrMaybeEqual n true true
  | .lt => Arith.compareOrMaybeEqual n false false
  | .le => Arith.compareOrMaybeEqual n false true
  | .gts => Arith.compareOrMaybeEqualSigned n true false
  | .ges => Arith.compareOrMaybeEqualSigned n true true
  | .lts => Arith.compareOrMaybeEqualSigned n false false
  | .les => Arith.compareOrMaybeEqualSigned n false true

/-- ops/comparisons.rs:28-107 `comparison_operation`. -/
def cmp (c : Cmp) (a b : Reg) : Except Err Reg := do
  checkWidth a b
  match a, b with
  | .plain x w, .plain y w' => return .plain (if ← c.plain x w y w' then 1 else 0) 1
  | _, _ => return .cipher (← runCircuit (c.circuit a.width) (2 * a.width) (zipBits (lift a) (lift b)))

/-- The five shift instructions (ops/bitshift.rs:192-355). -/
inductive Sh
  | shr | shra | shl | rotr | rotl
  deriving Repr, DecidableEq

/-- ops/bitshift.rs:20-30 `arithmetic_shift_right_arbitrary_width`. -/
def shraPlain (val shift w : Nat) : Except Err Nat := do
  let right ← shr128 val shift
  let sign ← shl128 1 (← sub128 w 1)
  if sign &&& val = 0 then return right
  else
    let ones ← sub128 (← shl128 1 (shift + 1)) 1
    let signs ← shl128 ones (← sub128 w shift)
    return signs ||| right

/-- ops/bitshift.rs:32-39 `rotate_right_arbitrary_width`. -/
def rotrPlain (val shift w : Nat) : Except Err Nat := do
  let m ← mask w
  let left ← shl128 val (← sub128 w shift)
  let right ← shr128 val shift
  return (left ||| right) &&& m

/-- ops/bitshift.rs:41-48 `rotate_left_arbitrary_width`. -/
def rotlPlain (val shift w : Nat) : Except Err Nat := do
  let m ← mask w
  let left ← shl128 val shift
  let right ← shr128 val (← sub128 w shift)
  return (left ||| right) &&& m

/-- the plaintext operations of ops/bitshift.rs:204, 237, 270, 303, 336. -/
def Sh.plain (s : Sh) (val shift w : Nat) : Except Err Nat :=
  match s with
  | .shr => shr128 val shift
  | .shra => shraPlain val shift w
  | .shl => shl128 val shift
  | .rotr => rotrPlain val shift w
  | .rotl => rotlPlain val shift w

/-- direction and mode of ops/bitshift.rs:206-221 etc. -/
def Sh.dir : Sh → Dir
  | .shr | .shra | .rotr => .right
  | .shl | .rotl => .left

/-- see `Sh.dir`. -/
def Sh.mode : Sh → Mode
  | .shr | .shl => .logical
  | .shra => .arithmetic
  | .rotr | .rotl => .rotation

/-- ops/bitshift.rs:67-87: overwrite the `shift` vacated positions (`Left`: the lowest, `Right`: the highest) with
`fill`. -/
def fillVacated (dir : Dir) (fill : Bool) : Nat → List Bool → List Bool
  | 0, l => l
  | k + 1, l =>
    let l := fillVacated dir fill k l
    match dir with
    | .left => l.set k fill
    | .right => l.set (l.length - k - 1) fill

/-- ops/bitshift.rs:50-88 `encrypted_value_plain_shift`: `slice::rotate_*` panics when the distance exceeds the length;
`result.last().unwrap()` panics on an empty register. -/
def plainShift (c : List Bool) (shift : Nat) (dir : Dir) (mode : Mode) : Except Err (List Bool) :=
  match c.getLast? with
  | none => .error .panic
  | some oldMsb =>
    if c.length < shift then .error .panic
    else
      let r := match dir with
        | .left => Shift.rotR shift c
        | .right => Shift.rotL shift c
      match mode with
      | .logical => .ok (fillVacated dir false shift r)
      | .rotation => .ok r
      | .arithmetic => if dir = .right then .ok (fillVacated .right oldMsb shift r) else .error .panic

/-- ops/bitshift.rs:101-189 `shift_operation`. -/
def shiftOp (s : Sh) (a sh : Reg) : Except Err Reg :=
  match a, sh with
  | .plain v w, .plain n _ => do return .plain (← s.plain v n w) w
  | .cipher c, .plain n _ => do return .cipher (← plainShift c (n % 2 ^ 32) s.dir s.mode)
  | a, .cipher cs => do
    let c := lift a
    let out ← runCircuit (bitshift c.length cs.length s.dir s.mode) (c.length + cs.length) (c.reverse ++ cs.reverse)
    return .cipher out.reverse

/-- ops/casting.rs:56-131 `ext`. -/
def ext (signed : Bool) (src : Reg) (new : Nat) : Except Err Reg :=
  if new < src.width then .error .widthMismatch
  else
    match src with
    | .plain v w =>
      if signed then do
        if (← shr128 v (← sub128 w 1)) = 0 then return .plain v new
        else
          let old ← mask w
          let nm ← mask new
          return .plain ((v ||| not128 old) &&& nm) new
      else .ok (.plain v new)
    | .cipher b =>
      if signed then
        match b.getLast? with
        | none => .error .panic
        | some msb => .ok (.cipher (b ++ List.replicate (new - b.length) msb))
      else .ok (.cipher (b ++ List.replicate (new - b.length) false))

/-- ops/casting.rs:135-186 `trunc`. -/
def trunc (src : Reg) (new : Nat) : Except Err Reg :=
  if new > src.width then .error .widthMismatch
  else
    match src with
    | .plain v _ => do return .plain (v &&& (← mask new)) new
    | .cipher b => .ok (.cipher (b.take new))

/-- ops/cmux.rs:19-165 `cmux`: on encrypted selectors one `CMux` per bit with `a` on the high input. -/
def cmux (sel a b : Reg) : Except Err Reg := do
  checkWidth a b
  if sel.width ≠ 1 then .error .widthMismatch
  else
    match sel with
    | .plain s _ =>
      match a, b with
      | .plain x _, .plain y _ => return .plain (if s ≠ 0 then x else y) a.width
      | _, _ => return .cipher (if s ≠ 0 then lift a else lift b)
    | .cipher s => return .cipher (List.zipWith (fun h l => bif s.getD 0 false then h else l) (lift a) (lift b))

/-- ops/loadi.rs:9-47 `loadi`: `1 << width` is a `u64` shift, `0xFFFFFFFF << (width - 1)` a `u32` shift and the last mask
a `u128` one. -/
def loadi (imm w : Nat) : Except Err Reg :=
  if w ≥ 64 then .error .panic
  else if w = 0 ∨ w > 32 then .error .panic
  else if imm < 2 ^ w ∨ imm ≥ (2 ^ 32 - 1) * 2 ^ (w - 1) % 2 ^ 32 then .ok (.plain (imm % 2 ^ w) w)
  else .error .outOfRange

/-- The two-operand instructions with one result, as dispatched by fhe_processor.rs:783-877. -/
inductive Bin
  | add | sub | mul | and | or | xor | cmp (c : Cmp)
  deriving Repr, DecidableEq

/-- fhe_processor.rs:783-877 `exec_instruction`: which operation each instruction runs. -/
def execBin : Bin → Reg → Reg → Except Err Reg
  | .add, a, b => add a b
  | .sub, a, b => sub a b
  | .mul, a, b => mul a b
  | .and, a, b => and a b
  | .or, a, b => or a b
  | .xor, a, b => xor a b
  | .cmp c, a, b => cmp c a b

/-- ops/mov.rs:10-45 `mov`. -/
def mov (src : Reg) : Except Err Reg := .ok src

end Spf.Cpu
