import Verif.Model.Memory

/-! Model of `parasol_cpu/src/proc/args.rs` (conversion of values to bytes, size of the call frame), of
`Memory::try_push_arg_onto_stack` and of `FheProcessor::set_up_function_call`. -/

namespace Spf.Cpu
variable {C : Type}

/-- The types implementing `ToArg` (parasol_cpu/src/proc/args.rs:115-342): the primitive integers of `n` bytes
(177-186; signed and unsigned integers have the same bytes), the encrypted integers of `N` bits (188-262), arrays (264-320)
and the unit type (322-342). -/
inductive Ty | prim (n : Nat) | enc (N : Nat) | arr (n : Nat) (t : Ty) | unit
  deriving Repr, DecidableEq

/-- `usize::next_multiple_of` (std); a zero argument panics (never the case in the theorems). -/
def nextMultipleOf (x n : Nat) : Nat := if n = 0 then 0 else (x + (n - 1)) / n * n

/-- `ToArg::alignment` (args.rs:119-121, 189-191, 265-267, 323-325). -/
def Ty.alignment : Ty → Nat
  | .prim n => n
  | .enc N => N / 8
  | .arr _ t => t.alignment
  | .unit => 1

/-- `ToArg::size` (args.rs:123-125, 193-195, 269-271, 327-329). -/
def Ty.size : Ty → Nat
  | .prim n => n
  | .enc N => N / 8
  | .arr n t => nextMultipleOf t.size t.alignment * n
  | .unit => 0

/-- The values of a type: a machine integer, the cells of an encrypted integer, the elements of an array
(parasol_cpu/src/proc/args.rs:115-342). -/
@[reducible] def Ty.Val (C : Type) : Ty → Type
  | .prim n => BitVec (8 * n)
  | .enc _ => List C
  | .arr _ t => List (t.Val C)
  | .unit => Unit

/-- `to_le_bytes` (std, used at args.rs:128). -/
def leBytes (n : Nat) (v : Nat) : List (BitVec 8) := (List.range n).map fun i => BitVec.ofNat 8 (v >>> (8 * i))

/-- `[T]::chunks(n)` (std, used at args.rs:201, 310); `fuel` bounds the number of chunks. -/
def chunks {α : Type} (n : Nat) : Nat → List α → List (List α)
  | 0, _ => []
  | fuel + 1, l => if l = [] then [] else l.take n :: chunks n fuel (l.drop n)

/-- args.rs:279-288: an element padded to its alignment by repeating its first byte. -/
def padTo (n : Nat) (bs : List (Byte C)) : List (Byte C) :=
  match bs with
  | [] => []
  | b :: _ => bs.take n ++ List.replicate (n - bs.length) b

/-- `ToArg::to_bytes` (args.rs:127-129, 197-204, 273-290, 331-333). The assertion in the encrypted case (198) is not
modelled; the theorems assume it. -/
def Ty.toBytes : (t : Ty) → t.Val C → List (Byte C)
  | .prim n, v => (leBytes n (BitVec.toNat (w := 8 * n) v)).map .plain
  | .enc _, bits => (chunks 8 (List.length (α := C) bits) bits).map .cipher
  | .arr _ t, xs =>
    if t.size = 0 then []
    else (xs : List (t.Val C)).flatMap fun x => padTo (nextMultipleOf t.size t.alignment) (t.toBytes x)
  | .unit, _ => []

/-- args.rs:138-143: `val |= (b as $t) << (8 * i)`; an encrypted byte is refused. `i` is the index of the head. -/
def fromLe (n : Nat) : List (Byte C) → Nat → BitVec (8 * n) → Except Err (BitVec (8 * n))
  | [], _, acc => .ok acc
  | .plain b :: bs, i, acc => fromLe n bs (i + 1) (acc ||| (b.setWidth (8 * n)) <<< (8 * i))
  | .cipher _ :: _, _, _ => .error .encryptionMismatch

/-- args.rs:211-220: the cells of encrypted bytes; a plaintext byte is refused. -/
def cipherBits : List (Byte C) → Except Err (List C)
  | [] => .ok []
  | .plain _ :: _ => .error .encryptionMismatch
  | .cipher bs :: rest => match cipherBits rest with | .error e => .error e | .ok r => .ok (bs ++ r)

/-- `collect::<Result<Vec<_>>>` (std, args.rs:312). -/
def collectOk {α β : Type} (f : α → Except Err β) : List α → Except Err (List β)
  | [] => .ok []
  | a :: as =>
    match f a with
    | .error e => .error e
    | .ok b => match collectOk f as with | .error e => .error e | .ok bs => .ok (b :: bs)

/-- `ToArg::try_from_bytes` (args.rs:131-147, 206-223, 292-319, 335-341). -/
def Ty.fromBytes : (t : Ty) → List (Byte C) → Except Err (t.Val C)
  | .prim n, data => if data.length ≠ n then .error .typeSizeMismatch else fromLe n data 0 0
  | .enc N, data => if data.length ≠ N / 8 then .error .typeSizeMismatch else cipherBits data
  | .arr n t, data =>
    if t.size = 0 then
      if data ≠ [] then .error .typeSizeMismatch
      else collectOk (fun _ : Unit => t.fromBytes []) (List.replicate n ())
    else
      match collectOk t.fromBytes (chunks (nextMultipleOf t.size t.alignment) data.length data) with
      | .error e => .error e
      | .ok vs => if vs.length ≠ n then .error .typeSizeMismatch else .ok vs
  | .unit, data => if data ≠ [] then .error .typeSizeMismatch else .ok ()

/-- memory/mod.rs:639-651 `try_write_type::<T>`. -/
def Mem.writeType (m : Mem C) (p : Nat) (t : Ty) (v : t.Val C) : Mem C × Except Err Unit :=
  m.writeBytes p t.alignment t.size (t.toBytes v)

/-- memory/mod.rs:669-684 `try_load_type::<T>`. -/
def Mem.loadType (m : Mem C) (p : Nat) (t : Ty) : Except Err (t.Val C) :=
  match m.readBytes p t.alignment t.size with
  | .error e => .error e
  | .ok bs => t.fromBytes bs

/-! ### the stack -/

/-- parasol_cpu/src/proc/args.rs:487-493 `Arg`. -/
structure Arg (C : Type) where
  alignment : Nat
  bytes : List (Byte C)

/-- memory/mod.rs:482-486: the padding loop: store a zero byte at the stack pointer, then decrement it. -/
def pushPadding : Nat → Mem C → Mem C × Except Err Unit
  | 0, m => (m, .ok ())
  | n + 1, m =>
    match m.store m.sp (.plain 0) with
    | (m, .error e) => (m, .error e)
    | (m, .ok ()) =>
      match trySignedOffset m.sp (-1) with
      | .error e => (m, .error e)
      | .ok sp => pushPadding n { m with sp := sp }

/-- memory/mod.rs:465-494 `try_push_arg_onto_stack`; a zero alignment panics. -/
def Mem.pushArg (m : Mem C) (a : Arg C) : Mem C × Except Err Nat :=
  if m.sp = 0 then (m, .error (.accessViolation 0))
  else if a.alignment = 0 then (m, .error .panic)
  else
    let pad := (a.alignment - m.sp % a.alignment) % a.alignment
    match pushPadding pad m with
    | (m, .error e) => (m, .error e)
    | (m, .ok ()) =>
      match trySignedOffset m.sp (-(a.bytes.length : Int)) with
      | .error e => (m, .error e)
      | .ok sp =>
        let m := { m with sp := sp }
        match m.storeAll sp a.bytes 0 with
        | (m, .error e) => (m, .error e)
        | (m, .ok ()) => (m, .ok sp)

/-- parasol_cpu/src/proc/args.rs:507-510 `CallData`: the arguments, size and alignment of the return value. -/
structure CallData (C : Type) where
  args : List (Arg C)
  retSize : Nat
  retAlign : Nat

/-- args.rs:518-522: the loop of `alloc_size`. -/
def argOffset : List (Arg C) → Nat → Nat
  | [], off => off
  | a :: as, off => argOffset as (nextMultipleOf off a.alignment + a.bytes.length)

/-- parasol_cpu/src/proc/args.rs:515-535 `alloc_size`. -/
def CallData.allocSize (c : CallData C) : Nat :=
  let off := argOffset c.args 0
  let off := if c.retSize > 0 then nextMultipleOf off c.retAlign + c.retSize else off
  nextMultipleOf off 16

/-- parasol_cpu/src/proc/fhe_processor.rs:556-559 and 571-572: `p + (align - p % align) % align`; the addition can
overflow. -/
def alignPtr (p align : Nat) : Except Err Nat :=
  if align = 0 then .error .panic
  else
    let q := p + (align - p % align) % align
    if q < addrSpace then .ok q else .error .panic

/-- fhe_processor.rs:561-564: store the bytes of an argument, advancing the pointer after each. -/
def storeArg : List (Byte C) → Mem C → Nat → Mem C × Except Err Nat
  | [], m, p => (m, .ok p)
  | b :: bs, m, p =>
    match m.store p b with
    | (m, .error e) => (m, .error e)
    | (m, .ok ()) =>
      match tryOffset p 1 with
      | .error e => (m, .error e)
      | .ok q => storeArg bs m q

/-- fhe_processor.rs:555-565: the loop over the arguments. -/
def storeArgs : List (Arg C) → Mem C → Nat → Mem C × Except Err Nat
  | [], m, p => (m, .ok p)
  | a :: as, m, p =>
    match alignPtr p a.alignment with
    | .error e => (m, .error e)
    | .ok p =>
      match storeArg a.bytes m p with
      | (m, .error e) => (m, .error e)
      | (m, .ok p) => storeArgs as m p

/-- parasol_cpu/src/proc/fhe_processor.rs:543-591 `set_up_function_call`: the memory and the return pointer. The stack
pointer register receives `m.sp`, the return register the returned address. -/
def setUpCall (m : Mem C) (c : CallData C) : Mem C × Except Err Nat :=
  match m.pushArg ⟨16, List.replicate c.allocSize (.plain 0)⟩ with
  | (m, .error e) => (m, .error e)
  | (m, .ok _) =>
    match storeArgs c.args m m.sp with
    | (m, .error e) => (m, .error e)
    | (m, .ok p) =>
      if c.retSize > 0 then
        match alignPtr p c.retAlign with
        | .error e => (m, .error e)
        | .ok p => (m, .ok p)
      else (m, .ok 0)

/-- memory/mod.rs:416-429 `Memory::new`: no pages, the stack pointer at the end of the stack, the stack mapped; the
`unwrap`s panic when the stack does not fit into the address space or is empty. -/
def Mem.new (start size : Nat) : Except Err (Mem C) :=
  match tryOffset start size with
  | .error _ => .error .panic
  | .ok sp =>
    match (⟨fun _ => none, sp⟩ : Mem C).allocateAt start size with
    | (m, .ok ()) => .ok m
    | (_, .error _) => .error .panic

/-- parasol_cpu/src/proc/fhe_processor.rs:611-631 `try_capture_return_value`, up to the conversion of the bytes. -/
def captureReturn (m : Mem C) (c : CallData C) (r : Nat) : Except Err (List (Byte C)) :=
  if c.retSize = 0 then .ok [] else m.loadAll r c.retSize 0

/-! ### loading a program -/

/-- A loadable segment of an ELF file (`elf` crate): the fields used at memory/mod.rs:354-379. -/
structure Segment where
  vaddr : Nat
  memsz : Nat
  offset : Nat
  filesz : Nat

/-- memory/mod.rs:382-391: the loop copying `n` bytes of the file at offset `f` to address `a`. -/
def copyFile (file : List (BitVec 8)) : Nat → Nat → Nat → Mem C → Mem C × Except Err Unit
  | 0, _, _, m => (m, .ok ())
  | n + 1, f, a, m =>
    match file[f]? with
    | none => (m, .error .outOfRange)
    | some b =>
      match m.store a (.plain b) with
      | (m, .error e) => (m, .error e)
      | (m, .ok ()) => copyFile file n (f + 1) (a + 1) m

/-- memory/mod.rs:355-391: one iteration of the loop over the segments (those with type `PT_LOAD`); `zip` stops at the
shorter of the two ranges. -/
def loadSegment (file : List (BitVec 8)) (s : Segment) (m : Mem C) : Mem C × Except Err Unit :=
  if s.memsz = 0 then (m, .ok ())
  else if s.memsz ≥ addrSpace ∨ s.vaddr ≥ addrSpace ∨ s.offset ≥ addrSpace ∨ s.filesz ≥ addrSpace then (m, .error .outOfRange)
  else
    match tryOffset s.vaddr s.memsz with
    | .error e => (m, .error e)
    | .ok _ =>
      match tryOffset s.offset s.filesz with
      | .error e => (m, .error e)
      | .ok _ =>
        match m.allocateAt s.vaddr s.memsz with
        | (m, .error e) => (m, .error e)
        | (m, .ok ()) => copyFile file (min s.filesz s.memsz) s.offset s.vaddr m

/-- memory/mod.rs:354-392: the loop over the segments. -/
def loadSegments (file : List (BitVec 8)) : List Segment → Mem C → Mem C × Except Err Unit
  | [], m => (m, .ok ())
  | s :: ss, m =>
    match loadSegment file s m with
    | (m, .error e) => (m, .error e)
    | (m, .ok ()) => loadSegments file ss m

/-- memory/mod.rs:336-392 `new_from_elf_with_config`: the memory contents (parsing of the ELF headers is the `elf` crate's;
the symbol table, 394-411, is not modelled). -/
def Mem.newFromElf (file : List (BitVec 8)) (segs : List Segment) (stackTop stackSize : Nat) : Except Err (Mem C) :=
  match Mem.new (C := C) stackTop stackSize with
  | .error e => .error e
  | .ok m => match loadSegments file segs m with | (m, .ok ()) => .ok m | (_, .error e) => .error e

end Spf.Cpu
