/-! Model of `parasol_cpu/src/memory/mod.rs`. Addresses (`Ptr32`, `u32`) are natural numbers below `2^32`; a byte is
plaintext or a list of eight encrypted bits of type `C` (shared cells in the code). Every operation returns the new memory
and a result; `Err.panic` stands for a Rust panic (overflow checks enabled). The mutex around the page table is left out:
every operation modelled here holds it for its whole access. -/

namespace Spf.Cpu

/-- parasol_cpu/src/memory/mod.rs:754-760 `Byte`. -/
inductive Byte (C : Type) | plain (v : BitVec 8) | cipher (bits : List C)
  deriving Repr, DecidableEq

/-- parasol_cpu/src/error.rs `Error`, the variants used below; `panic` is a Rust panic. -/
inductive Err
  | accessViolation (a : Nat) | unaligned (a : Nat) | pointerOverflow | zeroAllocation | noContiguousChunk (len : Nat)
  | typeSizeMismatch | encryptionMismatch | mixedData | tooManyBytes | unexpectedEncryptedByte (a : Nat)
  | illegalOperands | widthMismatch | unsupportedWidth | outOfGas (used limit : Nat) | branchNotPlaintext | bufferNotPlaintext
  | bufferNotCiphertext | halt | badOpcode | outOfRange | circuit | panic
  deriving Repr, DecidableEq

/-- memory/mod.rs:23 `PAGE_SIZE`. -/
def pageSize : Nat := 4096
/-- memory/mod.rs:32 `TOTAL_PAGES`. -/
def totalPages : Nat := 2 ^ 20
/-- one more than `u32::MAX`. -/
def addrSpace : Nat := 2 ^ 32

/-- memory/mod.rs:229-233 `Memory`: the page table and the stack pointer. (The symbol table is not modelled.) A page
(884-901) is a function of the offset. The vector of pages has `TOTAL_PAGES` entries; every page number computed from a
32-bit address is smaller. -/
structure Mem (C : Type) where
  pages : Nat → Option (Nat → Byte C)
  sp : Nat

variable {C : Type}

/-- memory/mod.rs:904-906 `page_id_from_pointer`. -/
def pageId (p : Nat) : Nat := (p &&& 0xFFFFF000) >>> 12
/-- memory/mod.rs:908-910 `offset_from_pointer`. -/
def pageOff (p : Nat) : Nat := p &&& 0xFFF

/-- memory/mod.rs:890-894 `Page::allocate`. -/
def freshPage : Nat → Byte C := fun _ => .plain 0

/-- memory/mod.rs:205-211 `Ptr32::try_offset`. -/
def tryOffset (p v : Nat) : Except Err Nat := if p + v < addrSpace then .ok (p + v) else .error .pointerOverflow

/-- memory/mod.rs:217-223 `Ptr32::try_signed_offset`. -/
def trySignedOffset (p : Nat) (v : Int) : Except Err Nat :=
  if 0 ≤ (p : Int) + v ∧ (p : Int) + v < 2 ^ 32 then .ok ((p : Int) + v).toNat else .error .pointerOverflow

/-- memory/mod.rs:523-536 `try_load`. -/
def Mem.load (m : Mem C) (p : Nat) : Except Err (Byte C) :=
  match m.pages (pageId p) with
  | some pg => .ok (pg (pageOff p))
  | none => .error (.accessViolation p)

/-- memory/mod.rs:538-552 `try_store`. -/
def Mem.store (m : Mem C) (p : Nat) (b : Byte C) : Mem C × Except Err Unit :=
  match m.pages (pageId p) with
  | some pg =>
    ({ m with pages := fun i => if i = pageId p then some (fun o => if o = pageOff p then b else pg o) else m.pages i }, .ok ())
  | none => (m, .error (.accessViolation p))

/-- memory/mod.rs:506-521 `try_allocate_at`: pages already present are retained. -/
def Mem.allocateAt (m : Mem C) (p len : Nat) : Mem C × Except Err Unit :=
  if len = 0 then (m, .error .zeroAllocation)
  else
    match tryOffset p len with
    | .error e => (m, .error e)
    | .ok e =>
      ({ m with pages := fun i =>
          if pageId p ≤ i ∧ i ≤ pageId e then some ((m.pages i).getD freshPage) else m.pages i }, .ok ())

/-- memory/mod.rs:615: `(base_id..base_id + num_pages).find(|i| pages[i].is_some())`. -/
def firstUsed (m : Mem C) (base num : Nat) : Option Nat := (List.range' base num).find? fun i => (m.pages i).isSome

/-- memory/mod.rs:614-629, the `while` loop; `fuel` bounds the number of iterations. -/
def allocLoop (m : Mem C) (num : Nat) : Nat → Nat → Option Nat
  | 0, _ => none
  | fuel + 1, base =>
    if base + num < totalPages then
      match firstUsed m base num with
      | some i => allocLoop m num fuel (i + 1)
      | none => some base
    else none

/-- memory/mod.rs:598-632 `try_allocate`; `len.next_multiple_of(PAGE_SIZE)` overflows for the largest lengths. -/
def Mem.allocate (m : Mem C) (len : Nat) : Mem C × Except Err Nat :=
  if len = 0 then (m, .error .zeroAllocation)
  else
    let num := (len + (pageSize - 1)) / pageSize
    if num * pageSize ≥ addrSpace then (m, .error .panic)
    else
      match allocLoop m num totalPages 1 with
      | some base =>
        ({ m with pages := fun i => if base ≤ i ∧ i < base + num then some freshPage else m.pages i }, .ok (base <<< 12))
      | none => (m, .error (.noContiguousChunk len))

/-- The loop `for (i, b) in bytes.enumerate() { self.try_store(ptr.try_offset(i)?, b)? }` (memory/mod.rs:646-648,
661-663). `i` is the index of the head. -/
def Mem.storeAll (m : Mem C) (p : Nat) : List (Byte C) → Nat → Mem C × Except Err Unit
  | [], _ => (m, .ok ())
  | b :: bs, i =>
    match tryOffset p i with
    | .error e => (m, .error e)
    | .ok q =>
      match m.store q b with
      | (m, .error e) => (m, .error e)
      | (m, .ok ()) => m.storeAll p bs (i + 1)

/-- The loop `for i in 0..size { data.push(self.try_load(ptr.try_offset(i)?)?) }` (memory/mod.rs:678-681, 700-703); `n`
iterations from index `i`. -/
def Mem.loadAll (m : Mem C) (p : Nat) : Nat → Nat → Except Err (List (Byte C))
  | 0, _ => .ok []
  | n + 1, i =>
    match tryOffset p i with
    | .error e => .error e
    | .ok q =>
      match m.load q with
      | .error e => .error e
      | .ok b =>
        match m.loadAll p n (i + 1) with
        | .error e => .error e
        | .ok bs => .ok (b :: bs)

/-- memory/mod.rs:714-729 `check_range_is_mapped`; `ptr.0 + len` overflows at the end of the address space. The address in
the error is not modelled. -/
def Mem.checkRange (m : Mem C) (p len : Nat) : Except Err Unit :=
  if p + len ≥ addrSpace then .error .panic
  else if (List.range' (p / pageSize) ((p + len) / pageSize + 1 - p / pageSize)).all fun i => (m.pages i).isSome then .ok ()
  else .error (.accessViolation p)

/-- memory/mod.rs:639-651 `try_write_type` (and 654-666 `try_write_type_dyn`) of a value with the given alignment, size and
bytes. -/
def Mem.writeBytes (m : Mem C) (p align size : Nat) (bytes : List (Byte C)) : Mem C × Except Err Unit :=
  if align = 0 then (m, .error .panic)
  else if p % align ≠ 0 then (m, .error (.unaligned p))
  else
    match m.checkRange p size with
    | .error e => (m, .error e)
    | .ok () => m.storeAll p bytes 0

/-- memory/mod.rs:669-684 `try_load_type` (and 687-707 `try_load_type_dyn`), up to the conversion of the bytes. -/
def Mem.readBytes (m : Mem C) (p align size : Nat) : Except Err (List (Byte C)) :=
  if align = 0 then .error .panic
  else if p % align ≠ 0 then .error (.unaligned p)
  else
    match m.checkRange p size with
    | .error e => .error e
    | .ok () => m.loadAll p size 0

/-- memory/mod.rs:554-561 `try_load_plaintext_byte`. -/
def Mem.loadPlain (m : Mem C) (p : Nat) : Except Err (BitVec 8) :=
  match m.load p with
  | .error e => .error e
  | .ok (.plain v) => .ok v
  | .ok (.cipher _) => .error (.unexpectedEncryptedByte p)

/-! ### words -/

/-- memory/mod.rs:94-101 `Extend`. -/
inductive Extend | zero | signed
  deriving Repr, DecidableEq

/-- memory/mod.rs:118-129: whether the bytes are of one kind. -/
def uniform : List (Byte C) → Bool
  | [] => true
  | .plain _ :: bs => bs.all fun | .plain _ => true | .cipher _ => false
  | .cipher _ :: bs => bs.all fun | .plain _ => false | .cipher _ => true

/-- memory/mod.rs:132-149: the extension byte; `zero` is a trivial encryption of zero. `none` = the `unwrap` of
`val.last()` panics (an encrypted byte without bits). -/
def extByte (zero : C) (last : Byte C) : Extend → Option (Byte C)
  | .zero => match last with
    | .plain _ => some (.plain 0)
    | .cipher _ => some (.cipher (List.replicate 8 zero))
  | .signed => match last with
    | .plain v => some (.plain (if v >>> 7 = 1#8 then 0xFF else 0))
    | .cipher bs => bs.getLast?.map fun b => .cipher (List.replicate 8 b)

/-- memory/mod.rs:108-162 `Word::try_from_bytes`. -/
def wordFromBytes (zero : C) (data : List (Byte C)) (ext : Extend) : Except Err (List (Byte C)) :=
  if data.length > 4 then .error .tooManyBytes
  else if data = [] then .ok (List.replicate 4 (.plain 0))
  else if ¬ uniform data then .error .mixedData
  else
    match data.getLast?.bind (extByte zero · ext) with
    | none => .error .panic
    | some x => .ok (data ++ List.replicate (4 - data.length) x)

end Spf.Cpu
