/-! Model of the scratch allocator, `sunscreen_tfhe/src/scratch.rs`. Heap blocks are address ranges; the system allocator
(behind `avec_rt!`) may return any suitably aligned range disjoint from the blocks it has handed out and not got back. -/
namespace Spf.Scratch

/-- A heap block: `Allocation`, scratch.rs:175-177 (`AVec` with its run-time alignment). -/
structure Block where
  addr : Nat
  len : Nat
  align : Nat
  deriving DecidableEq

/-- `ScratchBuffer<T>`, scratch.rs:187-192; `size` and `align` are those of `T`. -/
structure Buf where
  block : Block
  count : Nat
  size : Nat
  align : Nat
  deriving DecidableEq

/-- The allocator of one thread and the buffers it has handed out that are still alive. The free list
(`Scratch::stack`, scratch.rs:110-112) has its back at the head. -/
structure State where
  stack : List Block
  live : List Buf

/-- The initial state, `Scratch::new`, scratch.rs:118-122. -/
def State.init : State := ⟨[], []⟩

/-- The decision of `Scratch::allocate`, scratch.rs:131-164: the block to reuse, if any, and the remaining free list. An
insufficient block is freed (dropped from the model). -/
def takeTop (alignment len : Nat) : List Block → Option Block × List Block
  | [] => (none, [])
  | b :: rest => if b.align < alignment ∨ b.len < len then (none, rest) else (some b, rest)

/-- `Scratch::allocate`, scratch.rs:125-172. `simd` is `SIMD_ALIGN`; `addr` is where the system allocator would place a
new block. `none` is a panic: a zero-sized type or an overflow of the byte length (overflow checks on). -/
def allocate (simd : Nat) (s : State) (size align count addr : Nat) : Option (State × Buf) :=
  if size = 0 then none
  else if count * size ≥ 2 ^ 64 then none
  else
    let alignment := max simd align
    let len := count * size
    let block := match (takeTop alignment len s.stack).1 with
      | none => { addr, len, align := alignment }
      | some b => b
    let buf : Buf := { block, count, size, align }
    some ({ stack := (takeTop alignment len s.stack).2, live := buf :: s.live }, buf)

/-- `Drop for ScratchBuffer`, scratch.rs:214-218: the `i`-th live buffer returns its block to the free list. -/
def release (s : State) (i : Nat) : State :=
  match s.live[i]? with
  | none => s
  | some b => { stack := b.block :: s.stack, live := s.live.eraseIdx i }

/-- `as_slice` / `as_mut_slice`, scratch.rs:194-212: the bytes of the block are reinterpreted as as many elements of `T`
(the transmute keeps the length), then the first `count` are taken; `none` is the slice-index panic. The result is the
start address and the number of elements. -/
def Buf.view (b : Buf) : Option (Nat × Nat) := if b.count ≤ b.block.len then some (b.block.addr, b.count) else none

end Spf.Scratch
