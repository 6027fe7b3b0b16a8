import Verif.Proof.Call
/-! C29–C32: the memory. -/
namespace Spf.Props
open Spf.Cpu

/-! ### C29 -/

/-- The operations a history of a memory consists of (the public operations of `Memory` on bytes and typed values). -/
inductive MemOp (C : Type)
  | store (p : Nat) (b : Byte C)
  | load (p : Nat)
  | allocate (len : Nat)
  | allocateAt (p len : Nat)
  | write (p align size : Nat) (bytes : List (Byte C))
  | read (p align size : Nat)

/-- the memory after an operation, whether it succeeds or not -/
def MemOp.run {C : Type} (m : Mem C) : MemOp C → Mem C
  | .store p b => (m.store p b).1
  | .load _ => m
  | .allocate len => (m.allocate len).1
  | .allocateAt p len => (m.allocateAt p len).1
  | .write p al sz bytes => (m.writeBytes p al sz bytes).1
  | .read _ _ _ => m

/-- Specification: the operation does not store to address `a`. Addresses are 32-bit. -/
def MemOp.avoids {C : Type} (a : Nat) : MemOp C → Prop
  | .store p _ => p < 2 ^ 32 ∧ p ≠ a
  | .write p _ _ bytes => a < p ∨ p + bytes.length ≤ a
  | _ => True

theorem writeBytes_frame {C : Type} (m : Mem C) (p al sz : Nat) (bytes : List (Byte C)) (q : Nat) (hq : q < 2 ^ 32)
    (h : q < p ∨ p + bytes.length ≤ q) : (m.writeBytes p al sz bytes).1.load q = m.load q := by
  rw [Mem.writeBytes]
  split
  · rfl
  split
  · rfl
  split
  · rfl
  · exact storeAll_frame p bytes 0 m q hq (by simpa using h)

theorem writeBytes_isSome {C : Type} (m : Mem C) (p al sz : Nat) (bytes : List (Byte C)) (k : Nat) :
    ((m.writeBytes p al sz bytes).1.pages k).isSome = (m.pages k).isSome := by
  rw [Mem.writeBytes]
  split
  · rfl
  split
  · rfl
  split
  · rfl
  · exact storeAll_isSome p bytes 0 m k

theorem run_avoids {C : Type} (m : Mem C) (op : MemOp C) (a : Nat) (ha : a < 2 ^ 32) (h : op.avoids a) (x : Byte C)
    (hx : m.load a = .ok x) : (op.run m).load a = .ok x := by
  cases op with
  | store p b => show (m.store p b).1.load a = _; rw [store_frame m b h.1 ha h.2]; exact hx
  | load p => exact hx
  | allocate len => exact allocate_frame m len a x hx
  | allocateAt p len => exact allocateAt_load hx
  | write p al sz bytes => show (m.writeBytes p al sz bytes).1.load a = _; rw [writeBytes_frame m p al sz bytes a ha h]; exact hx
  | read p al sz => exact hx

/-- **C29 (read the last write).** If a store of `b` to `a` succeeds, a load from `a` after any further history of
operations, none of which stores to `a`, returns `b`. -/
theorem C29_read_last_write {C : Type} (m m' : Mem C) (a : Nat) (b : Byte C) (ha : a < 2 ^ 32)
    (hs : m.store a b = (m', .ok ())) (ops : List (MemOp C)) (hops : ∀ op ∈ ops, op.avoids a) :
    (ops.foldl MemOp.run m').load a = .ok b := by
  have h0 := store_ok hs
  clear hs
  induction ops generalizing m' with
  | nil => exact h0
  | cons op ops ih =>
    exact ih (op.run m') (fun o ho => hops o (by simp [ho])) (run_avoids m' op a ha (hops op (by simp)) b h0)

/-- **C29 (frame).** A store, successful or not, leaves what a load from any other address returns unchanged. -/
theorem C29_frame {C : Type} (m : Mem C) (p q : Nat) (b : Byte C) (hp : p < 2 ^ 32) (hq : q < 2 ^ 32) (h : p ≠ q) :
    (m.store p b).1.load q = m.load q := store_frame m b hp hq h

/-- **C29 (mapped).** A store succeeds exactly where a load does; where it does not, it fails with an access violation at
that address and leaves the memory unchanged. -/
theorem C29_unmapped {C : Type} (m : Mem C) (p : Nat) (b : Byte C) :
    ((m.store p b).2 = .ok () ↔ ∃ x, m.load p = .ok x) ∧
    ((∀ x, m.load p ≠ .ok x) → m.store p b = (m, .error (.accessViolation p)) ∧ m.load p = .error (.accessViolation p)) := by
  refine ⟨⟨?_, ?_⟩, ?_⟩
  · intro h
    by_cases hx : ∃ x, m.load p = .ok x
    · exact hx
    · have := (load_error (p := p) m).mp (fun b hb => hx ⟨b, hb⟩)
      rw [store_unmapped this] at h; cases h
  · rintro ⟨x, hx⟩; obtain ⟨m', hm⟩ := store_mapped (b := b) hx; rw [hm]
  · intro h
    have := (load_error (p := p) m).mp h
    exact ⟨store_unmapped this, this⟩

/-- **C29 (whole history).** What a load returns after a history starting anywhere is what it returned before, if the
history does not store to the address and the address was mapped. -/
theorem C29_history {C : Type} (m : Mem C) (a : Nat) (x : Byte C) (ha : a < 2 ^ 32) (hx : m.load a = .ok x)
    (ops : List (MemOp C)) (hops : ∀ op ∈ ops, op.avoids a) : (ops.foldl MemOp.run m).load a = .ok x := by
  induction ops generalizing m with
  | nil => exact hx
  | cons op ops ih =>
    exact ih (op.run m) (run_avoids m op a ha (hops op (by simp)) x hx) (fun o ho => hops o (by simp [ho]))

/-- an empty memory -/
def emptyMem : Mem Bool := ⟨fun _ => none, 0⟩

example : ∃ m p, emptyMem.allocateAt 4096 8 = (m, .ok ()) ∧ m.store 4100 (.plain 7) = (p, .ok ()) ∧
    (∀ op ∈ [MemOp.store 4101 (.plain 3), .allocate 100, .write 4104 2 2 [.plain 0, .cipher []], .load 4100],
      op.avoids (C := Bool) 4100) ∧
    (([MemOp.store 4101 (.plain 3), .load 4100] : List (MemOp Bool)).foldl MemOp.run p).load 4100 = .ok (.plain 7) := by
  refine ⟨_, _, rfl, rfl, by simp [MemOp.avoids], rfl⟩
example : emptyMem.store 5 (.plain 1) = (emptyMem, .error (.accessViolation 5)) := rfl

/-! ### C30 -/

theorem div_of_lt_page {b q : Nat} (h1 : b * 4096 ≤ q) (num : Nat) (h2 : q < b * 4096 + num * 4096) : b ≤ q / 4096 ∧ q / 4096 < b + num := by
  omega

/-- **C30.** A successful allocation of `len` bytes returns an address `p` which is page aligned, at least a page above
zero, and such that `p + len` is at most the last page of the 32-bit address space; no byte of the pages of the range was
mapped before; every byte of them is now mapped and reads as plaintext zero; loads from every other address are unchanged,
as is the stack pointer. -/
theorem C30_allocation {C : Type} (m m' : Mem C) (len p : Nat) (h : m.allocate len = (m', .ok p)) :
    ∃ size, len ≤ size ∧ size < len + 4096 ∧ size % 4096 = 0 ∧ p % 4096 = 0 ∧ 4096 ≤ p ∧ p + size ≤ 2 ^ 32 - 4096 ∧
      (∀ q, p ≤ q → q < p + size → m.load q = .error (.accessViolation q) ∧ m'.load q = .ok (.plain 0)) ∧
      (∀ q, q < 2 ^ 32 → (q < p ∨ p + size ≤ q) → m'.load q = m.load q) ∧ m'.sp = m.sp := by
  obtain ⟨h0, base, num, rfl, hn, hb, hlt, hfree, hsp, hpg⟩ := allocate_ok h
  refine ⟨num * 4096, by omega, by omega, by omega, by omega, by omega, by omega, ?_, ?_, hsp⟩
  · intro q h1 h2
    have hd := div_of_lt_page h1 num h2
    have hq : q < 2 ^ 32 := by omega
    rw [load_eq hq, load_eq hq, hfree _ hd.1 hd.2, hpg]
    dsimp only
    rw [if_pos hd]
    exact ⟨rfl, rfl⟩
  · intro q hq hr
    rw [load_eq hq, load_eq hq, hpg]
    dsimp only
    rw [if_neg (by omega)]

theorem run_mapped {C : Type} (m : Mem C) (op : MemOp C) (q : Nat) (h : ∃ x, m.load q = .ok x) : ∃ x, (op.run m).load q = .ok x := by
  cases op with
  | store p b => rw [load_isOk] at h ⊢; exact (store_pages_isSome m p b _).trans h
  | load p => exact h
  | allocate len => obtain ⟨x, hx⟩ := h; exact ⟨x, allocate_frame m len q x hx⟩
  | allocateAt p len => obtain ⟨x, hx⟩ := h; exact ⟨x, allocateAt_load hx⟩
  | write p al sz bytes => rw [load_isOk] at h ⊢; exact (writeBytes_isSome m p al sz bytes _).trans h
  | read p al sz => exact h

/-- A mapped address stays mapped for ever. -/
theorem C30_stays_mapped {C : Type} (ops : List (MemOp C)) (m : Mem C) (q : Nat) (h : ∃ x, m.load q = .ok x) :
    ∃ x, (ops.foldl MemOp.run m).load q = .ok x := by
  induction ops generalizing m with
  | nil => exact h
  | cons op ops ih => exact ih (op.run m) (run_mapped m op q h)

/-- **C30 (disjoint).** Two allocations, with any history between them, give disjoint ranges. -/
theorem C30_disjoint {C : Type} (m m1 m2 : Mem C) (len1 len2 p1 p2 : Nat) (ops : List (MemOp C))
    (h1 : m.allocate len1 = (m1, .ok p1)) (h2 : (ops.foldl MemOp.run m1).allocate len2 = (m2, .ok p2)) :
    p1 + len1 ≤ p2 ∨ p2 + len2 ≤ p1 := by
  obtain ⟨s1, a1, _, _, _, _, b1, c1, _⟩ := C30_allocation _ _ _ _ h1
  obtain ⟨s2, a2, _, _, _, _, b2, c2, _⟩ := C30_allocation _ _ _ _ h2
  have l1 := (allocate_ok h1).1
  have l2 := (allocate_ok h2).1
  rcases Nat.lt_or_ge p2 (p1 + len1) with g1 | g1
  case inr => exact Or.inl g1
  rcases Nat.lt_or_ge p1 (p2 + len2) with g2 | g2
  case inr => exact Or.inr g2
  exfalso
  have hq : ∃ q, p1 ≤ q ∧ q < p1 + len1 ∧ p2 ≤ q ∧ q < p2 + len2 := ⟨max p1 p2, by omega, by omega, by omega, by omega⟩
  obtain ⟨q, q1, q2, q3, q4⟩ := hq
  obtain ⟨x, hx⟩ := C30_stays_mapped ops m1 q ⟨_, (c1 q q1 (by omega)).2⟩
  rw [(c2 q q3 (by omega)).1] at hx
  cases hx

/-- **C30 (completeness).** An allocation of a positive length of at most `2^32 - 4096` bytes fails only with
`NoContiguousChunk`, only when every page-aligned range of that many bytes between the first page and the last page of the
address space contains a mapped byte, and then leaves the memory unchanged. -/
theorem C30_fails_only_when_full {C : Type} (m : Mem C) (len : Nat) (h0 : 0 < len) (hl : len ≤ 2 ^ 32 - 4096) :
    (∃ m' p, m.allocate len = (m', .ok p)) ∨
    (m.allocate len = (m, .error (.noContiguousChunk len)) ∧
      ∀ p, p % 4096 = 0 → 4096 ≤ p → p + len ≤ 2 ^ 32 - 4096 →
        ∃ q x, p ≤ q ∧ q < p + (len + 4095) / 4096 * 4096 ∧ m.load q = .ok x) := by
  rw [Mem.allocate, if_neg (by omega)]
  dsimp only
  rw [if_neg (by simp only [addrSpace, pageSize]; omega)]
  cases hc : allocLoop m ((len + (pageSize - 1)) / pageSize) totalPages 1 with
  | some b => left; exact ⟨_, _, rfl⟩
  | none =>
    right
    refine ⟨rfl, fun p hp1 hp2 hp3 => ?_⟩
    obtain ⟨i, i1, i2, i3⟩ := allocLoop_none _ _ (by omega) hc (p / 4096) (by omega) (by simp only [totalPages, pageSize]; omega)
    simp only [pageSize] at i2
    have hi : i * 4096 < 2 ^ 32 := by omega
    obtain ⟨x, hx⟩ := (load_isOk (p := i * 4096) m).mpr (by rw [pageId_eq hi]; simpa using i3)
    exact ⟨i * 4096, x, by omega, by omega, hx⟩

/-- **C30 (oversize).** An allocation of more than `2^32 - 4096` bytes overflows in rounding up to whole pages and panics
(overflow checks enabled); a zero-length one is refused. -/
theorem C30_oversize {C : Type} (m : Mem C) (len : Nat) :
    (2 ^ 32 - 4096 < len → m.allocate len = (m, .error .panic)) ∧ m.allocate 0 = (m, .error .zeroAllocation) := by
  refine ⟨fun h => ?_, rfl⟩
  rw [Mem.allocate, if_neg (by omega)]
  dsimp only
  rw [if_pos (by simp only [addrSpace, pageSize]; omega)]

/-- The stack allocated by `Memory::new` and by the ELF loader (`try_allocate_at`, memory/mod.rs:506-521): every byte of the
range is mapped, bytes mapped before keep their contents, the others of the range read as zero. -/
theorem C30_allocate_at {C : Type} (m m' : Mem C) (p len : Nat) (h : m.allocateAt p len = (m', .ok ())) :
    0 < len ∧ p + len < 2 ^ 32 ∧
    (∀ q, p ≤ q → q ≤ p + len → ∃ x, m'.load q = .ok x) ∧
    (∀ q x, q < 2 ^ 32 → m.load q = .ok x → m'.load q = .ok x) ∧
    (∀ q x, q < 2 ^ 32 → m.load q = .error (.accessViolation q) → m'.load q = .ok x → x = .plain 0) ∧ m'.sp = m.sp := by
  obtain ⟨h1, h2, h3, h4, h5, h6⟩ := allocateAt_ok h
  exact ⟨h1, h2, h3, fun q x _ => h4 q x, fun q x _ => h5 q x, h6⟩

theorem allocLoop_first {C : Type} (m : Mem C) (num f base : Nat) (hb : base + num < totalPages) (hf : firstUsed m base num = none) :
    allocLoop m num (f + 1) base = some base := by rw [allocLoop, if_pos hb, hf]

theorem emptyMem_allocate : ∃ m, emptyMem.allocate 5000 = (m, .ok 4096) := by
  have h : allocLoop emptyMem 2 totalPages 1 = some 1 := allocLoop_first emptyMem 2 (2 ^ 20 - 1) 1 (by decide) rfl
  rw [Mem.allocate, if_neg (by decide)]
  dsimp only
  rw [if_neg (by decide), show (5000 + (pageSize - 1)) / pageSize = 2 from rfl, h]
  exact ⟨_, rfl⟩

example : ∃ m, emptyMem.allocate 5000 = (m, .ok 4096) := emptyMem_allocate
example : ∃ m, emptyMem.allocateAt 0x8000 10 = (m, .ok ()) := ⟨_, rfl⟩

/-! ### C31 -/

theorem writeBytes_ok {C : Type} {m m' : Mem C} {p al sz : Nat} {bytes : List (Byte C)} (h : m.writeBytes p al sz bytes = (m', .ok ())) :
    al ≠ 0 ∧ p % al = 0 ∧ m.checkRange p sz = .ok () ∧ m.storeAll p bytes 0 = (m', .ok ()) := by
  rw [Mem.writeBytes] at h
  split at h
  · cases h
  rename_i h1
  split at h
  · cases h
  rename_i h2
  split at h
  · cases h
  rename_i h3
  exact ⟨h1, by simpa using h2, h3, h⟩

/-- **C31 (round trip).** If writing a value of type `t` at `p` succeeds, then loading a `t` from `p` — immediately or after
any history of operations that do not store into the value's bytes — yields that value. -/
theorem C31_roundtrip {C : Type} (t : Ty) (v : t.Val C) (ht : t.ok) (hv : t.wf v) (m m' : Mem C) (p : Nat)
    (h : m.writeType p t v = (m', .ok ())) (ops : List (MemOp C))
    (hops : ∀ op ∈ ops, ∀ a, p ≤ a → a < p + t.size → op.avoids a) :
    (ops.foldl MemOp.run m').loadType p t = .ok v := by
  obtain ⟨h1, h2, h3, h4⟩ := writeBytes_ok h
  have hlen := Ty.toBytes_length t v ht hv
  obtain ⟨hc1, hc2⟩ := checkRange_ok.mp h3
  obtain ⟨s1, s2⟩ := storeAll_ok p _ _ _ _ h4
  have hload : ∀ (k : Nat) (hk : k < (t.toBytes v).length), (ops.foldl MemOp.run m').load (p + 0 + k) = .ok (t.toBytes v)[k] := by
    intro k hk
    apply C29_history _ _ _ (by omega) (s2 k hk)
    intro op hop
    exact hops op hop _ (by omega) (by omega)
  have hchk : (ops.foldl MemOp.run m').checkRange p t.size = .ok () := by
    rw [checkRange_ok]
    refine ⟨hc1, fun i i1 i2 => ?_⟩
    have hi : i * 4096 < 2 ^ 32 := by omega
    have hm' : ∃ x, m'.load (i * 4096) = .ok x := by
      rw [load_isOk, pageId_eq hi]
      have := storeAll_isSome p (t.toBytes v) 0 m i
      rw [h4] at this
      simpa using this.trans (hc2 i i1 i2)
    have := C30_stays_mapped ops m' (i * 4096) hm'
    rw [load_isOk, pageId_eq hi] at this
    simpa using this
  rw [Mem.loadType, Mem.readBytes, if_neg h1, if_neg (by simpa using h2), hchk]
  dsimp only
  have := loadAll_of p (ops.foldl MemOp.run m') (t.toBytes v) 0 (by intro hne; have := s1 hne; omega) hload
  rw [hlen] at this
  rw [this]
  exact Ty.roundtrip t v ht hv

/-- **C31 (success), partial.** Writing succeeds when `p` is aligned and every byte of `p ..= p + size` is mapped — one byte
more than the value occupies. -/
theorem C31_success_partial {C : Type} (t : Ty) (v : t.Val C) (ht : t.ok) (hv : t.wf v) (m : Mem C) (p : Nat)
    (hal : p % t.alignment = 0) (hend : p + t.size < 2 ^ 32) (hmap : ∀ a, p ≤ a → a ≤ p + t.size → ∃ x, m.load a = .ok x) :
    ∃ m', m.writeType p t v = (m', .ok ()) := by
  have hlen := Ty.toBytes_length t v ht hv
  have hpos := Ty.align_pos t ht
  rw [Mem.writeType, Mem.writeBytes, if_neg (by omega), if_neg (by simpa using hal)]
  have hc : m.checkRange p t.size = .ok () := by
    rw [checkRange_ok]
    refine ⟨hend, fun i h1 h2 => ?_⟩
    have := hmap (max p (i * 4096)) (by omega) (by omega)
    rw [load_isOk, pageId_eq (by omega)] at this
    rw [← this]; congr 2; omega
  rw [hc]
  exact storeAll_succeeds p _ 0 m (fun _ => by omega) (fun k hk => hmap _ (by omega) (by omega))

/-- **C31 (refusals).** A misaligned write or load is refused with `UnalignedAccess` and changes nothing. -/
theorem C31_unaligned {C : Type} (t : Ty) (ht : t.ok) (v : t.Val C) (m : Mem C) (p : Nat) (h : p % t.alignment ≠ 0) :
    m.writeType p t v = (m, .error (.unaligned p)) ∧ m.loadType p t = .error (.unaligned p) := by
  have hpos := Ty.align_pos t ht
  constructor
  · rw [Mem.writeType, Mem.writeBytes, if_neg (by omega), if_pos h]
  · rw [Mem.loadType, Mem.readBytes, if_neg (by omega), if_pos h]

/-- **C31 is violated.** In a memory where exactly the page `[4096, 8192)` is mapped, every type whose size reaches exactly
to the end of the page is refused, although every one of its bytes is mapped and the address is aligned: the range check
includes the page of the address one past the end. -/
theorem C31_success_violated {C : Type} (t : Ty) (v : t.Val C) (ht : t.ok) (p : Nat) (hp : 4096 ≤ p) (hal : p % t.alignment = 0)
    (hend : p + t.size = 8192) :
    let m : Mem C := ⟨fun i => if i = 1 then some freshPage else none, 0⟩
    (∀ a, p ≤ a → a < p + t.size → ∃ x, m.load a = .ok x) ∧ (m.writeType p t v).2 ≠ .ok () ∧ (∀ x, m.loadType p t ≠ .ok x) := by
  intro m
  have hpos := Ty.align_pos t ht
  have hc : m.checkRange p t.size ≠ .ok () := by
    rw [Ne, checkRange_ok]
    rintro ⟨_, h⟩
    have := h 2 (by omega) (by omega)
    simp [m] at this
  refine ⟨?_, ?_, ?_⟩
  · intro a h1 h2
    rw [load_isOk, pageId_eq (by omega)]
    have : a / 4096 = 1 := by omega
    simp [m, this]
  · rw [Mem.writeType, Mem.writeBytes, if_neg (by omega), if_neg (by simpa using hal)]
    cases h : m.checkRange p t.size with
    | error e => simp
    | ok u => exact absurd h hc
  · intro x
    rw [Mem.loadType, Mem.readBytes, if_neg (by omega), if_neg (by simpa using hal)]
    cases h : m.checkRange p t.size with
    | error e => simp
    | ok u => exact absurd h hc

/-- The violation occurs for ordinary types: a `u32` in the last word of a page, a whole-page array. -/
example : (Ty.prim 4).ok ∧ 8188 % (Ty.prim 4).alignment = 0 ∧ 8188 + (Ty.prim 4).size = 8192 ∧
    (Ty.arr 4096 (.prim 1)).ok ∧ 4096 + (Ty.arr 4096 (.prim 1)).size = 8192 := by
  refine ⟨by simp [Ty.ok], rfl, rfl, by simp [Ty.ok], rfl⟩

/-- non-vacuity: arrays of encrypted and of machine integers -/
example : (Ty.arr 2 (.enc 16)).ok ∧ (Ty.arr 2 (.enc 16)).wf (C := Bool) [List.replicate 16 true, List.replicate 16 false] := by
  refine ⟨by simp [Ty.ok], rfl, by intro x hx; simp at hx; rcases hx with rfl | rfl <;> simp [Ty.wf]⟩
example : ∃ m m', emptyMem.allocateAt 4096 64 = (m, .ok ()) ∧
    m.writeType 4104 (.arr 2 (.prim 4)) [0x11223344#32, 0x55667788#32] = (m', .ok ()) ∧
    m'.loadType 4104 (.arr 2 (.prim 4)) = .ok [0x11223344#32, 0x55667788#32] ∧ m'.load 4104 = .ok (.plain 0x44) :=
  ⟨_, _, rfl, rfl, rfl, rfl⟩

/-! ### C32 -/

/-- Specification: the bits of a byte, least significant first; plaintext bits are encoded by `f`. -/
def byteBits {C : Type} (f : Bool → C) : Byte C → List C
  | .plain v => (List.range 8).map fun i => f (v.getLsbD i)
  | .cipher bs => bs

def isPlain {C : Type} : Byte C → Bool | .plain _ => true | .cipher _ => false

theorem uniform_iff {C : Type} (l : List (Byte C)) : uniform l = true ↔ (∀ b ∈ l, isPlain b = true) ∨ (∀ b ∈ l, isPlain b = false) := by
  cases l with
  | nil => simp [uniform]
  | cons b l =>
    have e1 : (fun (b : Byte C) => match b with | .plain _ => true | .cipher _ => false) = isPlain := by funext b; cases b <;> rfl
    cases b with
    | plain v =>
      simp only [uniform, List.all_eq_true, List.mem_cons]
      constructor
      · intro h; left; rintro x (rfl | hx)
        · rfl
        · have := h x hx; cases x <;> simp_all [isPlain]
      · rintro (h | h)
        · intro x hx; have := h x (Or.inr hx); cases x <;> simp_all [isPlain]
        · have := h _ (Or.inl rfl); simp [isPlain] at this
    | cipher v =>
      simp only [uniform, List.all_eq_true, List.mem_cons]
      constructor
      · intro h; right; rintro x (rfl | hx)
        · rfl
        · have := h x hx; cases x <;> simp_all [isPlain]
      · rintro (h | h)
        · have := h _ (Or.inl rfl); simp [isPlain] at this
        · intro x hx; have := h x (Or.inr hx); cases x <;> simp_all [isPlain]

/-- **C32 (plaintext).** One to four plaintext bytes form a word of four plaintext bytes whose 32-bit value, read
little-endian, is the little-endian value of the bytes zero- or sign-extended. -/
theorem C32_plaintext {C : Type} (zero : C) (vs : List (BitVec 8)) (h1 : vs ≠ []) (h4 : vs.length ≤ 4) (ext : Extend) :
    ∃ ws : List (BitVec 8), wordFromBytes zero (vs.map Byte.plain) ext = .ok (ws.map Byte.plain) ∧ ws.length = 4 ∧
      ∀ k, k < 32 → (ws.getD (k / 8) 0).getLsbD (k % 8) =
        if k < 8 * vs.length then (vs.getD (k / 8) 0).getLsbD (k % 8)
        else match ext with | .zero => false | .signed => (vs.getLast h1).getLsbD 7 := by
  have hu : uniform (vs.map (Byte.plain (C := C))) = true := by
    rw [uniform_iff]; left; intro b hb; obtain ⟨v, _, rfl⟩ := List.mem_map.mp hb; rfl
  have hlast : (vs.map (Byte.plain (C := C))).getLast? = some (.plain (vs.getLast h1)) := by
    rw [List.getLast?_map, List.getLast?_eq_some_getLast h1]; rfl
  rw [wordFromBytes, if_neg (by simpa using h4), if_neg (by simpa using h1), if_neg (by simp [hu]), hlast]
  have main : ∀ x : BitVec 8, ∀ k, k < 32 → ((vs ++ List.replicate (4 - vs.length) x).getD (k / 8) 0).getLsbD (k % 8) =
      if k < 8 * vs.length then (vs.getD (k / 8) 0).getLsbD (k % 8) else x.getLsbD (k % 8) := by
    intro x k hk
    by_cases h : k < 8 * vs.length
    · rw [if_pos h]
      have : k / 8 < vs.length := by omega
      simp [List.getD_eq_getElem?_getD, List.getElem?_append_left this]
    · rw [if_neg h]
      have h5 : vs.length ≤ k / 8 := by omega
      have h6 : k / 8 - vs.length < 4 - vs.length := by omega
      simp [List.getD_eq_getElem?_getD, List.getElem?_append_right h5, List.getElem?_replicate, h6]
  have hlen : ∀ x : BitVec 8, (vs ++ List.replicate (4 - vs.length) x).length = 4 := by intro x; simp; omega
  cases ext with
  | zero =>
    refine ⟨vs ++ List.replicate (4 - vs.length) 0, by simp [extByte], hlen _, ?_⟩
    intro k hk; rw [main _ k hk]; split
    · rfl
    · exact BitVec.getLsbD_zero
  | signed =>
    refine ⟨vs ++ List.replicate (4 - vs.length) (if (vs.getLast h1) >>> 7 = 1#8 then 0xFF#8 else 0#8), by simp [extByte], hlen _, ?_⟩
    intro k hk; rw [main _ k hk]; split
    · rfl
    · have hm : k % 8 < 8 := by omega
      have : ∀ (b : BitVec 8) (i : Nat), i < 8 → (if b >>> 7 = 1#8 then 0xFF#8 else 0#8).getLsbD i = b.getLsbD 7 := by
        intro b
        have hall : ∀ b : BitVec 8, ∀ i : Fin 8, (if b >>> 7 = 1#8 then 0xFF#8 else 0#8).getLsbD i.val = b.getLsbD 7 := by decide +kernel
        intro i hi; exact hall b ⟨i, hi⟩
      exact this _ _ hm

/-- **C32 (ciphertext).** One to four encrypted bytes of eight bits form a word of four encrypted bytes of eight bits; its 32
bits are the bits of the bytes in little-endian order, followed by encryptions of zero or copies of the top bit. -/
theorem C32_ciphertext {C : Type} (zero : C) (vs : List (List C)) (h1 : vs ≠ []) (h4 : vs.length ≤ 4) (h8 : ∀ v ∈ vs, v.length = 8) (ext : Extend) :
    ∃ ws : List (List C), wordFromBytes zero (vs.map Byte.cipher) ext = .ok (ws.map Byte.cipher) ∧ ws.length = 4 ∧
      (∀ w ∈ ws, w.length = 8) ∧
      ∃ x, ws.flatten = vs.flatten ++ List.replicate (32 - 8 * vs.length) x ∧
        match ext with | .zero => x = zero | .signed => vs.flatten.getLast? = some x := by
  have hu : uniform (vs.map (Byte.cipher (C := C))) = true := by
    rw [uniform_iff]; right; intro b hb; obtain ⟨v, _, rfl⟩ := List.mem_map.mp hb; rfl
  have hlast : (vs.map (Byte.cipher (C := C))).getLast? = some (.cipher (vs.getLast h1)) := by
    rw [List.getLast?_map, List.getLast?_eq_some_getLast h1]; rfl
  have hl8 : (vs.getLast h1).length = 8 := h8 _ (List.getLast_mem h1)
  have hne : vs.getLast h1 ≠ [] := by intro e; rw [e] at hl8; simp at hl8
  have hgl : (vs.getLast h1).getLast? = some ((vs.getLast h1).getLast hne) := List.getLast?_eq_some_getLast hne
  have hfl : vs.flatten.getLast? = some ((vs.getLast h1).getLast hne) := by
    have e : vs.dropLast ++ [vs.getLast h1] = vs := List.dropLast_concat_getLast h1
    have e2 : vs.flatten = vs.dropLast.flatten ++ vs.getLast h1 := by
      conv => lhs; rw [← e]
      rw [List.flatten_append]; simp
    rw [e2, List.getLast?_append, hgl]; rfl
  rw [wordFromBytes, if_neg (by simpa using h4), if_neg (by simpa using h1), if_neg (by simp [hu]), hlast]
  have hw : ∀ x : C, (∀ w ∈ vs ++ List.replicate (4 - vs.length) (List.replicate 8 x), w.length = 8) ∧
      (vs ++ List.replicate (4 - vs.length) (List.replicate 8 x)).length = 4 ∧
      (vs ++ List.replicate (4 - vs.length) (List.replicate 8 x)).flatten = vs.flatten ++ List.replicate (32 - 8 * vs.length) x := by
    intro x
    refine ⟨?_, by simp; omega, ?_⟩
    · intro w hw
      rcases List.mem_append.mp hw with h | h
      · exact h8 w h
      · rw [List.eq_of_mem_replicate h]; simp
    · rw [List.flatten_append]; congr 1
      rw [List.flatten_replicate_replicate]; congr 1; omega
  cases ext with
  | zero =>
    refine ⟨vs ++ List.replicate (4 - vs.length) (List.replicate 8 zero), ?_, (hw _).2.1, (hw _).1, zero, (hw _).2.2, rfl⟩
    simp [extByte]
  | signed =>
    refine ⟨vs ++ List.replicate (4 - vs.length) (List.replicate 8 ((vs.getLast h1).getLast hne)), ?_, (hw _).2.1, (hw _).1, _, (hw _).2.2, hfl⟩
    simp [extByte, hgl]

/-- **C32 (refusals).** More than four bytes, or a mixture of plaintext and encrypted bytes, are refused; no bytes at all
give a plaintext zero. -/
theorem C32_refused {C : Type} (zero : C) (l : List (Byte C)) (ext : Extend) :
    (4 < l.length → wordFromBytes zero l ext = .error .tooManyBytes) ∧
    (l.length ≤ 4 → (∃ v, Byte.plain v ∈ l) → (∃ v, Byte.cipher v ∈ l) → wordFromBytes zero l ext = .error .mixedData) ∧
    wordFromBytes zero [] ext = .ok (List.replicate 4 (Byte.plain 0)) := by
  refine ⟨fun h => by rw [wordFromBytes, if_pos h], ?_, rfl⟩
  rintro h4 ⟨v, hv⟩ ⟨w, hw⟩
  have hu : ¬ uniform l = true := by
    rw [uniform_iff]
    rintro (h | h)
    · have := h _ hw; simp [isPlain] at this
    · have := h _ hv; simp [isPlain] at this
  rw [wordFromBytes, if_neg (by omega), if_neg (by intro e; subst e; simp at hv), if_pos hu]

example : wordFromBytes false [.plain 0x34, .plain 0x82] .signed = .ok [.plain 0x34, .plain 0x82, .plain 0xFF, .plain 0xFF] := rfl
example : wordFromBytes 9 [.cipher [0,1,2,3,4,5,6,7]] .signed =
    .ok [.cipher [0,1,2,3,4,5,6,7], .cipher [7,7,7,7,7,7,7,7], .cipher [7,7,7,7,7,7,7,7], .cipher [7,7,7,7,7,7,7,7]] := rfl

end Spf.Props
