import Verif.Proof.Call
import Verif.Props.Memory
/-! C33, C34, C64, C65: call frames, the stack pointer, program loading. -/
namespace Spf.Props
open Spf.Cpu

theorem allocSize_facts {C : Type} (c : CallData C) (hret : c.retSize > 0 → 0 < c.retAlign) :
    c.allocSize % 16 = 0 ∧ argOffset c.args 0 ≤ c.allocSize ∧
    (c.retSize > 0 → nextMultipleOf (argOffset c.args 0) c.retAlign + c.retSize ≤ c.allocSize) := by
  rw [CallData.allocSize]
  refine ⟨nextMultipleOf_mod, ?_, ?_⟩
  · have h1 := (nextMultipleOf_ge (x := if c.retSize > 0 then nextMultipleOf (argOffset c.args 0) c.retAlign + c.retSize else argOffset c.args 0) (n := 16) (by omega)).1
    split at h1 <;> rename_i hr
    · have h2 := (nextMultipleOf_ge (x := argOffset c.args 0) (hret hr)).1
      rw [if_pos hr]; omega
    · rw [if_neg hr]; exact h1
  · intro hr
    rw [if_pos hr]
    exact (nextMultipleOf_ge (n := 16) (by omega)).1

/-- **C33 (partial: alignments dividing 16, 16-aligned stack pointer).** With enough mapped stack, setting up a call
succeeds; the new stack pointer is 16-aligned and `allocSize` bytes lower; there are addresses for the arguments, each
aligned for its type, in order, with disjoint ranges inside the reserved frame `[sp', sp)`, holding the argument's bytes; the
return pointer is aligned, after all arguments, and the return value fits into the frame; nothing outside the frame
changes. -/
theorem C33_call_layout_partial {C : Type} (m : Mem C) (c : CallData C)
    (hal : ∀ a ∈ c.args, 0 < a.alignment ∧ a.alignment ∣ 16) (hret : c.retSize > 0 → 0 < c.retAlign ∧ c.retAlign ∣ 16)
    (h0 : 0 < m.sp) (hsp : m.sp < 2 ^ 32) (h16 : m.sp % 16 = 0) (hfit : c.allocSize ≤ m.sp)
    (hmap : ∀ q, m.sp - c.allocSize ≤ q → q < m.sp → ∃ x, m.load q = .ok x) :
    ∃ (m' : Mem C) (r : Nat) (addrs : List Nat), setUpCall m c = (m', .ok r) ∧ m'.sp = m.sp - c.allocSize ∧ m'.sp % 16 = 0 ∧ addrs.length = c.args.length ∧
      (∀ (i : Nat) (hi : i < c.args.length) (hi' : i < addrs.length),
        addrs[i] % c.args[i].alignment = 0 ∧ m'.sp ≤ addrs[i] ∧ addrs[i] + c.args[i].bytes.length ≤ m.sp ∧
        (∀ (k : Nat) (hk : k < c.args[i].bytes.length), m'.load (addrs[i] + k) = .ok c.args[i].bytes[k]) ∧
        (∀ (j : Nat) (hj' : j < addrs.length), i < j → addrs[i] + c.args[i].bytes.length ≤ addrs[j]) ∧
        (c.retSize > 0 → addrs[i] + c.args[i].bytes.length ≤ r)) ∧
      (c.retSize > 0 → r % c.retAlign = 0 ∧ m'.sp ≤ r ∧ r + c.retSize ≤ m.sp) ∧
      (c.retSize = 0 → r = 0) ∧
      (∀ q, q < 2 ^ 32 → (q < m'.sp ∨ m.sp ≤ q) → m'.load q = m.load q) := by
  obtain ⟨f1, f2, f3⟩ := allocSize_facts c (fun h => (hret h).1)
  have hlenr : (List.replicate c.allocSize (Byte.plain (C := C) 0)).length = c.allocSize := by simp
  obtain ⟨m1, hp⟩ := pushArg_succeeds (m := m) (a := ⟨16, List.replicate c.allocSize (.plain 0)⟩) h0 hsp (by show 0 < 16; omega) h16
    (by rw [hlenr]; exact hfit) (by rw [hlenr]; exact hmap)
  have hpo := pushArg_ok hsp hp
  dsimp only at hpo
  rw [h16] at hpo
  obtain ⟨_, _, _, g1, _, g3, g4⟩ := hpo
  rw [hlenr] at hp g1 g4
  have hfr : (m.sp - c.allocSize) % 16 = 0 := by omega
  obtain ⟨m2, t1, t2, t3, t4, t5⟩ := storeArgs_ok (m.sp - c.allocSize) hfr c.args 0 m1 hal (by omega)
    (fun q q1 q2 => by have := hmap q q1 (by omega); rw [load_isOk] at this ⊢; rw [g3]; exact this)
  have hpos : ∀ a ∈ c.args, 0 < a.alignment := fun a ha => (hal a ha).1
  have hdvd : ∀ al, al ∣ 16 → (m.sp - c.allocSize) % al = 0 := fun al h =>
    Nat.mod_eq_zero_of_dvd (Nat.dvd_trans h (Nat.dvd_of_mod_eq_zero hfr))
  have hset : ∃ r, setUpCall m c = (m2, .ok r) ∧
      (c.retSize > 0 → r = m.sp - c.allocSize + nextMultipleOf (argOffset c.args 0) c.retAlign) ∧ (c.retSize = 0 → r = 0) := by
    rw [setUpCall, hp]
    dsimp only
    rw [g1, show m.sp - c.allocSize = m.sp - c.allocSize + 0 from rfl, t1]
    dsimp only
    by_cases hr : c.retSize > 0
    · have := f3 hr
      rw [if_pos hr, alignPtr_frame hfr (hret hr).1 (hret hr).2 (by omega)]
      exact ⟨_, rfl, fun _ => rfl, fun e => absurd hr (by omega)⟩
    · rw [if_neg hr]; exact ⟨_, rfl, fun e => absurd e hr, fun _ => rfl⟩
  obtain ⟨r, hr1, hr2, hr3⟩ := hset
  have hsp2 : m2.sp = m.sp - c.allocSize := t2.trans g1
  refine ⟨m2, r, (argOffsets c.args 0).map (m.sp - c.allocSize + ·), hr1, hsp2, by rw [hsp2]; exact hfr, by simp [argOffsets_length], ?_, ?_, hr3, ?_⟩
  · intro i hi hi'
    have hio : i < (argOffsets c.args 0).length := by rw [argOffsets_length]; exact hi
    obtain ⟨b1, b2, b3⟩ := argOffsets_bounds c.args 0 hpos i hi hio
    rw [List.getElem_map, hsp2]
    refine ⟨?_, by omega, by omega, ?_, ?_, ?_⟩
    · rw [Nat.add_mod, hdvd _ (hal _ (List.getElem_mem hi)).2, b2]; simp
    · intro k hk; exact t4 i hi hio k hk
    · intro j hj hij
      rw [List.getElem_map]
      have := argOffsets_order c.args 0 hpos i j hi hio (by simpa using hj) hij
      omega
    · intro hr
      rw [hr2 hr]
      have := (nextMultipleOf_ge (x := argOffset c.args 0) (hret hr).1).1
      omega
  · intro hr
    rw [hr2 hr, hsp2]
    have := f3 hr
    refine ⟨?_, by omega, by omega⟩
    rw [Nat.add_mod, hdvd _ (hret hr).2, nextMultipleOf_mod]; simp
  · intro q hq hr
    rw [hsp2] at hr
    rw [t5 q hq (by omega)]
    exact g4 q hq (by omega)

/-- Two mapped pages from 4096, stack pointer `sp`. -/
def stackMem (sp : Nat) : Mem Bool := ⟨fun i => if i = 1 ∨ i = 2 then some freshPage else none, sp⟩

/-- **C33 is violated for alignments above 16.** A 256-bit encrypted integer (alignment and size 32) passed with the
16-aligned stack pointer 8208: the reserved frame is `[8176, 8208)`, but the argument's last 16 bytes are written to
`[8208, 8224)`, over the caller's data. -/
theorem C33_alignment_violated :
    let c : CallData Bool := ⟨[⟨(Ty.enc 256).alignment, (Ty.enc 256).toBytes (List.replicate 256 true)⟩], 0, 1⟩
    ∃ m', setUpCall (stackMem 8208) c = (m', .ok 0) ∧ c.allocSize = 32 ∧ m'.sp = 8176 ∧
      (stackMem 8208).load 8223 = .ok (.plain 0) ∧ m'.load 8223 = .ok (.cipher (List.replicate 8 true)) := by
  intro c
  have hc : c.allocSize = 32 := by decide +kernel
  have e : setUpCall (stackMem 8208) c = ((setUpCall (stackMem 8208) c).1, .ok 0) := by
    have : (setUpCall (stackMem 8208) c).2 = .ok 0 := by decide +kernel
    rw [← this]
  exact ⟨_, e, hc, by decide +kernel, by decide +kernel, by decide +kernel⟩

/-- **C33 is violated for unaligned stack pointers.** With stack pointer 8196 (a stack of 4100 bytes at 4096), the frame
reserved for a single `u8` and a `u64` starts at the misaligned address 8168; the second argument is aligned by absolute
address but the frame size was computed by offset. Here the stack pointer given to the program is not 16-aligned. -/
theorem C33_unaligned_sp_violated :
    let c : CallData Bool := ⟨[⟨1, [.plain 1]⟩], 0, 1⟩
    ∃ m', Mem.new (C := Bool) 4096 4100 = .ok (stackMem 8196) ∧ setUpCall (stackMem 8196) c = (m', .ok 0) ∧ m'.sp % 16 = 8 := by
  refine ⟨_, ?_, rfl, by decide +kernel⟩
  have : (fun i : Nat => if 1 ≤ i ∧ i ≤ 2 then some (freshPage (C := Bool)) else none) = fun i => if i = 1 ∨ i = 2 then some freshPage else none := by
    funext i
    by_cases h : i = 1 ∨ i = 2
    · rw [if_pos h, if_pos (by omega)]
    · rw [if_neg h, if_neg (by omega)]
  show Except.ok (⟨fun i : Nat => if 1 ≤ i ∧ i ≤ 2 then some (freshPage (C := Bool)) else none, 8196⟩ : Mem Bool) = _
  rw [this]; rfl

example : let c : CallData Bool := ⟨[⟨1, [.plain 1]⟩, ⟨4, [.plain 1, .plain 2, .plain 3, .plain 4]⟩, ⟨2, [.plain 9, .plain 9]⟩], 4, 4⟩
    (∀ a ∈ c.args, 0 < a.alignment ∧ a.alignment ∣ 16) ∧ (c.retSize > 0 → 0 < c.retAlign ∧ c.retAlign ∣ 16) ∧ c.allocSize = 16 ∧
    (stackMem 8192).sp % 16 = 0 ∧ (∀ q, 8176 ≤ q → q < 8192 → ∃ x, (stackMem 8192).load q = .ok x) := by
  refine ⟨by simp, by decide, rfl, rfl, ?_⟩
  intro q h1 h2
  rw [load_isOk, pageId_eq (by omega)]
  have : q / 4096 = 1 := by omega
  simp [stackMem, this]

/-- **C33 (return value).** When the program has left the bytes of a value of the return type at the return address, capturing
the return value yields exactly these bytes, and they convert back to the value. -/
theorem C33_return_value {C : Type} (m : Mem C) (c : CallData C) (t : Ty) (v : t.Val C) (r : Nat) (ht : t.ok) (hv : t.wf v)
    (hs : c.retSize = t.size) (hr : r + t.size ≤ 2 ^ 32)
    (hb : ∀ (k : Nat) (hk : k < (t.toBytes v).length), m.load (r + k) = .ok (t.toBytes v)[k]) :
    captureReturn m c r = .ok (t.toBytes v) ∧ t.fromBytes (t.toBytes v) = .ok v := by
  refine ⟨?_, Ty.roundtrip t v ht hv⟩
  have hl := Ty.toBytes_length t v ht hv
  unfold captureReturn
  split
  · rw [toBytes_zero t v ht hv (by omega)]
  · rw [hs, ← hl]
    exact loadAll_of r m (t.toBytes v) 0 (fun _ => by omega) (fun k hk => by simpa using hb k hk)

/-- a 16-bit return value at 4098 -/
example : let t : Ty := .enc 16; let v : t.Val Bool := (List.replicate 16 true : List Bool)
    t.ok ∧ t.wf v ∧ (t.toBytes v).length = 2 ∧ (4098 : Nat) + t.size ≤ 2 ^ 32 := by
  refine ⟨⟨by decide, by decide⟩, ?_, rfl, by decide⟩
  show List.length (List.replicate 16 true) = 16
  rfl

/-! ### C34 -/

/-- **C34 (what a push does).** A successful push of an argument moves the stack pointer down by
`(align − sp mod align) mod align` and by the argument's length, and stores the argument's bytes there. -/
theorem C34_push {C : Type} (m m' : Mem C) (a : Arg C) (p : Nat) (hsp : m.sp < 2 ^ 32) (h : m.pushArg a = (m', .ok p)) :
    m'.sp = p ∧ p + a.bytes.length + (a.alignment - m.sp % a.alignment) % a.alignment = m.sp ∧
    (∀ (k : Nat) (hk : k < a.bytes.length), m'.load (p + k) = .ok a.bytes[k]) ∧
    (∀ q, q < 2 ^ 32 → (q < p ∨ m.sp < q) → m'.load q = m.load q) := by
  obtain ⟨_, h2, h3, h4, h5, _, h7⟩ := pushArg_ok hsp h
  exact ⟨h4, by omega, h5, fun q hq hr => h7 q hq (by omega)⟩

/-- **C34 (exactly when).** For an argument whose length is a multiple of its alignment, the stack pointer after the push is
aligned if and only if twice the old stack pointer was a multiple of the alignment. -/
theorem C34_aligned_iff {C : Type} (m m' : Mem C) (a : Arg C) (p : Nat) (hsp : m.sp < 2 ^ 32) (h : m.pushArg a = (m', .ok p))
    (hlen : a.alignment ∣ a.bytes.length) : p % a.alignment = 0 ↔ (2 * m.sp) % a.alignment = 0 := by
  obtain ⟨ha, h2, h3, _, _, _, _⟩ := pushArg_ok hsp h
  have h4 := (C34_push m m' a p hsp h).2.1
  obtain ⟨l, hl⟩ := hlen
  have hd := Nat.div_add_mod m.sp a.alignment
  have hlt := Nat.mod_lt m.sp ha
  have key : a.alignment ∣ p ↔ a.alignment ∣ 2 * m.sp := by
    by_cases hz : m.sp % a.alignment = 0
    · have e1 : a.alignment ∣ m.sp := Nat.dvd_of_mod_eq_zero hz
      rw [hz] at h4; simp only [Nat.sub_zero, Nat.mod_self, Nat.add_zero] at h4
      have e2 : a.alignment ∣ p := by
        exact (Nat.dvd_add_iff_left (hl ▸ Nat.dvd_mul_right _ _)).mpr (h4 ▸ e1)
      exact ⟨fun _ => Nat.dvd_trans e1 (Nat.dvd_mul_left _ _), fun _ => e2⟩
    · rw [Nat.mod_eq_of_lt (by omega)] at h4
      -- p = 2 sp - alignment * (l + 1 + sp / alignment)
      have e : p + a.alignment * (l + 1 + m.sp / a.alignment) = 2 * m.sp := by
        rw [Nat.mul_add, Nat.mul_add, Nat.mul_one, ← hl]; omega
      rw [← e]
      exact Nat.dvd_add_iff_left (Nat.dvd_mul_right _ _)
  rw [← Nat.dvd_iff_mod_eq_zero, ← Nat.dvd_iff_mod_eq_zero]
  exact key

/-- **C34 (partial).** From a stack pointer which is a multiple of the argument's alignment, pushing an argument whose length
is a multiple of the alignment gives an aligned stack pointer. -/
theorem C34_aligned_partial {C : Type} (m m' : Mem C) (a : Arg C) (p : Nat) (hsp : m.sp < 2 ^ 32) (h : m.pushArg a = (m', .ok p))
    (hlen : a.alignment ∣ a.bytes.length) (hal : m.sp % a.alignment = 0) : m'.sp % a.alignment = 0 := by
  rw [(C34_push m m' a p hsp h).1, C34_aligned_iff m m' a p hsp h hlen, Nat.mul_mod, hal]; simp

/-- **C34 is violated.** For every stack pointer not a multiple of 8, setting up any call leaves the program with a stack
pointer that is not a multiple of 16 (the padding is added in the wrong direction). -/
theorem C34_aligned_violated {C : Type} (m m' : Mem C) (n p : Nat) (hsp : m.sp < 2 ^ 32) (h8 : m.sp % 8 ≠ 0) (hn : 16 ∣ n)
    (h : m.pushArg ⟨16, List.replicate n (.plain 0)⟩ = (m', .ok p)) : m'.sp % 16 ≠ 0 := by
  rw [(C34_push m m' _ p hsp h).1, Ne]
  have := C34_aligned_iff m m' ⟨16, List.replicate n (.plain 0)⟩ p hsp h (by simpa using hn)
  dsimp only at this
  rw [this]; omega

/-- **C34 is violated (2).** Padding is stored at the stack pointer before it is decremented: a push from a stack pointer
that is not aligned overwrites the byte at the stack pointer, which belongs to the caller. -/
theorem C34_overwrites_caller : ∃ m m' : Mem Bool, m.load m.sp = .ok (.plain 7) ∧ m.pushArg ⟨4, [.plain 1, .plain 1, .plain 1, .plain 1]⟩ = (m', .ok 8184) ∧
    m'.load m.sp = .ok (.plain 0) := by
  refine ⟨((stackMem 8190).store 8190 (.plain 7)).1, _, rfl, rfl, rfl⟩

example : ∃ m', (stackMem 8196).pushArg ⟨16, List.replicate 16 (.plain 0)⟩ = (m', .ok 8168) := ⟨_, rfl⟩
example : ∃ m', (stackMem 8192).pushArg ⟨16, List.replicate 16 (.plain 0)⟩ = (m', .ok 8176) := ⟨_, rfl⟩

/-! ### C64 -/

/-- **C64 is violated.** Setting up a call lowers the memory's stack pointer by the frame size; nothing in a run restores it
(`run_program_with_options` never stores to it), so the next call starts below the frame of the previous one, and after
finitely many calls with the same arguments on the same memory the stack is exhausted. Here: the stack pointer after any
number `n` of set-ups. -/
theorem C64_stack_pointer_violated {C : Type} (c : CallData C)
    (hal : ∀ a ∈ c.args, 0 < a.alignment ∧ a.alignment ∣ 16) (hret : c.retSize > 0 → 0 < c.retAlign ∧ c.retAlign ∣ 16)
    (n : Nat) (m : Mem C) (hsp : m.sp < 2 ^ 32) (h16 : m.sp % 16 = 0) (hfit : n * c.allocSize < m.sp)
    (hmap : ∀ q, m.sp - n * c.allocSize ≤ q → q < m.sp → ∃ x, m.load q = .ok x) :
    (n.repeat (fun m => (setUpCall m c).1) m).sp = m.sp - n * c.allocSize ∧
    ∀ q, q < 2 ^ 32 → ((∃ x, (n.repeat (fun m => (setUpCall m c).1) m).load q = .ok x) ↔ ∃ x, m.load q = .ok x) := by
  suffices H : ∀ k ≤ n, (k.repeat (fun m => (setUpCall m c).1) m).sp = m.sp - k * c.allocSize ∧
      ∀ q, q < 2 ^ 32 → ((∃ x, (k.repeat (fun m => (setUpCall m c).1) m).load q = .ok x) ↔ ∃ x, m.load q = .ok x) from H n (Nat.le_refl _)
  intro k
  induction k with
  | zero => intro _; exact ⟨by simp [Nat.repeat], fun q _ => Iff.rfl⟩
  | succ k ih =>
    intro hk
    obtain ⟨i1, i2⟩ := ih (by omega)
    show ((setUpCall (k.repeat (fun m => (setUpCall m c).1) m) c).1.sp = _) ∧ _
    have hmul : (k + 1) * c.allocSize ≤ n * c.allocSize := Nat.mul_le_mul_right _ hk
    rw [Nat.succ_mul] at hmul ⊢
    have f1 := (allocSize_facts c (fun h => (hret h).1)).1
    have hk16 : k * c.allocSize % 16 = 0 := by rw [Nat.mul_mod, f1]; simp
    have hmapk : ∀ q, (k.repeat (fun m => (setUpCall m c).1) m).sp - c.allocSize ≤ q → q < (k.repeat (fun m => (setUpCall m c).1) m).sp →
        ∃ x, (k.repeat (fun m => (setUpCall m c).1) m).load q = .ok x := by
      intro q h1 h2
      rw [i1] at h1 h2
      exact (i2 q (by omega)).mpr (hmap q (by omega) (by omega))
    obtain ⟨m', r, addrs, s1, s2, _, _, _, _, _, s8⟩ := C33_call_layout_partial _ c hal hret (by rw [i1]; omega) (by rw [i1]; omega)
      (by rw [i1]; omega) (by rw [i1]; omega) hmapk
    show _ ∧ ∀ q, q < 2 ^ 32 → ((∃ x, (setUpCall (k.repeat (fun m => (setUpCall m c).1) m) c).1.load q = .ok x) ↔ _)
    rw [s1]
    refine ⟨by rw [s2, i1]; omega, fun q hq => ?_⟩
    rw [← i2 q hq]
    -- mapping is unchanged
    have hsame : ∀ j, (m'.pages j).isSome = ((k.repeat (fun m => (setUpCall m c).1) m).pages j).isSome := setUpCall_isSome (by rw [i1]; omega) s1
    dsimp only
    rw [load_isOk, load_isOk, hsame]

/-! ### C65 -/

/-- Specification: the address belongs to the memory range of the segment. -/
def _root_.Spf.Cpu.Segment.covers (s : Segment) (a : Nat) : Prop := s.vaddr ≤ a ∧ a < s.vaddr + s.memsz

/-- **C65.** If loading a program succeeds, then for every loadable segment whose address range meets no other segment's,
every address of the range is mapped, and holds the byte of the file for the first `filesz` bytes and zero for the rest. -/
theorem C65_program_loaded {C : Type} (file : List (BitVec 8)) (segs : List Segment) (top size : Nat) (m : Mem C)
    (h : Mem.newFromElf file segs top size = .ok m) (pre post : List Segment) (s : Segment) (hs : segs = pre ++ s :: post)
    (hdisj : ∀ t ∈ pre ++ post, ∀ a, s.covers a → ¬ t.covers a) :
    (∀ k, k < s.memsz → m.load (s.vaddr + k) =
      .ok (.plain (if k < s.filesz then file.getD (s.offset + k) 0 else 0))) ∧
    (∀ k, k < s.memsz → k < s.filesz → s.offset + k < file.length) := by
  subst hs
  rw [Mem.newFromElf] at h
  cases hn : Mem.new (C := C) top size with
  | error e => rw [hn] at h; cases h
  | ok m0 =>
    rw [hn] at h; dsimp only at h
    cases hl : loadSegments file (pre ++ s :: post) m0 with
    | mk mm r =>
      rw [hl] at h
      cases r with
      | error e => cases h
      | ok u =>
        cases h
        obtain ⟨m1, p1, p2⟩ := loadSegments_append file pre (s :: post) m0 m hl
        rw [loadSegments] at p2
        cases hs : loadSegment file s m1 with
        | mk m2 r =>
          rw [hs] at p2
          cases r with
          | error e => cases p2
          | ok u =>
            dsimp only at p2
            obtain ⟨_, _, l3, l4⟩ := loadSegment_ok hs
            have out : ∀ k, k < s.memsz → ∀ t ∈ pre ++ post, s.vaddr + k < t.vaddr ∨ t.vaddr + t.memsz ≤ s.vaddr + k := by
              intro k hk t ht
              have := hdisj t ht (s.vaddr + k) ⟨by omega, by omega⟩
              simp only [Segment.covers] at this; omega
            constructor
            · intro k hk
              have hlt := l3 (by omega)
              have hq : s.vaddr + k < 2 ^ 32 := by omega
              have hc := (loadSegments_keep file _ hq pre m0 m1 p1 (fun t ht => out k hk t (by simp [ht]))).2 (new_clear hn _)
              have hk2 := (loadSegments_keep file _ hq post m2 m p2 (fun t ht => out k hk t (by simp [ht]))).1
              apply hk2
              by_cases hf : k < s.filesz
              · obtain ⟨b, b1, b2⟩ := (l4 k hk).1 hf
                rw [b2, if_pos hf, List.getD_eq_getElem?_getD, b1]; rfl
              · rw [if_neg hf]; exact (l4 k hk).2 (by omega) hc
            · intro k hk hf
              obtain ⟨b, b1, _⟩ := (l4 k hk).1 hf
              exact (List.getElem?_eq_some_iff.mp b1).1

/-- non-vacuity: two segments sharing a page, the second with a zero-filled tail -/
example : ∃ m : Mem Bool, Mem.newFromElf [1, 2, 3, 4, 5] [⟨4096, 2, 1, 2⟩, ⟨4100, 4, 3, 2⟩] 0x8000 64 = .ok m ∧
    m.load 4096 = .ok (.plain 2) ∧ m.load 4101 = .ok (.plain 5) ∧ m.load 4103 = .ok (.plain 0) := ⟨_, rfl, rfl, rfl, rfl⟩

end Spf.Props
