import Verif.Proof.LoadStore
/-! C66: what a store writes, a load of the same width reads. -/
namespace Spf.Props
open Spf.Cpu

/-- a store of `width` bits of register `v` through the address register `r` -/
def storeInst (r v : Nat) (width : Nat) (offset : Int) : Inst := ⟨.store, [(r : Int), (v : Int), (width : Int), offset]⟩
/-- a load of `width` bits into register `d` -/
def loadInst (d r : Nat) (width : Nat) (offset : Int) : Inst := ⟨.load, [(d : Int), (r : Int), (width : Int), offset]⟩

/-- The low `w` bits of a register. -/
def lowBits (w : Nat) : Reg → Reg
  | .plain x _ => .plain (x % 2 ^ w) w
  | .cipher b => .cipher (b.take w)

/-- **C66, partial.** Let the address `p + offset` be in range and aligned to the access, all its bytes mapped, and the stored
register a plaintext or at least as wide as the access; let it not be the address register. Then the store succeeds, leaves all
other bytes alone, and a load of the same width at the same address yields the low `8·⌊width/8⌋` bits — for widths that are
multiples of 8 these are all the bits of the access. -/
theorem C66_roundtrip_partial (r v d k : Nat) (off : Int) (p pw base : Nat) (x : Reg) (m : View)
    (hrv : r ≠ v) (hk : k ∈ [1, 2, 4, 8, 16]) (hbase : trySignedOffset (p % 2 ^ 32) off = .ok base) (hal : base % k = 0)
    (hmap : ∀ j, j < k → m (base + j) ≠ none)
    (hx : x.isPlain = false → 8 * k ≤ x.width) :
    ∃ m', (storeInst r v (8 * k) off).exec [.plain p pw, x] m = .ok ([], m') ∧
      (∀ a, a < base ∨ base + k ≤ a → m' a = m a) ∧
      (loadInst d r (8 * k) off).exec [.plain p pw] m' = .ok ([lowBits (8 * k) x], m') := by
  have hk0 : 0 < k := by simp at hk; omega
  have hnb : 8 * k / 8 = k := by omega
  have hval : invalidAlignment base k = false := by
    unfold invalidAlignment
    simp at hk
    rcases hk with rfl | rfl | rfl | rfl | rfl <;> simp [hal] <;> decide
  have hsp : ∀ vs : List Reg, span (.plain p pw :: vs) (8 * k) off = .ok (List.range' base k) := by
    intro vs
    simp only [span, hbase, hnb, hval]; rfl
  have hsb : ∀ j, j < k → ∃ y, storeByte x (0 + j) = .ok y := by
    intro j hj
    cases x with
    | plain val w => exact ⟨_, rfl⟩
    | cipher b =>
      have := hx rfl
      simp only [Reg.width] at this
      simp only [storeByte]; rw [if_pos (by omega)]; exact ⟨_, rfl⟩
  obtain ⟨m', hm'⟩ := storeBytes_total k base 0 m hsb hmap
  refine ⟨m', ?_, ?_, ?_⟩
  · simp only [storeInst, Inst.exec, Inst.nat, Inst.arg, List.getD_cons_zero, List.getD_cons_succ, Int.toNat_natCast]
    rw [if_neg hrv, hsp]; dsimp only
    rw [hm']
  · intro a ha
    apply storeBytes_frame hm'
    rw [List.mem_range'_1]; omega
  · have hat := storeBytes_at k base 0 m m' hm'
    simp only [loadInst, Inst.exec, Inst.nat, Inst.arg, List.getD_cons_zero, List.getD_cons_succ, Int.toNat_natCast]
    rw [hsp]; dsimp only
    cases x with
    | plain val w =>
      rw [loadReg_plain (f := fun j => BitVec.ofNat 8 (val / 2 ^ (8 * j))) (8 * k) k base hk0 (by
        intro j hj
        obtain ⟨y, h1, h2⟩ := hat j hj
        simp only [storeByte, Nat.zero_add] at h1
        injection h1 with h1; rw [h2, ← h1])]
      rw [bytesVal_digits]; rfl
    | cipher b =>
      have hw := hx rfl
      simp only [Reg.width] at hw
      rw [loadReg_cipher (f := fun j => (b.drop (8 * j)).take 8) (8 * k) k base hk0 (by
        intro j hj
        obtain ⟨y, h1, h2⟩ := hat j hj
        simp only [storeByte, Nat.zero_add] at h1
        rw [if_pos (by omega)] at h1
        injection h1 with h1; rw [h2, ← h1])]
      rw [flatMap_slices b k hw]; rfl

/-- a 16-bit store of an encrypted register at address 4098 -/
example : (1 : Nat) ≠ 2 ∧ (2 : Nat) ∈ [1, 2, 4, 8, 16] ∧ trySignedOffset (4096 % 2 ^ 32) 2 = .ok 4098 ∧ 4098 % 2 = 0 ∧
    8 * 2 ≤ (Reg.cipher (List.replicate 16 true)).width := by decide

/-- **C66 is false when the value and address registers coincide**: the store panics, whatever the register and the memory
hold. -/
theorem C66_same_register_violated (r width : Nat) (off : Int) (vs : List Reg) (m : View) :
    (storeInst r r width off).exec vs m = .error .panic := by
  simp [storeInst, Inst.exec, Inst.nat, Inst.arg]

/-- **C66 is false for widths that are not a multiple of 8**: storing the 12-bit value 0xABC and loading it back yields
0x0BC. -/
theorem C66_width_violated : ∃ m : View, ∃ m', (storeInst 1 2 12 0).exec [.plain 4096 32, .plain 0xABC 12] m = .ok ([], m') ∧
    (loadInst 3 1 12 0).exec [.plain 4096 32] m' = .ok ([.plain 0xBC 12], m') :=
  ⟨fun _ => some (.plain 0), _, rfl, rfl⟩

/-- **C66 is false for encrypted registers narrower than the access**: the store panics. -/
theorem C66_narrow_violated : (storeInst 1 2 16 0).exec [.plain 4096 32, .cipher (List.replicate 8 true)] (fun _ => some (.plain 0)) =
    .error .panic := by rfl

/-- **C66 (refused accesses).** A load or store whose address is not a multiple of its size, or whose size is not 1, 2, 4, 8 or
16 bytes, is refused. -/
theorem C66_unaligned (p pw base width : Nat) (off : Int) (vs : List Reg) (hbase : trySignedOffset (p % 2 ^ 32) off = .ok base)
    (h : width / 8 ∉ [1, 2, 4, 8, 16] ∨ base % (width / 8) ≠ 0) :
    span (.plain p pw :: vs) width off = .error (.unaligned base) := by
  simp only [span, hbase]
  rw [if_pos]
  unfold invalidAlignment
  rcases h with h | h
  · by_cases h16 : width / 8 > 16
    · simp [h16]
    · have : ∀ n, n ≤ 16 → n ∉ [1, 2, 4, 8, 16] → (n == 0 || base % n != 0 || decide (n > 16) || !(2 ^ n.log2 == n)) = true := by
        intro n hn hh
        have h2 : n = 0 ∨ (2 ^ n.log2 == n) = false := by
          revert n; decide
        rcases h2 with h2 | h2
        · simp [h2]
        · simp [h2]
      exact this _ (by omega) h
  · simp [h]

example : trySignedOffset (4096 % 2 ^ 32) 1 = .ok 4097 ∧ 4097 % (32 / 8) ≠ 0 := by decide
example : 24 / 8 ∉ [1, 2, 4, 8, 16] := by decide

end Spf.Props
