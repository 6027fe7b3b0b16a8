import Verif.Proof.PlainInt
/-! C21 (plaintext integers and their bits), C70 (the declared integer types are usable). -/
namespace Spf.Props
open Spf.Spec Spf.Fluent

theorem shl1_toNat {k : Nat} (h : k < 128) : ∃ m, shl1 k = some m ∧ m.toNat = 2 ^ k := by
  refine ⟨_, if_pos h, ?_⟩
  rw [BitVec.toNat_shiftLeft, BitVec.toNat_ofNat, Nat.shiftLeft_eq]
  rw [show 1 % 2 ^ 128 = 1 from rfl, Nat.one_mul]
  exact Nat.mod_eq_of_lt (Nat.pow_lt_pow_right (by omega) h)

/-- **C21 (unsigned, bounds).** For up to 128 bits the bounds check accepts exactly the values below `2^n`. -/
theorem C21_unsigned_bounds (v : BitVec 128) (n : Nat) (hn : n ≤ 128) :
    assertInBoundsU v n = some () ↔ v.toNat < 2 ^ n := by
  unfold assertInBoundsU
  by_cases h : n = 128
  · subst h; simp only [if_true, true_iff]; exact v.isLt
  · obtain ⟨m, h1, h2⟩ := shl1_toNat (show n < 128 by omega)
    rw [if_neg h, h1]
    simp only [h2]
    by_cases hv : v.toNat < 2 ^ n
    · simp [hv]
    · simp [hv]

/-- **C21 (unsigned).** A value below `2^n`, `n ≤ 128`, has `n` bits, which have that value and decode to it. -/
theorem C21_unsigned (v : BitVec 128) (n : Nat) (hn : n ≤ 128) (hv : v.toNat < 2 ^ n) :
    ∃ bits, toBitsU v n = some bits ∧ bits.length = n ∧ valLE bits = v.toNat ∧ fromBitsU bits = some v := by
  have hlen : ((List.range n).map v.getLsbD).length = n := by simp
  have hval := congrArg BitVec.toNat (bits_setWidth v n)
  rw [BitVec.toNat_ofNat, BitVec.toNat_setWidth, Nat.mod_eq_of_lt hv] at hval
  have hlt := valLE_lt ((List.range n).map v.getLsbD)
  rw [hlen] at hlt
  rw [Nat.mod_eq_of_lt hlt] at hval
  refine ⟨_, toBitsU_eq v n hn, hlen, hval, ?_⟩
  rw [fromBitsU_eq _ (by omega), hlen, bits_setWidth v n]
  congr 1
  apply BitVec.eq_of_toNat_eq
  rw [BitVec.toNat_setWidth, BitVec.toNat_setWidth, Nat.mod_eq_of_lt hv]
  exact Nat.mod_eq_of_lt v.isLt

/-- **C21 (unsigned, decoding).** Decoding at most 128 bits gives their value. -/
theorem C21_unsigned_decode (bits : List Bool) (h : bits.length ≤ 128) :
    ∃ v, fromBitsU bits = some v ∧ v.toNat = valLE bits := by
  refine ⟨_, fromBitsU_eq bits h, ?_⟩
  have hlt := valLE_lt bits
  rw [BitVec.toNat_setWidth, BitVec.toNat_ofNat, Nat.mod_eq_of_lt hlt]
  exact Nat.mod_eq_of_lt (Nat.lt_of_lt_of_le hlt (Nat.pow_le_pow_right (by omega) h))

example : ∃ bits, toBitsU 200#128 8 = some bits ∧ bits.length = 8 ∧ valLE bits = 200 ∧ fromBitsU bits = some 200#128 :=
  C21_unsigned 200#128 8 (by decide) (by decide)

/-- **C21 (signed, bounds).** For 1 to 127 bits the bounds check accepts exactly `-2^(n-1) ≤ v < 2^(n-1)`. -/
theorem C21_signed_bounds_partial (v : BitVec 128) (n : Nat) (h0 : 1 ≤ n) (hn : n ≤ 127) :
    assertInBoundsS v n = some () ↔ -(2 : Int) ^ (n - 1) ≤ v.toInt ∧ v.toInt < (2 : Int) ^ (n - 1) := by
  obtain ⟨m, h1, h2⟩ := shl1_toNat (show n - 1 < 128 by omega)
  have hp : (2 : Nat) ^ (n - 1) ≤ 2 ^ 126 := Nat.pow_le_pow_right (by omega) (by omega)
  have hpos := Nat.two_pow_pos (n - 1)
  have hne : m ≠ BitVec.intMin 128 := by
    intro hc
    have := congrArg BitVec.toNat hc
    rw [h2] at this
    rw [show (BitVec.intMin 128).toNat = 2 ^ 127 by decide] at this
    have h126 : (2 : Nat) ^ 126 < 2 ^ 127 := by decide
    omega
  have hm : m.toInt = (2 : Int) ^ (n - 1) := by
    rw [BitVec.toInt_eq_toNat_cond, h2, if_pos]
    · simp
    · have : (2 : Nat) ^ 126 * 2 < 2 ^ 128 := by decide
      omega
  have hmax : (m - 1#128).toInt = (2 : Int) ^ (n - 1) - 1 := by
    have hnat : (m - 1#128).toNat = 2 ^ (n - 1) - 1 := by
      rw [BitVec.toNat_sub, h2, show (1#128).toNat = 1 from rfl]
      rw [show 2 ^ 128 - 1 + 2 ^ (n - 1) = 2 ^ 128 + (2 ^ (n - 1) - 1) by
        have : (1 : Nat) ≤ 2 ^ 128 := by decide
        omega]
      rw [Nat.add_mod_left]
      apply Nat.mod_eq_of_lt
      have : (2 : Nat) ^ 126 < 2 ^ 128 := by decide
      omega
    rw [BitVec.toInt_eq_toNat_cond, hnat, if_pos]
    · rw [Nat.cast_sub hpos]; simp
    · have : (2 : Nat) ^ 126 * 2 < 2 ^ 128 := by decide
      omega
  have hmin : (-m).toInt = -(2 : Int) ^ (n - 1) := by
    rw [BitVec.toInt_neg_of_ne_intMin hne, hm]
  unfold assertInBoundsS
  rw [if_neg (by omega), h1]
  simp only [if_neg hne, show ¬ n = 128 by omega, false_or, hmax, hmin]
  by_cases a1 : v.toInt ≤ (2 : Int) ^ (n - 1) - 1
  · by_cases a2 : v.toInt ≥ -(2 : Int) ^ (n - 1)
    · simp only [if_pos a1, if_pos a2, true_iff]; constructor <;> omega
    · simp only [if_pos a1, if_neg a2]; simp; omega
  · simp only [if_neg a1]; simp; omega

/-- **C21 (signed).** A value in the two's complement range of `n` bits, `1 ≤ n ≤ 128`, has `n` bits, which have that
value and decode to it. -/
theorem C21_signed (v : BitVec 128) (n : Nat) (h0 : 1 ≤ n) (hn : n ≤ 128) (hlo : -(2 : Int) ^ (n - 1) ≤ v.toInt)
    (hhi : v.toInt < (2 : Int) ^ (n - 1)) :
    ∃ bits, toBitsS v n = some bits ∧ bits.length = n ∧ valSigned bits = v.toInt ∧ fromBitsS bits = some v := by
  have hlen : ((List.range n).map v.getLsbD).length = n := by simp
  have htr : (v.setWidth n).toInt = v.toInt := by
    rw [BitVec.toInt_setWidth, ← Int.bmod_bmod_of_dvd (Nat.pow_dvd_pow 2 hn), ← BitVec.toInt_eq_toNat_bmod]
    obtain ⟨k, rfl⟩ : ∃ k, n = k + 1 := ⟨n - 1, by omega⟩
    rw [Nat.add_sub_cancel] at hlo hhi
    apply Int.bmod_eq_of_le
    · push_cast; rw [Int.pow_succ]; omega
    · push_cast; rw [Int.pow_succ]; omega
  refine ⟨_, toBitsS_eq v n hn, hlen, ?_, ?_⟩
  · rw [← toInt_ofNat_valLE _ (by omega), hlen, bits_setWidth v n, htr]
  · rw [fromBitsS_eq _ (by omega) (by omega), hlen, bits_setWidth v n]
    congr 1
    apply BitVec.eq_of_toInt_eq
    rw [BitVec.toInt_signExtend_of_le hn, htr]

/-- **C21 (signed, decoding).** Decoding 1 to 128 bits gives their two's complement value. -/
theorem C21_signed_decode (bits : List Bool) (h0 : 0 < bits.length) (h : bits.length ≤ 128) :
    ∃ v, fromBitsS bits = some v ∧ v.toInt = valSigned bits := by
  refine ⟨_, fromBitsS_eq bits h0 h, ?_⟩
  rw [BitVec.toInt_signExtend_of_le h, toInt_ofNat_valLE bits h0]

example : ∃ bits, toBitsS (BitVec.ofInt 128 (-5)) 8 = some bits ∧ bits.length = 8 ∧ valSigned bits = -5 ∧
    fromBitsS bits = some (BitVec.ofInt 128 (-5)) :=
  C21_signed (BitVec.ofInt 128 (-5)) 8 (by decide) (by decide) (by decide) (by decide)

/-- **C21 (violated at 128 signed bits).** The bounds check that precedes encryption panics for every 128-bit signed
value: the lower bound is computed by negating `i128::MIN` before `bits == 128` is tested. -/
theorem C21_int128_violated : ∀ v : BitVec 128, assertInBoundsS v 128 = none := by
  intro v; rfl

/-- **C70 (violated for 256 bits).** No value of the declared type `UInt256` can be encrypted or decrypted: the bounds
check and the decoding of 256 bits panic. -/
theorem C70_uint256_violated : (∀ v : BitVec 128, assertInBoundsU v 256 = none) ∧ (∀ v : BitVec 128, assertInBoundsS v 256 = none) ∧
    ∀ bits : List Bool, bits.length = 256 → fromBitsU bits = none ∧ fromBitsS bits = none := by
  refine ⟨fun v => rfl, fun v => rfl, ?_⟩
  intro bits h
  have hn := fromBitsAux_none bits 0 0#128 (by rintro rfl; cases h) (by omega)
  unfold fromBitsU fromBitsS
  rw [hn]
  exact ⟨rfl, rfl⟩

/-- **C70 (what holds).** Every declared unsigned type of at most 128 bits and every signed type of at most 127 bits
passes its bounds check on every value in range, and decoding inverts encoding. -/
theorem C70_usable_partial (n : Nat) (h0 : 1 ≤ n) (v : BitVec 128) :
    (n ≤ 128 → v.toNat < 2 ^ n → assertInBoundsU v n = some () ∧ (toBitsU v n).bind fromBitsU = some v) ∧
    (n ≤ 127 → -(2 : Int) ^ (n - 1) ≤ v.toInt → v.toInt < (2 : Int) ^ (n - 1) →
      assertInBoundsS v n = some () ∧ (toBitsS v n).bind fromBitsS = some v) := by
  constructor
  · intro hn hv
    obtain ⟨bits, h1, _, _, h4⟩ := C21_unsigned v n hn hv
    exact ⟨(C21_unsigned_bounds v n hn).2 hv, by rw [h1]; exact h4⟩
  · intro hn hlo hhi
    obtain ⟨bits, h1, _, _, h4⟩ := C21_signed v n h0 (by omega) hlo hhi
    exact ⟨(C21_signed_bounds_partial v n h0 hn).2 ⟨hlo, hhi⟩, by rw [h1]; exact h4⟩

end Spf.Props
