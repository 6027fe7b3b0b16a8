import Verif.Model.PlainInt
import Verif.Proof.Alu
/-! Lemmas for the plaintext conversions of fluent integers. -/
namespace Spf.Fluent
open Spf.Spec Spf.Cpu

theorem lsb_shift (v : BitVec 128) (i : Nat) : (((v >>> i) &&& 1#128) == 1#128) = v.getLsbD i := by
  rw [Bool.eq_iff_iff, beq_iff_eq, BitVec.eq_of_getLsbD_eq_iff]
  constructor
  · intro h
    have := h 0 (by decide)
    simpa using this
  · intro h j hj
    by_cases hj0 : j = 0
    · subst hj0; simp [h]
    · simp [BitVec.getLsbD_one, hj0]

theorem lsb_sshift (v : BitVec 128) (i : Nat) (hi : i < 128) : ((v.sshiftRight i &&& 1#128) == 1#128) = v.getLsbD i := by
  rw [Bool.eq_iff_iff, beq_iff_eq, BitVec.eq_of_getLsbD_eq_iff]
  constructor
  · intro h
    have := h 0 (by decide)
    rw [BitVec.getLsbD_and, BitVec.getLsbD_sshiftRight] at this
    simpa [hi] using this
  · intro h j hj
    by_cases hj0 : j = 0
    · subst hj0; simp [BitVec.getLsbD_sshiftRight, hi, h]
    · simp [BitVec.getLsbD_one, hj0]

theorem toBitsU_eq (v : BitVec 128) (n : Nat) (h : n ≤ 128) : toBitsU v n = some ((List.range n).map v.getLsbD) := by
  unfold toBitsU
  rw [if_pos h]
  simp only [lsb_shift]

theorem toBitsS_eq (v : BitVec 128) (n : Nat) (h : n ≤ 128) : toBitsS v n = some ((List.range n).map v.getLsbD) := by
  unfold toBitsS
  rw [if_pos h]
  congr 1
  apply List.map_congr_left
  intro i hi
  exact lsb_sshift v i (by have := List.mem_range.1 hi; omega)

theorem shl_bit_getLsbD (x : Bool) (i j : Nat) (hj : j < 128) :
    ((if x then 1#128 else 0#128) <<< i).getLsbD j = (decide (j = i) && x) := by
  cases x
  · simp
  · rw [if_pos rfl, BitVec.getLsbD_shiftLeft]
    simp only [BitVec.getLsbD_one]
    by_cases h : j = i
    · subst h; simp [hj]
    · simp [h, hj]; omega

theorem fromBitsAux_spec : ∀ (bits : List Bool) (i : Nat) (s : BitVec 128), i + bits.length ≤ 128 →
    ∃ v, fromBitsAux i bits s = some v ∧ ∀ j, j < 128 → v.getLsbD j = (s.getLsbD j || (decide (i ≤ j) && bits.getD (j - i) false))
  | [], i, s, _ => ⟨s, rfl, by intro j _; simp⟩
  | x :: xs, i, s, h => by
    have hi : i < 128 := by simp at h; omega
    obtain ⟨v, h1, h2⟩ := fromBitsAux_spec xs (i + 1) (s ||| ((if x then 1#128 else 0#128) <<< i)) (by simp at h; omega)
    refine ⟨v, by simp only [fromBitsAux, fromBitsStep, if_pos hi]; exact h1, ?_⟩
    intro j hj
    rw [h2 j hj, BitVec.getLsbD_or, shl_bit_getLsbD x i j hj]
    by_cases hji : j = i
    · subst hji; simp [show ¬ (j + 1 ≤ j) by omega]
    · by_cases hlt : i ≤ j
      · obtain ⟨k, rfl⟩ : ∃ k, j = i + 1 + k := ⟨j - (i + 1), by omega⟩
        simp [show i + 1 + k - i = k + 1 by omega, show i ≤ i + 1 + k by omega, show ¬ (i + 1 + k = i) by omega]
      · simp [hji, hlt, show ¬ (i + 1 ≤ j) by omega]

theorem fromBitsAux_none : ∀ (bits : List Bool) (i : Nat) (s : BitVec 128), bits ≠ [] → 128 < i + bits.length → fromBitsAux i bits s = none
  | [], i, s, hne, h => absurd rfl hne
  | x :: xs, i, s, _, h => by
    by_cases hi : i < 128
    · simp only [fromBitsAux, fromBitsStep, if_pos hi]
      apply fromBitsAux_none
      · rintro rfl; simp at h; omega
      · simp at h; omega
    · simp [fromBitsAux, fromBitsStep, if_neg hi]

/-- value of a word from its bits -/
theorem toNat_of_bits {w : Nat} (v : BitVec w) : v.toNat = valLE ((List.range w).map v.getLsbD) := by
  apply Nat.eq_of_testBit_eq
  intro i
  rw [valLE_testBit, BitVec.testBit_toNat]
  by_cases hi : i < w
  · simp [List.getD_eq_getElem?_getD, hi]
  · rw [BitVec.getLsbD_of_ge v i (by omega)]
    simp [List.getD_eq_getElem?_getD, List.getElem?_eq_none, hi]

end Spf.Fluent

namespace Spf.Fluent
open Spf.Spec Spf.Cpu

theorem ofNat_getLsbD (bits : List Bool) (j : Nat) (hj : j < bits.length) :
    (BitVec.ofNat bits.length (valLE bits)).getLsbD j = bits.getD j false := by
  rw [BitVec.getLsbD_ofNat, valLE_testBit]; simp [hj]

theorem signExtend_spec (sign : BitVec 128) : ∀ (k i : Nat) (v : BitVec 128) (j : Nat), j < 128 → (∀ m, sign.getLsbD m = (decide (m = 0) && sign.getLsbD 0)) →
    (signExtend sign k i v).getLsbD j = (v.getLsbD j || (decide (i ≤ j ∧ j < i + k) && sign.getLsbD 0))
  | 0, i, v, j, hj, hs => by simp only [signExtend]; simp
  | k + 1, i, v, j, hj, hs => by
    simp only [signExtend]
    rw [signExtend_spec sign k (i + 1) _ j hj hs, BitVec.getLsbD_or, BitVec.getLsbD_shiftLeft, hs]
    cases sign.getLsbD 0
    · simp
    · cases v.getLsbD j
      · simp only [Bool.and_true, Bool.false_or, hj, decide_true, Bool.true_and]
        rw [Bool.eq_iff_iff]
        simp only [Bool.or_eq_true, Bool.and_eq_true, Bool.not_eq_true', decide_eq_true_eq, decide_eq_false_iff_not]
        omega
      · simp

theorem fromBitsS_eq (bits : List Bool) (h0 : 0 < bits.length) (h : bits.length ≤ 128) :
    fromBitsS bits = some ((BitVec.ofNat bits.length (valLE bits)).signExtend 128) := by
  obtain ⟨v, h1, h2⟩ := fromBitsAux_spec bits 0 0#128 (by omega)
  unfold fromBitsS
  rw [h1]
  simp only [if_neg (show ¬ bits.length = 0 by omega)]
  congr 1
  have hv : ∀ j, j < 128 → v.getLsbD j = bits.getD j false := by
    intro j hj; rw [h2 j hj]; simp
  have hs0 : (v.sshiftRight (bits.length - 1) &&& 1#128).getLsbD 0 = bits.getD (bits.length - 1) false := by
    rw [BitVec.getLsbD_and, BitVec.getLsbD_sshiftRight, ← hv (bits.length - 1) (by omega)]
    simp [show bits.length - 1 < 128 by omega]
  apply BitVec.eq_of_getLsbD_eq
  intro j hj
  rw [signExtend_spec _ _ _ _ _ hj, hs0, hv j hj, BitVec.getLsbD_signExtend]
  · simp only [hj, decide_true, Bool.true_and]
    by_cases hjl : j < bits.length
    · rw [if_pos hjl, ofNat_getLsbD _ _ hjl]
      simp [show ¬ (bits.length ≤ j ∧ j < bits.length + (128 - bits.length)) by omega]
    · rw [if_neg hjl, BitVec.msb_eq_getLsbD_last, ofNat_getLsbD _ _ (by omega)]
      rw [show bits.getD j false = false by rw [List.getD_eq_getElem?_getD, List.getElem?_eq_none (by omega)]; rfl]
      simp [show bits.length ≤ j ∧ j < bits.length + (128 - bits.length) by omega]
  · intro m
    rw [BitVec.getLsbD_and, BitVec.getLsbD_and, BitVec.getLsbD_one]
    by_cases hm : m = 0
    · subst hm; simp
    · simp [hm]

theorem fromBitsU_eq (bits : List Bool) (h : bits.length ≤ 128) :
    fromBitsU bits = some ((BitVec.ofNat bits.length (valLE bits)).setWidth 128) := by
  obtain ⟨v, h1, h2⟩ := fromBitsAux_spec bits 0 0#128 (by omega)
  unfold fromBitsU
  rw [h1]
  congr 1
  apply BitVec.eq_of_getLsbD_eq
  intro j hj
  rw [h2 j hj, BitVec.getLsbD_setWidth]
  by_cases hjl : j < bits.length
  · rw [ofNat_getLsbD _ _ hjl]; simp [hj]
  · have hz : (BitVec.ofNat bits.length (valLE bits)).getLsbD j = false := BitVec.getLsbD_of_ge _ j (Nat.le_of_not_lt hjl)
    rw [hz]
    rw [show bits.getD (j - 0) false = false by rw [List.getD_eq_getElem?_getD, List.getElem?_eq_none (by omega)]; rfl]
    simp

/-- the first `n` bits of a word are the bits of its truncation -/
theorem bits_setWidth (v : BitVec 128) (n : Nat) :
    BitVec.ofNat n (valLE ((List.range n).map v.getLsbD)) = v.setWidth n := by
  have hlen : ((List.range n).map v.getLsbD).length = n := by simp
  apply BitVec.eq_of_getLsbD_eq
  intro j hj
  have := ofNat_getLsbD ((List.range n).map v.getLsbD) j (by omega)
  rw [hlen] at this
  rw [this, BitVec.getLsbD_setWidth]
  simp [List.getD_eq_getElem?_getD, hj]

theorem toInt_ofNat_valLE (bits : List Bool) (h0 : 0 < bits.length) :
    (BitVec.ofNat bits.length (valLE bits)).toInt = valSigned bits := by
  rw [valSigned_twos bits h0, BitVec.toInt_eq_toNat_cond, BitVec.toNat_ofNat]
  have hlt := valLE_lt bits
  rw [Nat.mod_eq_of_lt hlt]
  unfold twos
  obtain ⟨k, hk⟩ : ∃ k, bits.length = k + 1 := ⟨bits.length - 1, by omega⟩
  rw [hk] at *
  simp only [Nat.add_sub_cancel, Nat.pow_succ] at *
  push_cast
  split <;> split <;> omega

end Spf.Fluent
