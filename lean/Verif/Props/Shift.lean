import Verif.Proof.Shift
/-!
C08: shift / rotate circuits.  Operand `a` and amount `s` are given most-significant bit first, as the circuit
documents.  The shift amount `valBE s` ranges over everything the shift wires can carry, including amounts at
or beyond the operand width.
-/
namespace Spf.Props
open Spf.Spec Spf.Shift

private theorem from_fn (a s : List Bool) (dir : Dir) (mode : Mode) (spec : List Bool) (hn : 0 < a.length)
    (hs : usedShiftBits a.length ≤ s.length)
    (hrot : mode = .rotation → isPow2 a.length = true) (har : ¬ (mode = .arithmetic ∧ dir = .left))
    (hv : a.length + s.length < maxVars) (hspec : spec.length = a.length)
    (h : ∀ i, i < a.length → shiftFn a.length dir mode (if mode = .logical then false else a.getD 0 false)
      (fun i => a.getD i false) (valBE s) i = spec.getD i false) :
    ∃ outs, bitshift a.length s.length dir mode = some outs ∧ outs.map (· (wires (a ++ s))) = spec := by
  obtain ⟨outs, h1, h2, h3⟩ := bitshift_eval a s dir mode hn hs hrot har hv
  refine ⟨outs, h1, ?_⟩
  apply List.ext_getElem
  · simp [h2, hspec]
  · intro i hi1 hi2
    have hi : i < outs.length := by simpa using hi1
    have := (h3 i (by omega)).trans (h i (by omega))
    rw [List.getElem_map]
    simpa [List.getD, hi, hi2] using this

/-- **C08, logical left.** -/
theorem C08_shift_left (a s : List Bool) (hn : 0 < a.length) (hs : usedShiftBits a.length ≤ s.length)
    (hv : a.length + s.length < maxVars) :
    ∃ outs, bitshift a.length s.length .left .logical = some outs ∧
      outs.map (· (wires (a ++ s))) = shlBE a (valBE s) := by
  refine from_fn a s _ _ _ hn hs (by simp) (by simp) hv (by simp [shlBE]; omega) ?_
  intro i hi
  simp only [shiftFn, if_true, shlBE, List.getD, List.getElem?_append, List.length_drop, List.getElem?_drop]
  by_cases h : i + valBE s < a.length
  · rw [if_pos h, if_pos (by omega), Nat.add_comm]
  · rw [if_neg h, if_neg (by omega)]; simp only [List.getElem?_replicate]; split <;> rfl

/-- **C08, logical right.** -/
theorem C08_shift_right (a s : List Bool) (hn : 0 < a.length) (hs : usedShiftBits a.length ≤ s.length)
    (hv : a.length + s.length < maxVars) :
    ∃ outs, bitshift a.length s.length .right .logical = some outs ∧
      outs.map (· (wires (a ++ s))) = shrBE false a (valBE s) := by
  refine from_fn a s _ _ _ hn hs (by simp) (by simp) hv (by simp [shrBE]; omega) ?_
  intro i hi
  simp only [shiftFn, if_true, shrBE, List.getD, List.getElem?_append, List.length_replicate, List.getElem?_take,
    List.getElem?_replicate]
  by_cases h : valBE s ≤ i
  · rw [if_pos h, if_neg (by omega), if_pos (by omega), Nat.min_eq_left (by omega)]
  · rw [if_neg h, if_pos (by omega), if_pos (by omega)]; rfl

/-- **C08, arithmetic right**: fills with the sign bit (the first bit of `a`). -/
theorem C08_arithmetic_shift_right (a s : List Bool) (hn : 0 < a.length) (hs : usedShiftBits a.length ≤ s.length)
    (hv : a.length + s.length < maxVars) :
    ∃ outs, bitshift a.length s.length .right .arithmetic = some outs ∧
      outs.map (· (wires (a ++ s))) = shrBE (a.headD false) a (valBE s) := by
  refine from_fn a s _ _ _ hn hs (by simp) (by simp) hv (by simp [shrBE]; omega) ?_
  intro i hi
  simp only [shiftFn, shrBE, List.getD, List.getElem?_append, List.length_replicate, List.getElem?_take,
    List.getElem?_replicate]
  by_cases h : valBE s ≤ i
  · rw [if_pos h, if_neg (by omega), if_pos (by omega), Nat.min_eq_left (by omega)]
  · rw [if_neg h]
    have hm : i < min (valBE s) a.length := by omega
    simp only [if_pos hm]
    cases a with
    | nil => simp at hn
    | cons x xs => rfl

/-- **C08, rotate left** (power-of-two widths; other widths are refused, see below). -/
theorem C08_rotate_left (a s : List Bool) (hn : isPow2 a.length = true) (hs : usedShiftBits a.length ≤ s.length)
    (hv : a.length + s.length < maxVars) :
    ∃ outs, bitshift a.length s.length .left .rotation = some outs ∧
      outs.map (· (wires (a ++ s))) = rotlBE a (valBE s) := by
  have h0 : 0 < a.length := by
    simp only [isPow2, Bool.and_eq_true, bne_iff_ne, ne_eq] at hn; exact Nat.pos_of_ne_zero hn.1
  have hmod := Nat.mod_lt (valBE s) h0
  refine from_fn a s _ _ _ h0 hs (fun _ => hn) (by simp) hv (by simp [rotlBE]; omega) ?_
  intro i hi
  have := rotL_getD (valBE s % a.length) a false i (by omega) hi
  simp only [shiftFn, rotlBE]
  rw [rotL] at this
  rw [this, Nat.add_mod_mod]

/-- **C08, rotate right**. -/
theorem C08_rotate_right (a s : List Bool) (hn : isPow2 a.length = true) (hs : usedShiftBits a.length ≤ s.length)
    (hv : a.length + s.length < maxVars) :
    ∃ outs, bitshift a.length s.length .right .rotation = some outs ∧
      outs.map (· (wires (a ++ s))) = rotrBE a (valBE s) := by
  have h0 : 0 < a.length := by
    simp only [isPow2, Bool.and_eq_true, bne_iff_ne, ne_eq] at hn; exact Nat.pos_of_ne_zero hn.1
  have hmod := Nat.mod_lt (valBE s) h0
  refine from_fn a s _ _ _ h0 hs (fun _ => hn) (by simp) hv (by simp [rotrBE]) ?_
  intro i hi
  have := rotR_getD (valBE s % a.length) a false i (by omega) hi
  simp only [shiftFn, rotrBE]
  rw [rotR, rotL] at this
  rw [this]

/-- Value form of the left shift: multiplication by `2^s` modulo `2^width`. -/
theorem C08_shift_left_value (a : List Bool) (s : Nat) :
    valBE (shlBE a s) = valBE a * 2 ^ s % 2 ^ a.length := by
  have hz : ∀ k, valBE (List.replicate k false) = 0 := by
    intro k; apply valBE_zero_of_not_any; simp
  unfold shlBE
  rw [valBE_append, hz, Nat.add_zero, List.length_replicate]
  by_cases h : s ≤ a.length
  · rw [Nat.min_eq_left h]
    have hsplit : valBE a = valBE (a.take s) * 2 ^ (a.length - s) + valBE (a.drop s) := by
      conv => lhs; rw [← List.take_append_drop s a]
      rw [valBE_append, List.length_drop]
    have hlt := valBE_lt (a.drop s)
    rw [List.length_drop] at hlt
    have hp : 2 ^ (a.length - s) * 2 ^ s = 2 ^ a.length := by rw [← Nat.pow_add]; congr 1; omega
    rw [hsplit, Nat.add_mul, Nat.mul_assoc, hp, Nat.mul_add_mod_self_right, Nat.mod_eq_of_lt]
    rw [← hp]; exact Nat.mul_lt_mul_of_pos_right hlt (Nat.pow_pos (by omega))
  · rw [List.drop_of_length_le (by omega)]
    have : 2 ^ s = 2 ^ a.length * 2 ^ (s - a.length) := by rw [← Nat.pow_add]; congr 1; omega
    rw [this, Nat.mul_left_comm, Nat.mul_mod_right]; simp [valBE]

/-- Value form of the logical right shift: division by `2^s`. -/
theorem C08_shift_right_value (a : List Bool) (s : Nat) :
    valBE (shrBE false a s) = valBE a / 2 ^ s := by
  have hz : ∀ k, valBE (List.replicate k false) = 0 := by
    intro k; apply valBE_zero_of_not_any; simp
  unfold shrBE
  rw [valBE_append, hz, Nat.zero_mul, Nat.zero_add]
  by_cases h : s ≤ a.length
  · have hsplit : valBE a = valBE (a.take (a.length - s)) * 2 ^ s + valBE (a.drop (a.length - s)) := by
      conv => lhs; rw [← List.take_append_drop (a.length - s) a]
      rw [valBE_append, List.length_drop]; congr 3; omega
    have hlt := valBE_lt (a.drop (a.length - s))
    rw [List.length_drop, show a.length - (a.length - s) = s by omega] at hlt
    rw [hsplit, Nat.mul_comm, Nat.mul_add_div (Nat.pow_pos (by omega)), Nat.div_eq_of_lt hlt, Nat.add_zero]
  · rw [show a.length - s = 0 by omega, Nat.div_eq_of_lt]
    · simp [valBE]
    · exact Nat.lt_of_lt_of_le (valBE_lt a) (Nat.pow_le_pow_right (by omega) (by omega))

/-- The circuit refuses (panics on) exactly these requests; everything else is covered above. -/
theorem C08_refusals (inputs shiftSize : Nat) (dir : Dir) (mode : Mode) :
    bitshift inputs shiftSize dir mode = none ↔
      shiftSize < usedShiftBits inputs ∨ (mode = .rotation ∧ isPow2 inputs = false) ∨
      (mode = .arithmetic ∧ dir = .left) ∨ inputs + shiftSize ≥ maxVars ∨ inputs = 0 := by
  unfold bitshift
  simp only
  by_cases h1 : shiftSize < usedShiftBits inputs
  · simp [h1]
  by_cases h2 : mode = .rotation ∧ isPow2 inputs = false
  · simp [h1, h2]
  by_cases h3 : mode = .arithmetic ∧ dir = .left
  · simp [h1, h3]
  by_cases h4 : inputs + shiftSize ≥ maxVars
  · simp [h1, h2, h3, h4]
  by_cases h5 : inputs = 0
  · simp [h1, h2, h3, h4, h5]
  rw [if_neg h1, if_neg h2, if_neg h3, if_neg h4, if_neg h5]
  simp only [h1, h2, h3, h4, h5, or_self, iff_false]
  split <;> simp

-- 5-bit operand 10110, amount 2 on 4 shift wires: 11000
example : ∃ outs, bitshift 5 4 .left .logical = some outs ∧
    outs.map (· (wires ([true, false, true, true, false] ++ [false, false, true, false]))) =
      [true, true, false, false, false] :=
  C08_shift_left [true, false, true, true, false] [false, false, true, false] (by decide) (by decide) (by decide)
-- amount 9 ≥ width 5: sign fill
example : ∃ outs, bitshift 5 4 .right .arithmetic = some outs ∧
    outs.map (· (wires ([true, false, true, true, false] ++ [true, false, false, true]))) =
      [true, true, true, true, true] :=
  C08_arithmetic_shift_right [true, false, true, true, false] [true, false, false, true]
    (by decide) (by decide) (by decide)
-- rotation of a 4-bit operand by 7
example : ∃ outs, bitshift 4 3 .left .rotation = some outs ∧
    outs.map (· (wires ([true, false, false, false] ++ [true, true, true]))) = [false, true, false, false] :=
  C08_rotate_left [true, false, false, false] [true, true, true] (by decide) (by decide) (by decide)

end Spf.Props
