import Verif.Props.Alu
import Verif.Props.Shift
/-! C36 for the shift instructions, C37 (casts) and the immediate load. -/
namespace Spf.Props
open Spf.Spec Spf.Cpu
open Spf.Shift (usedShiftBits isPow2 bitshift valBE_append valBE_lt)

/-! ### values of shifted bit vectors -/

theorem valBE_split (a : List Bool) (k : Nat) (hk : k ≤ a.length) :
    valBE (a.take k) = valBE a / 2 ^ (a.length - k) ∧ valBE (a.drop k) = valBE a % 2 ^ (a.length - k) := by
  have hsplit : valBE a = 2 ^ (a.length - k) * valBE (a.take k) + valBE (a.drop k) := by
    conv => lhs; rw [← List.take_append_drop k a]
    rw [valBE_append, List.length_drop, Nat.mul_comm]
  have hlt := valBE_lt (a.drop k)
  rw [List.length_drop] at hlt
  constructor
  · rw [hsplit, Nat.mul_add_div (Nat.two_pow_pos _), Nat.div_eq_of_lt hlt, Nat.add_zero]
  · rw [hsplit, Nat.mul_add_mod_self_left, Nat.mod_eq_of_lt hlt]

theorem rotl_value (a : List Bool) (s : Nat) (h0 : 0 < a.length) :
    valBE (rotlBE a s) = shMeaning a.length (valBE a) s .rotl := by
  have hk := Nat.mod_lt s h0
  simp only [rotlBE, shMeaning]
  generalize s % a.length = k at hk
  rw [valBE_append, (valBE_split a k (by omega)).1, (valBE_split a k (by omega)).2, List.length_take, Nat.min_eq_left (by omega)]
  congr 1
  rw [show (2 : Nat) ^ a.length = 2 ^ (a.length - k) * 2 ^ k by rw [← Nat.pow_add]; congr 1; omega, Nat.mul_mod_mul_right]

theorem rotr_value (a : List Bool) (s : Nat) (h0 : 0 < a.length) :
    valBE (rotrBE a s) = shMeaning a.length (valBE a) s .rotr := by
  have hk := Nat.mod_lt s h0
  simp only [rotrBE, shMeaning]
  generalize s % a.length = k at hk
  rw [valBE_append, (valBE_split a _ (by omega)).1, (valBE_split a _ (by omega)).2, List.length_take, Nat.min_eq_left (by omega),
    show a.length - (a.length - k) = k by omega, Nat.add_comm]

theorem valBE_replicate_true (k : Nat) : valBE (List.replicate k true) = 2 ^ k - 1 := by
  induction k with
  | zero => rfl
  | succ k ih =>
    rw [List.replicate_succ', valBE_append, ih]
    have := Nat.two_pow_pos k
    have e : valBE [true] = 1 := rfl
    rw [e, List.length_singleton, Nat.pow_succ]; omega

theorem shra_value (a : List Bool) (s : Nat) (h0 : 0 < a.length) :
    valBE (shrBE (a.headD false) a s) = shMeaning a.length (valBE a) s .shra := by
  obtain ⟨x, xs, rfl⟩ : ∃ x xs, a = x :: xs := by cases a with
    | nil => simp at h0
    | cons x xs => exact ⟨x, xs, rfl⟩
  have hlt := valBE_lt (x :: xs)
  have hxs := valBE_lt xs
  have hv : valBE (x :: xs) = valBE [x] * 2 ^ xs.length + valBE xs := by rw [← List.singleton_append, valBE_append]
  have hl : (x :: xs).length - 1 = xs.length := by simp
  cases x with
  | false =>
    rw [show (false :: xs).headD false = false from rfl, C08_shift_right_value]
    have hx : valBE (false :: xs) < 2 ^ ((false :: xs).length - 1) := by
      rw [hl, hv, show valBE [false] = 0 from rfl]; omega
    generalize valBE (false :: xs) = y at *
    simp only [shMeaning, twos, if_pos hx]
    have h1 : ((y : Int) / 2 ^ s) = ((y / 2 ^ s : Nat) : Int) := by push_cast; rfl
    have hd := Nat.lt_of_le_of_lt (Nat.div_le_self y (2 ^ s)) hlt
    rw [h1, Int.emod_eq_of_lt (Int.natCast_nonneg _) (by exact_mod_cast hd)]; rfl
  | true =>
    rw [show (true :: xs).headD false = true from rfl]
    have hx : 2 ^ ((true :: xs).length - 1) ≤ valBE (true :: xs) := by
      rw [hl, hv, show valBE [true] = 1 from rfl]; omega
    generalize ha : (true :: xs) = a at *
    by_cases hs : s ≤ a.length
    · simp only [shMeaning]
      rw [twos_neg_div h0 hlt hx hs]
      unfold shrBE
      rw [valBE_append, valBE_replicate_true, Nat.min_eq_left hs, (valBE_split a _ (by omega)).1, List.length_take,
        Nat.min_eq_left (by omega), show a.length - (a.length - s) = s by omega, Nat.sub_mul, Nat.one_mul, ← Nat.pow_add,
        show s + (a.length - s) = a.length by omega]
    · unfold shrBE
      rw [show a.length - s = 0 by omega, List.take_zero, List.append_nil, valBE_replicate_true, Nat.min_eq_right (by omega)]
      simp only [shMeaning, twos, if_neg (show ¬ valBE a < 2 ^ (a.length - 1) by omega)]
      have hpos := Nat.two_pow_pos a.length
      have hle : 2 ^ a.length ≤ 2 ^ s := Nat.pow_le_pow_right (by omega) (by omega)
      have h1 : ((valBE a : Int) - 2 ^ a.length) / 2 ^ s = -1 := by
        rw [Int.ediv_eq_neg_one_of_neg_of_le] <;> first | (push_cast; omega) | skip
        · have : (valBE a : Int) < 2 ^ a.length := by exact_mod_cast hlt
          omega
        · have : ((2 ^ a.length : Nat) : Int) ≤ 2 ^ s := by exact_mod_cast hle
          push_cast at this
          have : (0 : Int) ≤ valBE a := Int.natCast_nonneg _
          omega
      have h2 : (-1 : Int) % 2 ^ a.length = ((2 ^ a.length - 1 : Nat) : Int) := by
        rw [Nat.cast_sub hpos]; push_cast
        rw [show (-1 : Int) % 2 ^ a.length = (2 ^ a.length - 1) % 2 ^ a.length from by
          rw [← Int.add_emod_right (-1)]; congr 1]
        apply Int.emod_eq_of_lt
        · have : ((1 : Nat) : Int) ≤ ((2 ^ a.length : Nat) : Int) := by exact_mod_cast hpos
          push_cast at this; omega
        · omega
      rw [h1, h2]; rfl

/-- the specification of each instruction on bit vectors, most significant bit first -/
def shBE (a : List Bool) (s : Nat) : Sh → List Bool
  | .shr => shrBE false a s
  | .shra => shrBE (a.headD false) a s
  | .shl => shlBE a s
  | .rotr => rotrBE a s
  | .rotl => rotlBE a s

theorem shBE_value (a : List Bool) (s : Nat) (h0 : 0 < a.length) (op : Sh) :
    valBE (shBE a s op) = shMeaning a.length (valBE a) s op := by
  cases op
  · exact C08_shift_right_value a s
  · exact shra_value a s h0
  · exact C08_shift_left_value a s
  · exact rotr_value a s h0
  · exact rotl_value a s h0

theorem shBE_length (a : List Bool) (s : Nat) (h0 : 0 < a.length) (op : Sh) : (shBE a s op).length = a.length := by
  have := Nat.mod_lt s h0
  cases op <;> simp [shBE, shrBE, shlBE, rotrBE, rotlBE] <;> omega

theorem fill_left (f : Bool) : ∀ (k : Nat) (l : List Bool), k ≤ l.length →
    fillVacated .left f k l = List.replicate k f ++ l.drop k
  | 0, l, _ => by simp [fillVacated]
  | k + 1, l, h => by
    simp only [fillVacated]
    rw [fill_left f k l (by omega)]
    rw [List.set_append_right _ _ (by simp)]
    simp only [List.length_replicate, Nat.sub_self]
    rw [List.drop_eq_getElem_cons (show k < l.length by omega), List.set_cons_zero, List.replicate_succ',
      List.append_assoc, List.singleton_append]

theorem fill_right (f : Bool) : ∀ (k : Nat) (l : List Bool), k ≤ l.length →
    fillVacated .right f k l = l.take (l.length - k) ++ List.replicate k f
  | 0, l, _ => by simp [fillVacated]
  | k + 1, l, h => by
    simp only [fillVacated]
    rw [fill_right f k l (by omega)]
    have hlen : (l.take (l.length - k) ++ List.replicate k f).length = l.length := by simp; omega
    rw [hlen, List.set_append_left _ _ (by simp; omega)]
    have : l.take (l.length - k) = l.take (l.length - (k + 1)) ++ [l[l.length - (k + 1)]'(by omega)] := by
      rw [show l.length - k = (l.length - (k + 1)) + 1 by omega, List.take_succ_eq_append_getElem (by omega)]
    rw [this, List.set_append_right _ _ (by simp; omega)]
    simp only [List.length_take]
    rw [Nat.min_eq_left (by omega), show l.length - k - 1 - (l.length - (k + 1)) = 0 by omega]
    simp [List.replicate_succ]

theorem plainShift_ok (op : Sh) (c : List Bool) (n : Nat) (h0 : 0 < c.length) (hn : n ≤ c.length) :
    plainShift c n op.dir op.mode = .ok (shBE c.reverse n op).reverse := by
  obtain ⟨m, hm⟩ : ∃ m, c.getLast? = some m := ⟨_, List.getLast?_eq_some_getLast (List.ne_nil_of_length_pos h0)⟩
  have hhead : c.reverse.headD false = m := by
    rw [List.headD_eq_head?_getD, List.head?_reverse, hm]; rfl
  unfold plainShift
  rw [hm]
  simp only
  rw [if_neg (by omega)]
  have l1 : (c.drop n ++ c.take n).length = c.length := by simp; omega
  have l2 : (c.drop (c.length - n) ++ c.take (c.length - n)).length = c.length := by simp
  have e1 : (c.drop n ++ c.take n).take (c.length - n) = c.drop n := by
    rw [List.take_append_of_le_length (by simp), List.take_of_length_le (by simp)]
  have e2 : (c.drop (c.length - n) ++ c.take (c.length - n)).drop n = c.take (c.length - n) := by
    rw [List.drop_append_of_le_length (by simp; omega), List.drop_of_length_le (by simp; omega), List.nil_append]
  have r1 : (c.reverse.take (c.length - n)).reverse = c.drop n := by
    rw [List.take_reverse, List.reverse_reverse]; congr 1; omega
  have r2 : (c.reverse.drop n).reverse = c.take (c.length - n) := by
    rw [List.drop_reverse, List.reverse_reverse]
  have r3 : (c.reverse.take n).reverse = c.drop (c.length - n) := by
    rw [List.take_reverse, List.reverse_reverse]
  have r4 : (c.reverse.drop (c.length - n)).reverse = c.take n := by
    rw [List.drop_reverse, List.reverse_reverse]; congr 1; omega
  cases op <;> simp only [Sh.dir, Sh.mode, Shift.rotR, Shift.rotL, shBE, shrBE, shlBE, rotrBE, rotlBE, hhead, List.length_reverse,
    List.reverse_append, List.reverse_replicate, Nat.min_eq_left hn, if_true]
  · rw [fill_right _ _ _ (by omega), l1, e1, r1]
  · rw [fill_right _ _ _ (by omega), l1, e1, r1]
  · rw [fill_left _ _ _ (by omega), e2, r2]
  · by_cases h : n = c.length
    · rw [h, Nat.mod_self]; simp [List.take_of_length_le, List.drop_of_length_le]
    · rw [Nat.mod_eq_of_lt (show n < c.length by omega), r1, r4]
  · by_cases h : n = c.length
    · rw [h, Nat.mod_self]; simp [List.take_of_length_le, List.drop_of_length_le]
    · rw [Nat.mod_eq_of_lt (show n < c.length by omega), r2, r3]

/-! ### C36: shifts -/

/-- **C36 (shift of an encrypted register by a plaintext distance).** For every instruction, register and distance up to
the register's width the result decrypts to the fixed-width meaning of the instruction. Missing: distances beyond the
width, where the instruction panics (`C36_shift_by_plain_violated`). -/
theorem C36_shift_by_plain_partial (op : Sh) (c : List Bool) (n ws : Nat) (h0 : 0 < c.length) (hn : n ≤ c.length)
    (h32 : n < 2 ^ 32) :
    ∃ bits, shiftOp op (.cipher c) (.plain n ws) = .ok (.cipher bits) ∧ bits.length = c.length ∧
      valLE bits = shMeaning c.length (valLE c) n op := by
  refine ⟨(shBE c.reverse n op).reverse, ?_, ?_, ?_⟩
  · simp only [shiftOp, Nat.mod_eq_of_lt h32, plainShift_ok op c n h0 hn, bind_ok]; rfl
  · rw [List.length_reverse, shBE_length _ _ (by simpa using h0), List.length_reverse]
  · have := shBE_value c.reverse n (by simpa using h0) op
    rw [List.length_reverse] at this
    simpa [valBE] using this

-- encrypted -3 (5 bits) >>> 1 = -2
example : ∃ bits, shiftOp .shra (.cipher [true, false, true, true, true]) (.plain 1 32) = .ok (.cipher bits) ∧ bits.length = 5 ∧
    valLE bits = 30 := C36_shift_by_plain_partial .shra [true, false, true, true, true] 1 32 (by decide) (by decide) (by decide)

/-- **C36 violated (shift of an encrypted register by more than its width).** The instruction panics on the ciphertext,
while the logical shifts of a plaintext register by the same distance succeed. -/
theorem C36_shift_by_plain_violated (op : Sh) (c : List Bool) (n ws x : Nat) (hn : c.length < n) (h128 : n < 128) :
    shiftOp op (.cipher c) (.plain n ws) = .error .panic ∧
    shiftOp .shr (.plain x c.length) (.plain n ws) = .ok (.plain (shMeaning c.length x n .shr) c.length) := by
  refine ⟨?_, C35_shr_partial h128⟩
  have h32 : n % 2 ^ 32 = n := Nat.mod_eq_of_lt (by omega)
  simp only [shiftOp, h32]
  have : plainShift c n op.dir op.mode = .error .panic := by
    unfold plainShift
    cases c.getLast? with
    | none => rfl
    | some m => simp only; rw [if_pos hn]
  rw [this, bind_err]

/-- **C36 (shift by an encrypted distance).** For a register of either kind and every value of an encrypted distance with
enough bits to address every position, the result decrypts to the fixed-width meaning; distances at and beyond the width
included. Rotations need a power-of-two width (`C36_rotate_violated`), and the distance register must not be narrower than
`usedShiftBits` (`C36_narrow_distance_violated`). -/
theorem C36_shift_encrypted_partial (op : Sh) {a : Reg} {cs : List Bool} (ha : Reg.Fits a) (h0 : 1 ≤ a.width)
    (hs : usedShiftBits a.width ≤ cs.length) (hv : a.width + cs.length < maxVars)
    (hrot : op.mode = .rotation → isPow2 a.width = true) :
    ∃ bits, shiftOp op a (.cipher cs) = .ok (.cipher bits) ∧ bits.length = a.width ∧
      valLE bits = shMeaning a.width (Reg.value a) (valLE cs) op := by
  have la := lift_length a
  have va := lift_val ha
  have hlr : (lift a).reverse.length = a.width := by rw [List.length_reverse, la]
  have hsr : usedShiftBits (lift a).reverse.length ≤ cs.reverse.length := by rw [hlr, List.length_reverse]; exact hs
  have hvr : (lift a).reverse.length + cs.reverse.length < maxVars := by rw [hlr, List.length_reverse]; exact hv
  have h0r : 0 < (lift a).reverse.length := by omega
  have key : ∃ outs, bitshift a.width cs.length op.dir op.mode = some outs ∧
      outs.map (· (wires ((lift a).reverse ++ cs.reverse))) = shBE (lift a).reverse (valLE cs) op := by
    have hvb : valBE cs.reverse = valLE cs := by simp [valBE]
    rw [← hvb, ← hlr, ← List.length_reverse (as := cs)]
    cases op with
    | shr => exact C08_shift_right _ _ h0r hsr hvr
    | shra => exact C08_arithmetic_shift_right _ _ h0r hsr hvr
    | shl => exact C08_shift_left _ _ h0r hsr hvr
    | rotr => exact C08_rotate_right _ _ (by rw [hlr]; exact hrot rfl) hsr hvr
    | rotl => exact C08_rotate_left _ _ (by rw [hlr]; exact hrot rfl) hsr hvr
  obtain ⟨outs, e1, e2⟩ := key
  refine ⟨(shBE (lift a).reverse (valLE cs) op).reverse, ?_, ?_, ?_⟩
  · have hr : runCircuit (bitshift (lift a).length cs.length op.dir op.mode) ((lift a).length + cs.length)
        ((lift a).reverse ++ cs.reverse) = .ok (shBE (lift a).reverse (valLE cs) op) := by
      rw [la, e1, runCircuit_ok (by simp [la]), e2]
    cases a <;> simp only [shiftOp, hr, bind_ok] <;> rfl
  · rw [List.length_reverse, shBE_length _ _ h0r, hlr]
  · have := shBE_value (lift a).reverse (valLE cs) h0r op
    rw [hlr] at this
    rw [← va]
    simpa [valBE] using this

-- plaintext 5-bit 22 shifted right by an encrypted 9: 0
example : ∃ bits, shiftOp .shr (.plain 22 5) (.cipher [true, false, false, true]) = .ok (.cipher bits) ∧ bits.length = 5 ∧
    valLE bits = 0 :=
  C36_shift_encrypted_partial .shr (by show (22 : Nat) < 32; decide) (by decide) (by decide) (by decide) (by decide)

/-- **C36 violated (rotation by an encrypted distance).** Every width that is not a power of two panics, although the
plaintext instruction supports it. -/
theorem C36_rotate_violated (a : Reg) (cs : List Bool) (op : Sh) (hop : op.mode = .rotation) (hp : isPow2 a.width = false) :
    shiftOp op a (.cipher cs) = .error .panic := by
  have la := lift_length a
  have hb : bitshift (lift a).length cs.length op.dir op.mode = none := by
    rw [C08_refusals, la]; exact Or.inr (Or.inl ⟨hop, hp⟩)
  cases a <;> simp only [shiftOp, hb] <;> rfl

/-- **C36 violated (narrow encrypted distance).** An encrypted distance with too few bits to address every position
panics, although a plaintext distance of that width is accepted. -/
theorem C36_narrow_distance_violated (a : Reg) (cs : List Bool) (op : Sh) (h : cs.length < usedShiftBits a.width) :
    shiftOp op a (.cipher cs) = .error .panic := by
  have la := lift_length a
  have hb : bitshift (lift a).length cs.length op.dir op.mode = none := by
    rw [C08_refusals, la]; exact Or.inl h
  cases a <;> simp only [shiftOp, hb] <;> rfl

/-- **C36 violated (plaintext and encrypted shifts disagree).** The plaintext left shift keeps the bits shifted out of the
register and the plaintext arithmetic shift adds a sign bit too many; the encrypted ones do neither. -/
theorem C36_shl_disagree_violated : ∃ bits,
    shiftOp .shl (.plain 200 8) (.plain 1 8) = .ok (.plain 400 8) ∧
    shiftOp .shl (.cipher (valueBits 200 8)) (.plain 1 8) = .ok (.cipher bits) ∧ valLE bits = 144 := by
  obtain ⟨b, e1, _, e3⟩ := C36_shift_by_plain_partial .shl (valueBits 200 8) 1 8 (by decide) (by decide) (by decide)
  exact ⟨b, rfl, e1, by rw [e3, valLE_valueBits]; rfl⟩

/-! ### C37: casts -/

theorem valLE_zero_replicate (k : Nat) : valLE (List.replicate k false) = 0 := by
  induction k with
  | zero => rfl
  | succ k ih => rw [List.replicate_succ, valLE_cons, ih]; rfl

theorem valLE_ones (k : Nat) : valLE (List.replicate k true) = 2 ^ k - 1 := by
  have := valBE_replicate_true k
  simpa [valBE] using this

theorem valSigned_extend (b : List Bool) (m : Bool) (hm : b.getLast? = some m) (k : Nat) :
    valSigned (b ++ List.replicate k m) = valSigned b := by
  have hb : b.getLastD false = m := by rw [List.getLastD_eq_getLast?, hm]; rfl
  have hl : (b ++ List.replicate k m).getLastD false = m := by
    cases k with
    | zero => simpa using hb
    | succ k => rw [List.replicate_succ', ← List.append_assoc]; simp [List.getLastD_eq_getLast?]
  unfold valSigned
  rw [hl, hb, valLE_append]
  cases m with
  | false => rw [valLE_zero_replicate]; simp
  | true =>
    rw [valLE_ones, List.length_append, List.length_replicate, if_pos rfl, if_pos rfl, pow_add]
    have := Nat.two_pow_pos k
    push_cast [Nat.cast_sub this]
    ring

/-- **C37 (zero extension).** Extending a register of either kind to any width at least its own keeps its value. -/
theorem C37_zext {r : Reg} (h : Reg.Fits r) {new : Nat} (hn : r.width ≤ new) :
    ∃ r', ext false r new = .ok r' ∧ r'.width = new ∧ r'.isPlain = r.isPlain ∧ Reg.Fits r' ∧ Reg.value r' = Reg.value r := by
  unfold ext
  rw [if_neg (by omega)]
  cases r with
  | plain v w =>
    refine ⟨_, rfl, rfl, rfl, ?_, rfl⟩
    exact Nat.lt_of_lt_of_le h (Nat.pow_le_pow_right (by omega) hn)
  | cipher b =>
    simp only [Reg.width] at hn
    refine ⟨_, rfl, by simp [Reg.width]; omega, rfl, trivial, ?_⟩
    simp only [Reg.value]
    rw [valLE_append, valLE_zero_replicate, Nat.mul_zero, Nat.add_zero]

/-- **C37 (sign extension).** Extending a register of either kind to any width at least its own keeps the number it
represents in two's complement. Missing: plaintext registers extended to 128 bits (`C37_sext_violated`). -/
theorem C37_sext_partial {r : Reg} (h : Reg.Fits r) {new : Nat} (h1 : 1 ≤ r.width) (hn : r.width ≤ new)
    (h128 : r.isPlain = true → new < 128) :
    ∃ r', ext true r new = .ok r' ∧ r'.width = new ∧ r'.isPlain = r.isPlain ∧ Reg.Fits r' ∧
      twos new (Reg.value r') = twos r.width (Reg.value r) := by
  unfold ext
  rw [if_neg (by omega)]
  cases r with
  | plain v w =>
    have hlt := h128 rfl
    simp only [Reg.width] at hn h1
    simp only [Reg.Fits] at h
    simp only [sub_ok h1, bind_ok, shr_ok (show w - 1 < 128 by omega), if_true]
    have hpn : (2 : Nat) ^ w ≤ 2 ^ new := Nat.pow_le_pow_right (by omega) hn
    have hp1 : (2 : Nat) ^ (w - 1) ≤ 2 ^ (new - 1) := Nat.pow_le_pow_right (by omega) (by omega)
    have hdbl : ∀ k, 1 ≤ k → (2 : Nat) ^ k = 2 ^ (k - 1) + 2 ^ (k - 1) := by
      intro k hk; obtain ⟨j, rfl⟩ : ∃ j, k = j + 1 := ⟨k - 1, by omega⟩
      rw [Nat.pow_succ, Nat.add_sub_cancel]; omega
    have d1 := hdbl w h1
    have d2 := hdbl new (by omega)
    by_cases hneg : v < 2 ^ (w - 1)
    · rw [if_pos (Nat.div_eq_of_lt hneg)]
      refine ⟨_, rfl, rfl, rfl, Nat.lt_of_lt_of_le h hpn, ?_⟩
      show twos new v = twos w v
      unfold twos
      rw [if_pos hneg, if_pos (show v < 2 ^ (new - 1) by omega)]
    · have hd : v / 2 ^ (w - 1) ≠ 0 := by
        intro hc
        rcases (Nat.div_eq_zero_iff).1 hc with h' | h'
        · have := Nat.two_pow_pos (w - 1); omega
        · omega
      rw [if_neg hd]
      simp only [mask_ok (show w < 128 by omega), mask_ok hlt, bind_ok, and_mask]
      have hval : (v ||| not128 (2 ^ w - 1)) % 2 ^ new = 2 ^ new - 2 ^ w + v := by
        rw [Nat.or_comm, not_mask_or (by omega) h]
        have hsp := pow_split (Nat.le_of_lt hlt)
        have hp128 : 2 ^ new ≤ two128 := pow_le_128 (Nat.le_of_lt hlt)
        have : two128 - 2 ^ w + v = (2 ^ new - 2 ^ w + v) + 2 ^ new * (2 ^ (128 - new) - 1) := by
          rw [Nat.mul_sub, Nat.mul_one, ← hsp]; omega
        rw [this, Nat.add_mul_mod_self_left, Nat.mod_eq_of_lt (by omega)]
      rw [hval]
      refine ⟨_, rfl, rfl, rfl, ?_, ?_⟩
      · show 2 ^ new - 2 ^ w + v < 2 ^ new; omega
      · show twos new (2 ^ new - 2 ^ w + v) = twos w v
        unfold twos
        rw [if_neg hneg, if_neg (show ¬ 2 ^ new - 2 ^ w + v < 2 ^ (new - 1) by omega)]
        rw [Nat.cast_add, Nat.cast_sub hpn]; push_cast; ring
  | cipher b =>
    simp only [Reg.width] at hn h1
    obtain ⟨m, hm⟩ : ∃ m, b.getLast? = some m := ⟨_, List.getLast?_eq_some_getLast (List.ne_nil_of_length_pos h1)⟩
    simp only [hm, if_true]
    have hlen : (b ++ List.replicate (new - b.length) m).length = new := by simp; omega
    refine ⟨_, rfl, hlen, rfl, trivial, ?_⟩
    simp only [Reg.value, Reg.width]
    rw [← valSigned_twos b h1]
    have := valSigned_twos (b ++ List.replicate (new - b.length) m) (by omega)
    rw [hlen] at this
    rw [← this]
    exact valSigned_extend b m hm _

/-- **C37 violated (sign extension to 128 bits).** Sign extending a negative plaintext register to width 128 panics. -/
theorem C37_sext_violated {w v : Nat} (h1 : 1 ≤ w) (hw : w ≤ 128) (hn : 2 ^ (w - 1) ≤ v) :
    ext true (.plain v w) 128 = .error .panic := by
  unfold ext
  rw [if_neg (by simp only [Reg.width]; omega)]
  simp only [sub_ok h1, bind_ok, shr_ok (show w - 1 < 128 by omega), if_true]
  have hd : v / 2 ^ (w - 1) ≠ 0 := by
    intro hc
    rcases (Nat.div_eq_zero_iff).1 hc with h' | h'
    · have := Nat.two_pow_pos (w - 1); omega
    · omega
  rw [if_neg hd, mask_128 (Nat.le_refl 128)]
  by_cases h : w < 128
  · rw [mask_ok h]; rfl
  · rw [mask_128 (by omega)]; rfl

/-- **C37 (truncation).** Truncating a register of either kind keeps the low bits. Missing: truncating a plaintext
register to 128 bits, i.e. a 128-bit register to itself (`C37_trunc_violated`). -/
theorem C37_trunc_partial (r : Reg) {new : Nat} (hn : new ≤ r.width) (h128 : r.isPlain = true → new < 128) :
    ∃ r', trunc r new = .ok r' ∧ r'.width = new ∧ r'.isPlain = r.isPlain ∧ Reg.Fits r' ∧ Reg.value r' = Reg.value r % 2 ^ new := by
  unfold trunc
  rw [if_neg (by omega)]
  cases r with
  | plain v w =>
    simp only [mask_ok (h128 rfl), bind_ok, and_mask]
    exact ⟨_, rfl, rfl, rfl, Nat.mod_lt _ (Nat.two_pow_pos _), rfl⟩
  | cipher b =>
    simp only [Reg.width] at hn
    refine ⟨_, rfl, by simp [Reg.width]; omega, rfl, trivial, ?_⟩
    simp only [Reg.value]
    have hsplit : valLE b = valLE (b.take new) + 2 ^ new * valLE (b.drop new) := by
      conv_lhs => rw [← List.take_append_drop new b]
      rw [valLE_append, List.length_take, Nat.min_eq_left hn]
    have hlt := valLE_lt (b.take new)
    rw [List.length_take, Nat.min_eq_left hn] at hlt
    rw [hsplit, Nat.add_mul_mod_self_left, Nat.mod_eq_of_lt hlt]

/-- **C37 violated (truncation to 128 bits).** -/
theorem C37_trunc_violated (v : Nat) : trunc (.plain v 128) 128 = .error .panic := by
  unfold trunc
  rw [if_neg (by simp [Reg.width]), ]
  simp only [mask_128 (Nat.le_refl 128), bind_err]

/-- Extending to a smaller width and truncating to a larger one are refused, for every register. -/
theorem C37_refused (r : Reg) (new : Nat) :
    (new < r.width → ∀ s, ext s r new = .error .widthMismatch) ∧ (r.width < new → trunc r new = .error .widthMismatch) :=
  ⟨fun h s => by unfold ext; rw [if_pos h], fun h => by unfold trunc; rw [if_pos h]⟩

-- -6 in 4 bits sign extends to -6 in 9 bits, plain and encrypted
example : ext true (.plain 10 4) 9 = .ok (.plain 506 9) ∧ twos 9 506 = -6 ∧ twos 4 10 = -6 := ⟨rfl, by decide, by decide⟩
example : trunc (.cipher [true, true, false, true]) 2 = .ok (.cipher [true, true]) := rfl

/-! ### LoadI -/

/-- **C37/C35 (load immediate).** For widths 1 to 32 the instruction accepts exactly the 32-bit immediates that are a
`w`-bit unsigned number or the 32-bit sign extension of a negative `w`-bit number, and loads their low `w` bits. -/
theorem C37_loadi_partial {imm w : Nat} (h1 : 1 ≤ w) (h32 : w ≤ 32) :
    (imm < 2 ^ w ∨ 2 ^ 32 - 2 ^ (w - 1) ≤ imm → loadi imm w = .ok (.plain (imm % 2 ^ w) w)) ∧
    (¬ (imm < 2 ^ w ∨ 2 ^ 32 - 2 ^ (w - 1) ≤ imm) → loadi imm w = .error .outOfRange) := by
  have hp : (2 : Nat) ^ (w - 1) ≤ 2 ^ 31 := Nat.pow_le_pow_right (by omega) (by omega)
  have hpos := Nat.two_pow_pos (w - 1)
  have hc : (2 ^ 32 - 1) * 2 ^ (w - 1) % 2 ^ 32 = 2 ^ 32 - 2 ^ (w - 1) := by
    generalize (2 : Nat) ^ (w - 1) = p at *
    have : (2 ^ 32 - 1) * p = (2 ^ 32 - p) + 2 ^ 32 * (p - 1) := by omega
    rw [this, Nat.add_mul_mod_self_left, Nat.mod_eq_of_lt (by omega)]
  unfold loadi
  rw [if_neg (by omega), if_neg (by omega), hc]
  constructor
  · intro h; rw [if_pos h]
  · intro h; rw [if_neg h]

/-- **Violated (load immediate, wider registers).** A width above 32 always panics, for every immediate. -/
theorem C37_loadi_violated (imm : Nat) {w : Nat} (h : 32 < w) : loadi imm w = .error .panic := by
  unfold loadi
  by_cases h' : w ≥ 64
  · rw [if_pos h']
  · rw [if_neg h', if_pos (by omega)]

-- ldi x10, -90, 8
example : loadi 0xFFFFFFA6 8 = .ok (.plain 0xA6 8) := rfl
example : loadi 0x1A6 8 = .error .outOfRange := rfl

end Spf.Props
