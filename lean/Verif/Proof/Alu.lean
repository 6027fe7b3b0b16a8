import Verif.Spec.Alu
import Verif.Proof.Bits
import Verif.Props.Arith
import Verif.Props.Gradeschool
import Verif.Props.Shift
import Mathlib.Tactic.Ring
/-! Lemmas about the ALU model. -/
namespace Spf.Cpu
open Spf.Spec Spf.Props

theorem bind_ok {α β : Type} (x : α) (f : α → Except Err β) : (Except.ok x >>= f) = f x := rfl
theorem bind_err {α β : Type} (e : Err) (f : α → Except Err β) : ((Except.error e : Except Err α) >>= f) = .error e := rfl

theorem pow_le_128 {w : Nat} (h : w ≤ 128) : 2 ^ w ≤ two128 := Nat.pow_le_pow_right (by omega) h

theorem shl_ok {a s : Nat} (h : s < 128) : shl128 a s = .ok (a * 2 ^ s % two128) := by unfold shl128; rw [if_pos h]
theorem shr_ok {a s : Nat} (h : s < 128) : shr128 a s = .ok (a / 2 ^ s) := by unfold shr128; rw [if_pos h]
theorem sub_ok {a b : Nat} (h : b ≤ a) : sub128 a b = .ok (a - b) := by unfold sub128; rw [if_pos h]

theorem mask_ok {w : Nat} (h : w < 128) : mask w = .ok (2 ^ w - 1) := by
  unfold mask
  have h2 : 2 ^ w < two128 := Nat.pow_lt_pow_right (by omega) h
  rw [shl_ok h, Nat.one_mul, Nat.mod_eq_of_lt h2]
  exact sub_ok (Nat.two_pow_pos w)

theorem mask_128 {w : Nat} (h : 128 ≤ w) : mask w = .error .panic := by
  unfold mask shl128
  rw [if_neg (by omega)]

theorem checkWidth_ok {a b : Reg} (h : a.width = b.width) (h1 : 1 ≤ a.width) (h2 : a.width ≤ 128) : checkWidth a b = .ok () := by
  unfold checkWidth; rw [if_neg (by omega), if_neg (by omega)]

theorem and_mask (x w : Nat) : x &&& (2 ^ w - 1) = x % 2 ^ w := Nat.and_two_pow_sub_one_eq_mod x w

theorem mod_two128 {x w : Nat} (h : w ≤ 128) : x % two128 % 2 ^ w = x % 2 ^ w :=
  Nat.mod_mod_of_dvd x (Nat.pow_dvd_pow 2 h)

theorem wsub_mod {x y w : Nat} (h : w ≤ 128) (hy : y < 2 ^ w) : wsub x y % 2 ^ w = (x + 2 ^ w - y) % 2 ^ w := by
  unfold wsub
  rw [mod_two128 h]
  obtain ⟨k, hk⟩ : ∃ k, two128 = 2 ^ w * k + 2 ^ w := by
    refine ⟨2 ^ (128 - w) - 1, ?_⟩
    have : two128 = 2 ^ w * 2 ^ (128 - w) := by rw [← Nat.pow_add, show w + (128 - w) = 128 by omega]; rfl
    rw [this, ← Nat.mul_succ]; congr 1
    have := Nat.two_pow_pos (128 - w); omega
  rw [hk, show x + (2 ^ w * k + 2 ^ w) - y = (x + 2 ^ w - y) + 2 ^ w * k by omega, Nat.add_mul_mod_self_left]

/-! ### bits -/

theorem valLE_testBit (l : List Bool) (i : Nat) : (valLE l).testBit i = l.getD i false := by
  induction l generalizing i with
  | nil => simp
  | cons b l ih =>
    cases i with
    | zero => cases b <;> simp [valLE_cons, Nat.testBit_zero, bit]
    | succ i =>
      rw [Nat.testBit_succ, valLE_cons]
      rw [show (bit b + 2 * valLE l) / 2 = valLE l by cases b <;> simp [bit] <;> omega, ih]
      simp

theorem valueBits_length (v w : Nat) : (valueBits v w).length = w := by simp [valueBits]

theorem valueBits_succ (v w : Nat) : valueBits v (w + 1) = (v % 2 == 1) :: valueBits (v / 2) w := by
  unfold valueBits
  rw [List.range_succ_eq_map, List.map_cons, List.map_map]
  congr 1
  · simp
  · apply List.map_congr_left
    intro i _
    simp [Function.comp, Nat.pow_succ, Nat.div_div_eq_div_mul, Nat.mul_comm]

theorem valLE_valueBits (v w : Nat) : valLE (valueBits v w) = v % 2 ^ w := by
  induction w generalizing v with
  | zero => simp [valueBits, Nat.mod_one]
  | succ w ih =>
    rw [valueBits_succ, valLE_cons, ih, Nat.pow_succ, Nat.mul_comm (2 ^ w) 2, Nat.mod_mul]
    congr 1
    rcases Nat.mod_two_eq_zero_or_one v with h | h <;> simp [h]

theorem lift_length (r : Reg) : (lift r).length = r.width := by
  cases r with
  | plain v w => exact valueBits_length v w
  | cipher b => rfl

theorem lift_val {r : Reg} (h : Reg.Fits r) : valLE (lift r) = Reg.value r := by
  cases r with
  | plain v w => rw [lift, valLE_valueBits]; exact Nat.mod_eq_of_lt h
  | cipher b => rfl

theorem value_lt {r : Reg} (h : Reg.Fits r) : Reg.value r < 2 ^ r.width := by
  rw [← lift_val h, ← lift_length]; exact valLE_lt _

theorem zipBits_eq : ∀ (a b : List Bool), a.length = b.length → zipBits a b = interleave a b
  | [], [], _ => rfl
  | x :: xs, y :: ys, h => by
    have := zipBits_eq xs ys (by simpa using h)
    simp only [zipBits] at this
    simp [zipBits, interleave, this]
  | [], _ :: _, h => by simp at h
  | _ :: _, [], h => by simp at h

theorem valLE_eq_of_bits {l : List Bool} {x : Nat} (hx : x < 2 ^ l.length) (h : ∀ i, i < l.length → l.getD i false = x.testBit i) :
    valLE l = x := by
  apply Nat.eq_of_testBit_eq
  intro i
  rw [valLE_testBit]
  by_cases hi : i < l.length
  · exact h i hi
  · rw [Nat.testBit_lt_two_pow (Nat.lt_of_lt_of_le hx (Nat.pow_le_pow_right (by omega) (by omega)))]
    simp [List.getD, List.getElem?_eq_none (by omega : l.length ≤ i)]

theorem valLE_zipWith (f : Bool → Bool → Bool) (g : Nat → Nat → Nat) (a b : List Bool) (hl : a.length = b.length)
    (hlt : g (valLE a) (valLE b) < 2 ^ a.length)
    (hg : ∀ i, (g (valLE a) (valLE b)).testBit i = f ((valLE a).testBit i) ((valLE b).testBit i)) :
    valLE (List.zipWith f a b) = g (valLE a) (valLE b) := by
  have hlen : (List.zipWith f a b).length = a.length := by simp [hl]
  apply valLE_eq_of_bits (by rw [hlen]; exact hlt)
  intro i hi
  rw [hlen] at hi
  rw [hg, valLE_testBit, valLE_testBit, getD_eq_getElem _ _ _ (by omega), getD_eq_getElem _ _ _ hi, getD_eq_getElem _ _ _ (by omega)]
  simp

theorem valLE_map_not (b : List Bool) : valLE (b.map (!·)) = 2 ^ b.length - 1 - valLE b := by
  induction b with
  | nil => rfl
  | cons x b ih =>
    have := valLE_lt b
    rw [List.map_cons, valLE_cons, ih, valLE_cons, List.length_cons, Nat.pow_succ]
    cases x <;> simp [bit] <;> omega

theorem runCircuit_ok {outs : List BddFn} {n : Nat} {ins : List Bool} (h : n = ins.length) :
    runCircuit (some outs) n ins = .ok (outs.map (· (wires ins))) := by
  unfold runCircuit Mul.applyCircuit
  simp only
  rw [if_neg (by omega)]
  rfl

theorem zipBits_length (a b : List Bool) (h : a.length = b.length) : (zipBits a b).length = 2 * a.length := by
  rw [zipBits_eq _ _ h, interleave_length]; omega

/-- `valSigned` of the bits is the two's complement reading of the value. -/
theorem valSigned_twos (l : List Bool) (h : 0 < l.length) : valSigned l = twos l.length (valLE l) := by
  obtain ⟨l', s, rfl⟩ : ∃ l' s, l = l' ++ [s] := ⟨l.dropLast, l.getLast (by intro h0; simp [h0] at h),
    (List.dropLast_concat_getLast _).symm⟩
  unfold valSigned twos
  have := valLE_lt l'
  rw [valLE_snoc, List.length_append, List.length_singleton, Nat.add_sub_cancel]
  rw [show (l' ++ [s]).getLastD false = s by simp [List.getLastD_eq_getLast?]]
  cases s
  · rw [if_neg (by simp : ¬ (false = true)), if_pos (by simp; omega)]; simp
  · rw [if_pos rfl, if_neg (by simp)]

end Spf.Cpu

namespace Spf.Cpu
open Spf.Spec Spf.Props

theorem testBit_top {x w : Nat} (hw : 1 ≤ w) (hx : x < 2 ^ w) : x.testBit (w - 1) = decide (2 ^ (w - 1) ≤ x) := by
  obtain ⟨k, rfl⟩ : ∃ k, w = k + 1 := ⟨w - 1, by omega⟩
  rw [Nat.add_sub_cancel]
  by_cases h : 2 ^ k ≤ x
  · obtain ⟨r, rfl⟩ : ∃ r, x = 2 ^ k + r := ⟨x - 2 ^ k, by omega⟩
    have hr : r < 2 ^ k := by rw [Nat.pow_succ] at hx; omega
    rw [Nat.testBit_two_pow_add_eq, Nat.testBit_lt_two_pow hr]; simp
  · rw [Nat.testBit_lt_two_pow (by omega)]; simp [h]

theorem sign_test {x w : Nat} (hw : 1 ≤ w) (hx : x < 2 ^ w) : 2 ^ (w - 1) &&& x = 0 ↔ x < 2 ^ (w - 1) := by
  have ht := testBit_top hw hx
  constructor
  · intro h
    have h2 : (2 ^ (w - 1) &&& x).testBit (w - 1) = false := by rw [h]; simp
    rw [Nat.testBit_and, Nat.testBit_two_pow_self, Bool.true_and, ht] at h2
    simpa using h2
  · intro h
    apply Nat.eq_of_testBit_eq
    intro i
    rw [Nat.testBit_and, Nat.testBit_two_pow, Nat.zero_testBit]
    by_cases hi : w - 1 = i
    · subst hi; rw [ht]; simp; omega
    · simp [hi]

theorem pow_split {w : Nat} (h : w ≤ 128) : two128 = 2 ^ w * 2 ^ (128 - w) := by
  rw [← Nat.pow_add, show w + (128 - w) = 128 by omega]; rfl

/-- ones above bit `w`, then `x` -/
theorem not_mask_or {x w : Nat} (h : w ≤ 128) (hx : x < 2 ^ w) : not128 (2 ^ w - 1) ||| x = two128 - 2 ^ w + x := by
  have h1 := pow_split h
  have h2 := Nat.two_pow_pos w
  have h3 := Nat.two_pow_pos (128 - w)
  have : not128 (2 ^ w - 1) = 2 ^ w * (2 ^ (128 - w) - 1) := by
    unfold not128
    rw [Nat.mul_sub, Nat.mul_one, ← h1]; omega
  rw [this, ← Nat.two_pow_add_eq_or_of_lt hx, Nat.mul_sub, Nat.mul_one, ← h1]

theorem toSigned_ok {x w : Nat} (hw : 1 ≤ w) (hw2 : w < 128) (hx : x < 2 ^ w) : toSigned x w = .ok (twos w x) := by
  have hp : 2 ^ w = 2 * 2 ^ (w - 1) := by rw [← Nat.pow_succ']; congr 1; omega
  have hle : 2 ^ (w - 1) ≤ 2 ^ 126 := Nat.pow_le_pow_right (by omega) (by omega)
  have hlt : 2 ^ (w - 1) < two128 := Nat.lt_of_le_of_lt hle (by decide)
  have hlt2 : 2 ^ w < two128 := Nat.pow_lt_pow_right (by omega) hw2
  have hc : two128 = 4 * 2 ^ 126 := by decide
  have hc2 : (2 : Nat) ^ 127 = 2 * 2 ^ 126 := by decide
  unfold toSigned twos
  rw [sub_ok hw, bind_ok, shl_ok (by omega), bind_ok, Nat.one_mul, Nat.mod_eq_of_lt hlt]
  by_cases h : x < 2 ^ (w - 1)
  · rw [if_pos ((sign_test hw hx).2 h), if_pos h, if_pos (by omega)]; rfl
  · rw [if_neg (fun h' => h ((sign_test hw hx).1 h')), if_neg h]
    rw [Nat.mul_comm, ← hp, Nat.mod_eq_of_lt hlt2, sub_ok (Nat.two_pow_pos w), bind_ok, not_mask_or (by omega) hx]
    dsimp only
    rw [if_neg (by omega)]
    have : ((two128 - 2 ^ w + x : Nat) : Int) - two128 = (x : Int) - 2 ^ w := by
      rw [Nat.cast_add, Nat.cast_sub (by omega)]; push_cast; ring
    show Except.ok _ = _
    rw [this]

theorem plain_cmp {x y w : Nat} (hw : 1 ≤ w) (hw2 : w < 128) (hx : x < 2 ^ w) (hy : y < 2 ^ w) (c : Cmp) :
    ∃ b, c.plain x w y w = .ok b ∧ (b = true ↔ cmpHolds w x y c) := by
  cases c <;> simp only [Cmp.plain, cmpHolds, toSigned_ok hw hw2 hx, toSigned_ok hw hw2 hy] <;>
    exact ⟨_, rfl, by simp⟩

theorem valLE_single (b : Bool) : valLE [b] = if b then 1 else 0 := by cases b <;> rfl

/-- comparison circuits -/
theorem circuit_cmp (c : Cmp) (a b : List Bool) (hl : a.length = b.length) (h0 : 0 < a.length) (hv : 2 * a.length < maxVars) :
    ∃ out, c.circuit a.length = some [out] ∧ (out (wires (interleave a b)) = true ↔ cmpHolds a.length (valLE a) (valLE b) c) := by
  have hb : 0 < b.length := by omega
  have s1 := valSigned_twos a h0
  have s2 := valSigned_twos b hb
  rw [← hl] at s2
  cases c with
  | eq => exact C05_equal a b hl h0 hv
  | gt => obtain ⟨o, h1, h2⟩ := C06_unsigned_compare a b true false hl h0 hv; exact ⟨o, h1, by rw [h2]; simp [cmpSpec, cmpHolds]⟩
  | ge => obtain ⟨o, h1, h2⟩ := C06_unsigned_compare a b true true hl h0 hv; exact ⟨o, h1, by rw [h2]; simp [cmpSpec, cmpHolds]⟩
  | lt => obtain ⟨o, h1, h2⟩ := C06_unsigned_compare a b false false hl h0 hv; exact ⟨o, h1, by rw [h2]; simp [cmpSpec, cmpHolds]⟩
  | le => obtain ⟨o, h1, h2⟩ := C06_unsigned_compare a b false true hl h0 hv; exact ⟨o, h1, by rw [h2]; simp [cmpSpec, cmpHolds]⟩
  | gts => obtain ⟨o, h1, h2⟩ := C07_signed_compare a b true false hl h0 hv; exact ⟨o, h1, by rw [h2, s1, s2]; simp [cmpSpec, cmpHolds]⟩
  | ges => obtain ⟨o, h1, h2⟩ := C07_signed_compare a b true true hl h0 hv; exact ⟨o, h1, by rw [h2, s1, s2]; simp [cmpSpec, cmpHolds]⟩
  | lts => obtain ⟨o, h1, h2⟩ := C07_signed_compare a b false false hl h0 hv; exact ⟨o, h1, by rw [h2, s1, s2]; simp [cmpSpec, cmpHolds]⟩
  | les => obtain ⟨o, h1, h2⟩ := C07_signed_compare a b false true hl h0 hv; exact ⟨o, h1, by rw [h2, s1, s2]; simp [cmpSpec, cmpHolds]⟩

/-- the adder circuit on lifted operands -/
theorem addCircuit_ok {w : Nat} {a b : List Bool} (ha : a.length = w) (hb : b.length = w) (hw : 1 ≤ w) (hw2 : w ≤ 128)
    (c : Option Bool) :
    ∃ out, addCircuit w a b (c.map fun x => [x]) = .ok out ∧ out.length = w + 1 ∧
      valLE out = valLE a + valLE b + (match c with | some x => bit x | none => 0) := by
  obtain ⟨outs, h1, h2, h3⟩ := C01_adder a b c.isSome (c.getD false) (by omega) (by omega) (by simp only [maxVars]; omega)
  rw [ha, hb] at h1 h2
  rw [Nat.max_self] at h2
  have hin : (c.map fun x => [x]).getD [] ++ zipBits a b = (if c.isSome then [c.getD false] else []) ++ interleave a b := by
    rw [zipBits_eq _ _ (by omega)]; cases c <;> rfl
  refine ⟨outs.map (· (wires ((c.map fun x => [x]).getD [] ++ zipBits a b))), ?_, by simpa using h2, ?_⟩
  · unfold addCircuit
    rw [show (c.map fun x => [x]).isSome = c.isSome by cases c <;> rfl, h1]
    apply runCircuit_ok
    rw [List.length_append, zipBits_length _ _ (by omega)]
    cases c <;> simp <;> omega
  · rw [hin, h3]; cases c <;> rfl

theorem dropLast_val (l : List Bool) (w : Nat) (h : l.length = w + 1) :
    l.dropLast.length = w ∧ valLE l.dropLast = valLE l % 2 ^ w ∧ bit (l.getLastD false) = valLE l / 2 ^ w := by
  obtain ⟨l', s, rfl⟩ : ∃ l' s, l = l' ++ [s] := ⟨l.dropLast, l.getLast (by intro h0; simp [h0] at h),
    (List.dropLast_concat_getLast _).symm⟩
  have hl' : l'.length = w := by simpa using h
  have := valLE_lt l'
  rw [hl'] at this
  rw [List.dropLast_concat, valLE_snoc, hl', show (l' ++ [s]).getLastD false = s by simp [List.getLastD_eq_getLast?]]
  refine ⟨rfl, ?_, ?_⟩
  · rw [Nat.add_mul_mod_self_right, Nat.mod_eq_of_lt this]
  · rw [Nat.add_mul_div_right _ _ (Nat.two_pow_pos w), Nat.div_eq_of_lt this, Nat.zero_add]

theorem subCircuit_ok {w : Nat} {a b : List Bool} (ha : a.length = w) (hb : b.length = w) (hw : 1 ≤ w) (hw2 : w ≤ 128)
    (c : Option Bool) :
    ∃ diff borrow, subCircuit w a b (c.map fun x => [x]) = .ok (diff ++ [borrow]) ∧ diff.length = w ∧
      (valLE diff : Int) = ((valLE a : Int) - valLE b - (match c with | some x => bit x | none => 0 : Nat)) % 2 ^ w ∧
      (borrow = true ↔ valLE a < valLE b + (match c with | some x => bit x | none => 0)) := by
  obtain ⟨diff, borrow, h1, h2, h3⟩ := C02_subtractor a b c.isSome (c.getD false) (by omega) (by omega) (by simp only [maxVars]; omega)
  rw [ha] at h1 h2
  simp only at h3
  obtain ⟨h3, h4⟩ := h3
  have hin : (c.map fun x => [x]).getD [] ++ zipBits a b = (if c.isSome then [c.getD false] else []) ++ interleave a b := by
    rw [zipBits_eq _ _ (by omega)]; cases c <;> rfl
  refine ⟨diff.map (· (wires ((c.map fun x => [x]).getD [] ++ zipBits a b))), borrow (wires ((c.map fun x => [x]).getD [] ++ zipBits a b)), ?_, by simpa using h2, ?_, ?_⟩
  · unfold subCircuit
    rw [show (c.map fun x => [x]).isSome = c.isSome by cases c <;> rfl, h1]
    rw [runCircuit_ok]
    · simp
    · rw [List.length_append, zipBits_length _ _ (by omega)]
      cases c <;> simp <;> omega
  · rw [hin, h3, ha]; cases c <;> rfl
  · rw [hin, h4]; cases c <;> rfl

end Spf.Cpu
