import Verif.Proof.Arith
/-!
C01–C07: arithmetic and comparison circuit generators.

The statements use only `Spec.Bits` (bit-list values, the documented input layouts) and the generators.
`outs.map (· e)` is the list of output bits on the wire assignment `e`.
-/
namespace Spf.Props
open Spf.Spec Spf.Arith

private theorem wires_carry_even (cin c : Bool) (a b : List Bool) (i : Nat) (h1 : i < a.length) (h2 : i < b.length) :
    wires ((if cin then [c] else []) ++ interleave a b) ((if cin then 1 else 0) + 2 * i) = a.getD i false ∧
    wires ((if cin then [c] else []) ++ interleave a b) ((if cin then 1 else 0) + 2 * i + 1) = b.getD i false := by
  have e1 := interleave_even a b i h1 h2
  have e2 := interleave_odd a b i h1 h2
  cases cin
  · simpa [wires] using ⟨e1, e2⟩
  · simp only [wires, if_true]
    rw [show 1 + 2 * i = 2 * i + 1 by omega, show 2 * i + 1 + 1 = (2 * i + 1) + 1 by omega]
    exact ⟨by simpa [List.getD] using e1, by simpa [List.getD] using e2⟩

private theorem wires_carry_tail (cin c : Bool) (a b : List Bool) (k : Nat) (v : Bool)
    (h : (interleave a b).getD k false = v) :
    wires ((if cin then [c] else []) ++ interleave a b) (k + (if cin then 1 else 0)) = v := by
  cases cin
  · simpa [wires] using h
  · simpa [wires, List.getD] using h

/-- **C01.** The adder for an `n`-bit and an `m`-bit operand (any widths ≥ 1 that fit the variable limit),
fed `[carry?] ++ interleave a b`, outputs `max n m + 1` bits whose value is exactly `a + b + carry`. -/
theorem C01_adder (a b : List Bool) (cin c : Bool) (ha : 0 < a.length) (hb : 0 < b.length)
    (hv : a.length + b.length + 1 < maxVars) :
    ∃ outs, rippleCarryAdder a.length b.length cin = some outs ∧
      outs.length = max a.length b.length + 1 ∧
      valLE (outs.map (· (wires ((if cin then [c] else []) ++ interleave a b)))) =
        valLE a + valLE b + (if cin then bit c else 0) := by
  have hoff : (if cin then 1 else 0) ≤ 1 := by cases cin <;> simp
  unfold rippleCarryAdder
  rw [if_neg (by omega), if_neg (by omega)]
  simp only
  rw [if_neg (by omega)]
  refine ⟨_, rfl, ?_⟩
  generalize he : wires ((if cin then [c] else []) ++ interleave a b) = e
  have L := add_loop e (if cin then 1 else 0) (if cin then BddFn.var 0 else BddFn.mkFalse) a b
    (min b.length a.length) (by omega) (by omega)
    (fun i hi => by rw [← he]; exact wires_carry_even cin c a b i (by omega) (by omega))
  have hc : bit ((if cin then BddFn.var 0 else BddFn.mkFalse : BddFn) e) = (if cin then bit c else 0) := by
    cases cin
    · simp [BddFn.mkFalse]
    · simp [BddFn.var, ← he, wires]
  rw [hc] at L
  obtain ⟨l1, l2⟩ := L
  generalize (List.range (min b.length a.length)).foldl (addStep (if cin then 1 else 0))
    ([], if cin then BddFn.var 0 else BddFn.mkFalse) = st at l1 l2 ⊢
  rcases Nat.le_total a.length b.length with hle | hle
  · rw [Nat.min_eq_right hle] at l1 l2 ⊢
    rw [Nat.max_eq_left hle]
    have T := addTail_loop e (if cin then 1 else 0) a.length st b (valLE a + (if cin then bit c else 0))
      (b.length - a.length) (by omega)
      (fun i hi => by rw [← he]; exact wires_carry_tail cin c a b _ _ (interleave_tail_right a b i hle)) l1
      (by rw [l2, List.take_length]; omega)
    obtain ⟨t1, t2⟩ := T
    rw [show a.length + (b.length - a.length) = b.length by omega, List.take_length] at *
    refine ⟨by simp [t1, Nat.max_eq_right hle], ?_⟩
    simp only [List.map_append, List.map_cons, List.map_nil, valLE_snoc, List.length_map, t1]
    simp only [ev] at t2
    omega
  · rw [Nat.min_eq_left hle] at l1 l2 ⊢
    rw [Nat.max_eq_right hle]
    have T := addTail_loop e (if cin then 1 else 0) b.length st a (valLE b + (if cin then bit c else 0))
      (a.length - b.length) (by omega)
      (fun i hi => by rw [← he]; exact wires_carry_tail cin c a b _ _ (interleave_tail_left a b i hle)) l1
      (by rw [l2, List.take_length]; omega)
    obtain ⟨t1, t2⟩ := T
    rw [show b.length + (a.length - b.length) = a.length by omega, List.take_length] at *
    refine ⟨by simp [t1, Nat.max_eq_left hle], ?_⟩
    simp only [List.map_append, List.map_cons, List.map_nil, valLE_snoc, List.length_map, t1]
    simp only [ev] at t2
    omega

/-- The guards of the adder: zero-width operands are refused. -/
theorem C01_adder_rejects_zero_width (n m : Nat) (cin : Bool) (h : n = 0 ∨ m = 0) :
    rippleCarryAdder n m cin = none := by
  unfold rippleCarryAdder; rcases h with rfl | rfl <;> simp

-- hypotheses of C01 met by a 3-bit + 2-bit addition with carry: 5 + 3 + 1 = 9
example : ∃ outs, rippleCarryAdder 3 2 true = some outs ∧
    valLE (outs.map (· (wires ([true] ++ interleave [true, false, true] [true, true])))) = 9 := by
  obtain ⟨outs, h1, _, h3⟩ := C01_adder [true, false, true] [true, true] true true (by decide) (by decide) (by decide)
  exact ⟨outs, h1, h3⟩

/-- **C02.** The subtractor outputs `n` difference bits and a borrow bit: the difference is
`(a - b - borrow) mod 2^n` and the borrow bit is set exactly when `a < b + borrow`. -/
theorem C02_subtractor (a b : List Bool) (bin c : Bool) (hl : a.length = b.length) (ha : 0 < a.length)
    (hv : 2 * a.length + 1 < maxVars) :
    ∃ diff borrow, fullSubtractor a.length bin = some (diff ++ [borrow]) ∧
      diff.length = a.length ∧
      let e := wires ((if bin then [c] else []) ++ interleave a b)
      ((valLE (diff.map (· e)) : Int) =
        ((valLE a : Int) - valLE b - (if bin then bit c else 0 : Nat)) % 2 ^ a.length) ∧
      (borrow e = true ↔ valLE a < valLE b + (if bin then bit c else 0)) := by
  have hoff : (if bin then 1 else 0) ≤ 1 := by cases bin <;> simp
  unfold fullSubtractor
  rw [if_neg (by omega)]
  simp only
  rw [if_neg (by omega)]
  refine ⟨_, _, rfl, ?_⟩
  generalize he : wires ((if bin then [c] else []) ++ interleave a b) = e
  obtain ⟨l1, l2⟩ := sub_loop e (if bin then 1 else 0) (if bin then BddFn.var 0 else BddFn.mkFalse) a b
    a.length (by omega) (by omega)
    (fun i hi => by rw [← he]; exact wires_carry_even bin c a b i (by omega) (by omega))
  have hc : bit ((if bin then BddFn.var 0 else BddFn.mkFalse : BddFn) e) = (if bin then bit c else 0) := by
    cases bin
    · simp [BddFn.mkFalse]
    · simp [BddFn.var, ← he, wires]
  rw [hc] at l2
  generalize (List.range a.length).foldl (subStep (if bin then 1 else 0))
    ([], if bin then BddFn.var 0 else BddFn.mkFalse) = st at l1 l2 ⊢
  rw [List.take_length] at l2
  rw [List.take_of_length_le (by omega)] at l2
  have b1 := valLE_lt (ev e st.1)
  have b2 := valLE_lt a
  have b3 := valLE_lt b
  rw [List.length_map, l1] at b1
  rw [← hl] at b3
  have hz : ((2 : Int) ^ a.length) = ((2 ^ a.length : Nat) : Int) := by simp
  refine ⟨l1, ?_, ?_⟩
  · simp only [ev] at *
    rw [hz]
    generalize 2 ^ a.length = P at *
    generalize (if bin = true then bit c else 0) = C at *
    cases hs : st.2 e <;> simp [hs] at l2
    · rw [Int.emod_eq_of_lt] <;> omega
    · rw [← Int.add_emod_right, Int.emod_eq_of_lt] <;> omega
  · simp only [ev] at *
    generalize 2 ^ a.length = P at *
    generalize (if bin = true then bit c else 0) = C at *
    cases hs : st.2 e <;> simp [hs] at l2 ⊢ <;> omega

-- 3 - 5 - 1 on three bits
example : ∃ diff borrow, fullSubtractor 3 true = some (diff ++ [borrow]) ∧
    (valLE (diff.map (· (wires ([true] ++ interleave [true, true, false] [true, false, true])))) : Int) = 5 := by
  obtain ⟨d, bo, h, _, h2, _⟩ := C02_subtractor [true, true, false] [true, false, true] true true rfl
    (by decide) (by decide)
  exact ⟨d, bo, h, h2⟩

/-- **C03.** The negation circuit outputs the two's complement of its input. -/
theorem C03_negator (a : List Bool) (ha : 0 < a.length) (hv : a.length < maxVars) :
    ∃ outs, negator a.length = some outs ∧ outs.length = a.length ∧
      valLE (outs.map (· (wires a))) = (2 ^ a.length - valLE a) % 2 ^ a.length := by
  unfold negator
  rw [if_neg (by omega), if_neg (by omega)]
  refine ⟨_, rfl, ?_⟩
  obtain ⟨l1, l2, l3⟩ := neg_loop (wires a) a a.length (Nat.le_refl _) (fun i _ => rfl)
  refine ⟨l1, ?_⟩
  rw [List.take_length] at l2 l3
  simp only [ev] at l2
  have b2 := valLE_lt a
  generalize (List.range a.length).foldl negStep ([], BddFn.mkFalse) = st at *
  cases hs : st.2 (wires a)
  · have := l3 hs; simp [hs] at l2; rw [this] at *; simp; omega
  · simp [hs] at l2
    have b1 := valLE_lt (List.map (fun x => x (wires a)) st.1)
    rw [List.length_map, l1] at b1
    rw [Nat.mod_eq_of_lt] <;> omega

example : ∃ outs, negator 4 = some outs ∧ valLE (outs.map (· (wires [false, true, true, false]))) = 10 := by
  obtain ⟨o, h, _, h2⟩ := C03_negator [false, true, true, false] (by decide) (by decide)
  exact ⟨o, h, h2⟩

/-- **C04 (and).** Output bit `i` of the AND circuit is the AND of the operands' bits `i`. -/
theorem C04_and (a b : List Bool) (hl : a.length = b.length) (hv : 2 * a.length < maxVars) :
    ∃ outs, makeAndCircuit a.length = some outs ∧
      outs.map (· (wires (interleave a b))) = List.zipWith (· && ·) a b := by
  unfold makeAndCircuit
  rw [if_neg (by omega)]
  refine ⟨_, rfl, ?_⟩
  apply List.ext_getElem
  · simp [hl]
  · intro i h1 h2
    have hi : i < a.length := by simpa using h1
    have e1 := interleave_even a b i hi (by omega)
    have e2 := interleave_odd a b i hi (by omega)
    rw [getD_eq_getElem _ _ _ hi] at e1
    rw [getD_eq_getElem _ _ _ (by omega : i < b.length)] at e2
    simp [BddFn.and, BddFn.var, wires, ← List.getD_eq_getElem?_getD, e1, e2]

/-- **C04 (or).** Output bit `i` of the OR circuit is the OR of the operands' bits `i`. -/
theorem C04_or (a b : List Bool) (hl : a.length = b.length) (hv : 2 * a.length < maxVars) :
    ∃ outs, makeOrCircuit a.length = some outs ∧
      outs.map (· (wires (interleave a b))) = List.zipWith (· || ·) a b := by
  unfold makeOrCircuit
  rw [if_neg (by omega)]
  refine ⟨_, rfl, ?_⟩
  apply List.ext_getElem
  · simp [hl]
  · intro i h1 h2
    have hi : i < a.length := by simpa using h1
    have e1 := interleave_even a b i hi (by omega)
    have e2 := interleave_odd a b i hi (by omega)
    rw [getD_eq_getElem _ _ _ hi] at e1
    rw [getD_eq_getElem _ _ _ (by omega : i < b.length)] at e2
    simp [BddFn.or, BddFn.var, wires, ← List.getD_eq_getElem?_getD, e1, e2]

example : ∃ outs, makeAndCircuit 3 = some outs ∧
    outs.map (· (wires (interleave [true, true, false] [true, false, false]))) = [true, false, false] :=
  C04_and [true, true, false] [true, false, false] rfl (by decide)

/-- **C05.** The equality circuit has one output, true exactly when the operands are equal. -/
theorem C05_equal (a b : List Bool) (hl : a.length = b.length) (ha : 0 < a.length) (hv : 2 * a.length < maxVars) :
    ∃ out, compareEqual a.length = some [out] ∧ (out (wires (interleave a b)) = true ↔ valLE a = valLE b) := by
  unfold compareEqual
  rw [if_neg (by omega), if_neg (by omega)]
  refine ⟨_, rfl, ?_⟩
  rw [equal_loop _ a b a.length (by omega) (by omega)
    (fun i hi => ⟨interleave_even a b i hi (by omega), interleave_odd a b i hi (by omega)⟩)]
  rw [List.take_length, List.take_of_length_le (by omega)]
  exact ⟨fun h => by rw [h], fun h => valLE_inj hl h⟩

/-- **C05.** The inequality circuit has one output, true exactly when the operands differ. -/
theorem C05_not_equal (a b : List Bool) (hl : a.length = b.length) (ha : 0 < a.length) (hv : 2 * a.length < maxVars) :
    ∃ out, compareNotEqual a.length = some [out] ∧ (out (wires (interleave a b)) = true ↔ valLE a ≠ valLE b) := by
  obtain ⟨o, h1, h2⟩ := C05_equal a b hl ha hv
  unfold compareEqual at h1
  rw [if_neg (by omega), if_neg (by omega)] at h1
  unfold compareNotEqual
  rw [if_neg (by omega), if_neg (by omega)]
  refine ⟨_, rfl, ?_⟩
  simp only [Option.some.injEq, List.cons.injEq, and_true] at h1
  rw [← h1] at h2
  simp only [BddFn.not]
  rw [ne_eq, ← h2]; simp

example : ∃ out, compareEqual 2 = some [out] ∧ (out (wires (interleave [true, false] [true, true])) = true ↔ 1 = 3) :=
  C05_equal [true, false] [true, true] rfl (by decide) (by decide)

/-- What the four comparison settings are supposed to compute, on any ordered pair. -/
def cmpSpec (greater orEqual : Bool) (x y : Int) : Prop :=
  match greater, orEqual with
  | true, false => x > y
  | true, true => x ≥ y
  | false, false => x < y
  | false, true => x ≤ y

/-- **C06.** Unsigned comparison circuits, all four settings. -/
theorem C06_unsigned_compare (a b : List Bool) (greater orEqual : Bool) (hl : a.length = b.length)
    (ha : 0 < a.length) (hv : 2 * a.length < maxVars) :
    ∃ out, compareOrMaybeEqual a.length greater orEqual = some [out] ∧
      (out (wires (interleave a b)) = true ↔ cmpSpec greater orEqual (valLE a) (valLE b)) := by
  unfold compareOrMaybeEqual
  rw [if_neg (by omega), if_neg (by omega)]
  refine ⟨_, rfl, ?_⟩
  have C := cmp_loop (wires (interleave a b)) greater a b a.length rfl hl.symm
    (fun i hi => ⟨interleave_even a b i hi (by omega), interleave_odd a b i hi (by omega)⟩)
  obtain ⟨c1, c2⟩ := C
  unfold unsignedComparisonImpl
  rw [show 2 * a.length / 2 = a.length by omega]
  cases greater <;> cases orEqual <;>
    simp only [if_true, if_false, Bool.false_eq_true, BddFn.or, Bool.or_eq_true, c1, c2, cmpSpec] <;> omega

example : ∃ out, compareOrMaybeEqual 2 true false = some [out] ∧
    (out (wires (interleave [false, true] [true, false])) = true ↔ (2 : Int) > 1) :=
  C06_unsigned_compare [false, true] [true, false] true false rfl (by decide) (by decide)

/-- **C07.** Signed (two's complement) comparison circuits, all four settings, every width ≥ 1. -/
theorem C07_signed_compare (a b : List Bool) (greater orEqual : Bool) (hl : a.length = b.length)
    (ha : 0 < a.length) (hv : 2 * a.length < maxVars) :
    ∃ out, compareOrMaybeEqualSigned a.length greater orEqual = some [out] ∧
      (out (wires (interleave a b)) = true ↔ cmpSpec greater orEqual (valSigned a) (valSigned b)) := by
  unfold compareOrMaybeEqualSigned
  rw [if_neg (by omega), if_neg (by omega)]
  refine ⟨_, rfl, ?_⟩
  obtain ⟨n, hn⟩ : ∃ n, a.length = n + 1 := ⟨a.length - 1, by omega⟩
  -- split off the sign bits
  obtain ⟨a', sa, rfl⟩ : ∃ a' s, a = a' ++ [s] := ⟨a.dropLast, a.getLast (by intro h; simp [h] at ha),
    (List.dropLast_concat_getLast _).symm⟩
  obtain ⟨b', sb, rfl⟩ : ∃ b' s, b = b' ++ [s] := ⟨b.dropLast, b.getLast (by intro h; simp [h] at hl),
    (List.dropLast_concat_getLast _).symm⟩
  have la : a'.length = n := by simpa using hn
  have lb : b'.length = n := by simp at hl; omega
  rw [hn]
  have sgn (l : List Bool) (s : Bool) : valSigned (l ++ [s]) = (valLE l : Int) - (bit s : Int) * 2 ^ l.length := by
    simp only [valSigned, valLE_snoc, List.length_append, List.length_cons, List.length_nil]
    cases s
    · simp
    · simp [Int.pow_succ]; omega
  have W := fun i (hi : i < n + 1) => And.intro
    (interleave_even (a' ++ [sa]) (b' ++ [sb]) i (by simp; omega) (by simp; omega))
    (interleave_odd (a' ++ [sa]) (b' ++ [sb]) i (by simp; omega) (by simp; omega))
  obtain ⟨c1, c2⟩ := cmp_loop (wires (interleave (a' ++ [sa]) (b' ++ [sb]))) greater a' b' n la lb
    (fun i hi => by
      obtain ⟨w1, w2⟩ := W i (by omega)
      refine ⟨w1.trans ?_, w2.trans ?_⟩
      · simp [List.getD, List.getElem?_append, la, hi]
      · simp [List.getD, List.getElem?_append, lb, hi])
  obtain ⟨w1, w2⟩ := W n (by omega)
  have w1' : wires (interleave (a' ++ [sa]) (b' ++ [sb])) (2 * (n + 1) - 2) = sa := by
    simp only [wires]; rw [show 2 * (n + 1) - 2 = 2 * n by omega, w1]; simp [List.getD, ← la]
  have w2' : wires (interleave (a' ++ [sa]) (b' ++ [sb])) (2 * (n + 1) - 1) = sb := by
    simp only [wires]; rw [show 2 * (n + 1) - 1 = 2 * n + 1 by omega, w2]; simp [List.getD, ← lb]
  rw [sgn, sgn, la, lb]
  unfold unsignedComparisonImpl
  rw [show (2 * (n + 1) - 2) / 2 = n by omega]
  have ba := valLE_lt a'
  have bb := valLE_lt b'
  rw [la] at ba; rw [lb] at bb
  have hz : ((2 : Int) ^ n) = ((2 ^ n : Nat) : Int) := by simp
  rw [hz]
  generalize 2 ^ n = P at *
  cases greater <;> cases orEqual <;>
    simp only [if_true, if_false, Bool.false_eq_true, BddFn.or, BddFn.andNot, lessThan, greaterThan, BddFn.var,
      w1', w2', Bool.or_eq_true, Bool.and_eq_true, Bool.not_eq_true', c1, c2, cmpSpec] <;>
    cases sa <;> cases sb <;> simp <;> omega

-- -2 < 1 on two bits
example : ∃ out, compareOrMaybeEqualSigned 2 false false = some [out] ∧
    (out (wires (interleave [false, true] [true, false])) = true ↔ (-2 : Int) < 1) :=
  C07_signed_compare [false, true] [true, false] false false rfl (by decide) (by decide)

end Spf.Props
