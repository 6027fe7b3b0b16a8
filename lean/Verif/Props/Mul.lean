import Verif.Proof.MulRows
/-! C09: array multiplier. -/
namespace Spf.Props
open Spf.Spec Spf.Mul BddFn

/-- **C09.** The `n × m` multiplier circuit, fed the bits of `x` followed by the bits of `y` (both LSB first),
outputs `n + m` bits whose value is exactly `x * y`.  `2*n*m < 65536` is the capacity of the decision-diagram
library (`u16` variables); beyond it the generator refuses (next theorem). -/
theorem C09_multiplier (x y : List Bool) (hx : 0 < x.length) (hy : 0 < y.length)
    (hv : 2 * x.length * y.length < maxVars) (hs : y.length + x.length < 65536) :
    ∃ outs, multiplierImpl x.length y.length = some outs ∧ outs.length = x.length + y.length ∧
      valLE (outs.map (· (wires (x ++ y)))) = valLE x * valLE y := by
  -- the composed renaming
  obtain ⟨enc, X, Y, h1, h2, h3, h4⟩ := decode_encode_cells (List.range x.length)
    ((List.range y.length).map (x.length + ·)) 0 (by simpa using hx) (by simpa using hy)
  simp only [List.length_range, List.length_map] at h2 h3 h4
  have hdec : mulBddDecode ((List.range (2 * x.length * y.length)).map var) x.length y.length mkFalse =
      some (decodeFill ((decodeStarts (y.length - 1) (x.length - 1)).flatMap (decodeDiag x.length y.length))
        ((List.range (2 * x.length * y.length)).map var)
        (fun _ _ => ((List.range (2 * x.length * y.length)).map var).headD mkFalse,
         fun _ _ => ((List.range (2 * x.length * y.length)).map var).headD mkFalse)) := by
    unfold mulBddDecode
    have hl : 2 * x.length * y.length = 2 * y.length * x.length := by
      rw [Nat.mul_assoc, Nat.mul_comm x.length, Nat.mul_assoc]
    rw [if_neg (by simp [hl]), if_neg (by omega)]
  unfold multiplierImpl multiplierBdd
  rw [if_neg (by omega), if_neg (by omega), if_neg (by omega), if_neg (by omega), hdec, h1]
  simp only
  generalize hw : wires (x ++ y) = w
  generalize he : (fun k => w (enc.getD k 0)) = e
  generalize hfill : decodeFill ((decodeStarts (y.length - 1) (x.length - 1)).flatMap (decodeDiag x.length y.length))
        ((List.range (2 * x.length * y.length)).map var)
        (fun _ _ => ((List.range (2 * x.length * y.length)).map var).headD mkFalse,
         fun _ _ => ((List.range (2 * x.length * y.length)).map var).headD mkFalse) = XY
  have hcells : ∀ r c, r < y.length → c < x.length → XY.1 r c e = x.getD c false ∧ XY.2 r c e = y.getD r false := by
    intro r c hr hc
    have m1 := decodeFill_map (fun f : BddFn => f e)
      ((decodeStarts (y.length - 1) (x.length - 1)).flatMap (decodeDiag x.length y.length))
      ((List.range (2 * x.length * y.length)).map var)
      (fun _ _ => ((List.range (2 * x.length * y.length)).map var).headD mkFalse,
         fun _ _ => ((List.range (2 * x.length * y.length)).map var).headD mkFalse)
    rw [hfill] at m1
    have m2 := decodeFill_map w
      ((decodeStarts (y.length - 1) (x.length - 1)).flatMap (decodeDiag x.length y.length))
      enc (fun _ _ => enc.headD 0, fun _ _ => enc.headD 0)
    have hlist : ((List.range (2 * x.length * y.length)).map var).map (fun f : BddFn => f e) = enc.map w := by
      apply List.ext_getElem
      · simp only [List.length_map, List.length_range, h2]
        rw [Nat.mul_assoc, Nat.mul_comm x.length, Nat.mul_assoc]
      · intro i hi1 hi2
        have hi : i < enc.length := by simpa using hi2
        simp [BddFn.var, ← he, List.getD, hi]
    have hhead : (((List.range (2 * x.length * y.length)).map var).headD mkFalse) e = w (enc.headD 0) := by
      have hpos : 0 < 2 * x.length * y.length := by
        have := Nat.mul_pos (Nat.mul_pos (show 0 < 2 by omega) hx) hy; exact this
      obtain ⟨N, hN⟩ : ∃ N, 2 * x.length * y.length = N + 1 := ⟨_, (Nat.succ_pred_eq_of_pos hpos).symm⟩
      rw [hN, List.range_succ_eq_map]
      have : enc.length ≠ 0 := by
        rw [h2, Nat.mul_assoc, Nat.mul_comm y.length, ← Nat.mul_assoc]; omega
      cases enc with
      | nil => simp at this
      | cons a enc => simp [BddFn.var, ← he, List.getD]
    rw [hlist] at m1
    simp only [hhead] at m1
    have m3 := m1.symm.trans m2
    have e1 := congrFun (congrFun (congrArg Prod.fst m3) r) c
    have e2 := congrFun (congrFun (congrArg Prod.snd m3) r) c
    simp only at e1 e2
    -- the Nat-level decode
    unfold mulBddDecode at h3
    rw [if_neg (by simp [h2]), if_neg (by omega)] at h3
    simp only [Option.some.injEq] at h3
    rw [h3] at e1 e2
    obtain ⟨q1, q2⟩ := h4 r c hr hc
    simp only at e1 e2
    rw [q1] at e1; rw [q2] at e2
    refine ⟨e1.trans ?_, e2.trans ?_⟩
    · rw [← hw]; simp [wires, List.getD, hc, List.getElem?_append]
    · rw [← hw]; simp [wires, List.getD, hr, List.getElem?_append]
  have R := rows_inv x.length hx (fun i j => BddFn.and (XY.1 i j) (XY.2 i j)) e x y rfl (y.length - 1) (by omega)
    (fun i j hi hj => by
      obtain ⟨c1, c2⟩ := hcells i j (by omega) hj
      simp [BddFn.and, c1, c2])
  obtain ⟨r1, r2⟩ := R
  have hlen := rows_length x.length (fun i j => BddFn.and (XY.1 i j) (XY.2 i j)) (y.length - 1)
  refine ⟨_, rfl, ?_, ?_⟩
  · simp only [List.length_map, List.length_append, hlen, List.length_tail, r1, List.length_cons, List.length_nil]
    omega
  · rw [List.map_map]
    have hcomp : ((fun x_1 => x_1 w) ∘ fun (f : BddFn) => fun (w : Nat → Bool) => f fun k => w (enc.getD k 0)) =
        fun f : BddFn => f e := by funext f; simp only [Function.comp, he]
    rw [hcomp, List.append_assoc, List.map_append, valLE_append]
    obtain ⟨_, t2⟩ := rows_head_bit e _ x.length hx r1
    rw [t2]
    simp only [List.length_map, hlen]
    rw [r2, List.take_of_length_le (by omega)]

/-- Beyond the variable capacity, and on empty operands, the generator refuses. -/
theorem C09_refusals (n m : Nat) (h : n = 0 ∨ m = 0 ∨ 2 * n * m ≥ maxVars) : multiplierImpl n m = none := by
  unfold multiplierImpl
  split
  · rfl
  · split
    · rfl
    · split
      · rfl
      · have : 2 * n * m ≥ maxVars := by omega
        simp [multiplierBdd, this]

-- 3-bit × 2-bit: 6 * 3 = 18
example : ∃ outs, multiplierImpl 3 2 = some outs ∧
    valLE (outs.map (· (wires ([false, true, true] ++ [true, true])))) = 18 := by
  obtain ⟨o, h, _, h2⟩ := C09_multiplier [false, true, true] [true, true] (by decide) (by decide) (by decide) (by decide)
  exact ⟨o, h, h2⟩

end Spf.Props
