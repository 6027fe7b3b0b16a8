import Verif.Proof.Gradeschool
import Verif.Props.Arith
import Verif.Props.Mul
/-! C10: divide-and-conquer multiplication. -/
namespace Spf.Props
open Spf.Spec Spf.Mul BddFn

theorem nBitsAreTrue_spec (e : Nat → Bool) (bits : List BddFn) (n : Nat) (hb : 1 ≤ bits.length) (hn : n ≤ bits.length) :
    nBitsAreTrue bits n e = decide ((bits.map (· e)).count true = n) := nBits_count e bits n hb hn

/-- **C10 (reduction circuit).** For every split with `n ≥ m` whose halves satisfy `b_lo ≤ a_lo`, `b_hi ≤ a_hi`
(always the case when both operands are really split, see `partition_mono`), and for every four partial products
of the right widths, the encoded inputs fed to the reduction circuit give the `n + m`-bit value of
`a_lo*b_lo + 2^b_lo·(a_lo*b_hi) + 2^a_lo·(a_hi*b_lo) + 2^(a_lo+b_lo)·(a_hi*b_hi)` modulo `2^(n+m)`. -/
theorem C10_reduction (n m : Nat) (hnm : m ≤ n) (hv : 2 * (m + n) < maxVars)
    (h1 : (partitionInteger m).1 ≤ (partitionInteger n).1) (h2 : (partitionInteger m).2 ≤ (partitionInteger n).2)
    (p00 p01 p10 p11 : List Bool)
    (l00 : p00.length = (partitionInteger n).1 + (partitionInteger m).1)
    (l01 : p01.length = (partitionInteger n).1 + (partitionInteger m).2)
    (l10 : p10.length = (partitionInteger n).2 + (partitionInteger m).1)
    (l11 : p11.length = (partitionInteger n).2 + (partitionInteger m).2) :
    ∃ enc outs, encodeGradeschoolReduction false n m p00 p01 p10 p11 = some enc ∧
      enc.length = 2 * (m + n) ∧ gradeschoolReduceImpl n m = some outs ∧ outs.length = n + m ∧
      valLE (outs.map (· (wires enc))) =
        (valLE p00 + 2 ^ (partitionInteger m).1 * valLE p01 + 2 ^ (partitionInteger n).1 * valLE p10 +
          2 ^ ((partitionInteger n).1 + (partitionInteger m).1) * valLE p11) % 2 ^ (n + m) := by
  have hn : (partitionInteger n).1 + (partitionInteger n).2 = n ∧ (partitionInteger n).2 ≤ (partitionInteger n).1 := by
    unfold partitionInteger; split <;> simp <;> omega
  have hm : (partitionInteger m).1 + (partitionInteger m).2 = m ∧ (partitionInteger m).2 ≤ (partitionInteger m).1 := by
    unfold partitionInteger; split <;> simp <;> omega
  unfold encodeGradeschoolReduction gradeschoolReduceImpl
  generalize (partitionInteger n).1 = aLo at *
  generalize (partitionInteger n).2 = aHi at *
  generalize (partitionInteger m).1 = bLo at *
  generalize (partitionInteger m).2 = bHi at *
  simp only
  rw [if_neg (by omega), if_neg (by omega), if_neg (by omega), if_neg (by omega), if_neg (by omega), if_neg (by omega)]
  generalize hA1 : ((List.range bLo).map fun i => p00.getD (0 + i) false) = A1
  generalize hA2 : ((List.range (aLo - bLo)).flatMap fun i => [p00.getD (bLo + i) false, p01.getD (0 + i) false]) = A2
  generalize hA3 : ((List.range bLo).flatMap fun i =>
        [p00.getD (bLo + (aLo - bLo) + i) false, p10.getD (0 + i) false, p01.getD ((aLo - bLo) + i) false]) = A3
  generalize hA4 : ((List.range bHi).flatMap fun i =>
        [p10.getD (bLo + i) false, p01.getD ((aLo - bLo) + bLo + i) false, p11.getD (0 + i) false]) = A4
  generalize hA5 : ((List.range (aHi - bHi)).flatMap fun i =>
        [p10.getD (bLo + bHi + i) false, p11.getD (bHi + i) false]) = A5
  generalize hA6 : ((List.range bHi).map fun i => p11.getD (bHi + (aHi - bHi) + i) false) = A6
  have L1 : A1.length = bLo := by rw [← hA1]; simp
  have L2 : A2.length = 2 * (aLo - bLo) := by rw [← hA2]; exact flatMap_length 2 _ (fun _ => rfl) _
  have L3 : A3.length = 3 * bLo := by rw [← hA3]; exact flatMap_length 3 _ (fun _ => rfl) _
  have L4 : A4.length = 3 * bHi := by rw [← hA4]; exact flatMap_length 3 _ (fun _ => rfl) _
  have L5 : A5.length = 2 * (aHi - bHi) := by rw [← hA5]; exact flatMap_length 2 _ (fun _ => rfl) _
  have L6 : A6.length = bHi := by rw [← hA6]; simp
  have R := reduce_value aLo aHi bLo bHi h1 h2 p00 p01 p10 p11 l00 l01 l10 l11
    (wires (A1 ++ A2 ++ A3 ++ A4 ++ A5 ++ A6))
    (fun i hi => by
      have := getD_mid [] A1 (A2 ++ A3 ++ A4 ++ A5 ++ A6) 0 i rfl (by omega)
      simp only [List.nil_append, Nat.zero_add, ← List.append_assoc] at this
      simp only [wires]
      rw [this, ← hA1]; simp [List.getD, hi])
    (fun i hi => by
      have a := flatMap_getD 2 (fun i => [p00.getD (bLo + i) false, p01.getD (0 + i) false]) (fun _ => rfl) _ i 0 hi (by omega)
      have b := flatMap_getD 2 (fun i => [p00.getD (bLo + i) false, p01.getD (0 + i) false]) (fun _ => rfl) _ i 1 hi (by omega)
      rw [hA2] at a b
      have k := fun x h => getD_mid A1 A2 (A3 ++ A4 ++ A5 ++ A6) bLo x (by omega) h
      simp only [← List.append_assoc] at k
      simp only [wires]
      rw [k _ (by omega), Nat.add_assoc bLo, k _ (by omega), show 2 * i = 2 * i + 0 from rfl, a,
        show 2 * i + 0 + 1 = 2 * i + 1 from rfl, b]
      simp)
    (fun i hi => by
      have a := fun j => flatMap_getD 3 (fun i => [p00.getD (bLo + (aLo - bLo) + i) false, p10.getD (0 + i) false,
        p01.getD ((aLo - bLo) + i) false]) (fun _ => rfl) _ i j hi
      rw [hA3] at a
      have k := fun x h => getD_mid (A1 ++ A2) A3 (A4 ++ A5 ++ A6) (bLo + 2 * (aLo - bLo)) x (by simp; omega) h
      simp only [← List.append_assoc] at k
      simp only [wires]
      rw [Nat.add_assoc _ (3 * i) 1, Nat.add_assoc _ (3 * i) 2, k _ (by omega), k _ (by omega), k _ (by omega)]
      rw [a 1 (by omega), a 2 (by omega), show 3 * i = 3 * i + 0 from rfl, a 0 (by omega),
        show bLo + (aLo - bLo) + i = aLo + i by omega]
      simp)
    (fun i hi => by
      have a := fun j => flatMap_getD 3 (fun i => [p10.getD (bLo + i) false, p01.getD ((aLo - bLo) + bLo + i) false,
        p11.getD (0 + i) false]) (fun _ => rfl) _ i j hi
      rw [hA4] at a
      have k := fun x h => getD_mid (A1 ++ A2 ++ A3) A4 (A5 ++ A6) (bLo + 2 * (aLo - bLo) + 3 * bLo) x (by simp; omega) h
      simp only [← List.append_assoc] at k
      simp only [wires]
      rw [show bLo + 2 * (aLo - bLo) + 3 * (bLo + i) = bLo + 2 * (aLo - bLo) + 3 * bLo + 3 * i by omega,
        Nat.add_assoc _ (3 * i) 1, Nat.add_assoc _ (3 * i) 2, k _ (by omega), k _ (by omega), k _ (by omega)]
      rw [a 1 (by omega), a 2 (by omega), show 3 * i = 3 * i + 0 from rfl, a 0 (by omega),
        show aLo - bLo + bLo + i = aLo + i by omega]
      simp)
    (fun i hi => by
      have a := fun j => flatMap_getD 2 (fun i => [p10.getD (bLo + bHi + i) false, p11.getD (bHi + i) false])
        (fun _ => rfl) _ i j hi
      rw [hA5] at a
      have k := fun x h => getD_mid (A1 ++ A2 ++ A3 ++ A4) A5 A6 (bLo + 2 * (aLo - bLo) + 3 * (bLo + bHi)) x
        (by simp; omega) h
      simp only [wires]
      rw [Nat.add_assoc _ (2 * i) 1, k _ (by omega), k _ (by omega)]
      rw [a 1 (by omega), show 2 * i = 2 * i + 0 from rfl, a 0 (by omega)]
      simp)
    (fun i hi => by
      have k := getD_mid (A1 ++ A2 ++ A3 ++ A4 ++ A5) A6 [] (bLo + 2 * (aLo - bLo) + 3 * (bLo + bHi) + 2 * (aHi - bHi)) i
        (by simp; omega) (by omega)
      simp only [List.append_nil] at k
      simp only [wires]
      rw [k, ← hA6, show aHi + i = bHi + (aHi - bHi) + i by omega]
      simp [List.getD, hi])
  simp only at R
  obtain ⟨r1, c, r2⟩ := R
  refine ⟨_, _, rfl, ?_, rfl, ?_, ?_⟩
  · simp only [List.length_append, L1, L2, L3, L4, L5, L6]; omega
  · omega
  · rw [← r2, show aLo + aHi + (bLo + bHi) = n + m by omega, Nat.add_mul_mod_self_left]
    symm
    apply Nat.mod_eq_of_lt
    refine Nat.lt_of_lt_of_eq (valLE_lt _) ?_
    rw [List.length_map, r1]; congr 1; omega

/-- When both operands are longer than the cutoff the split hypotheses of `C10_reduction` hold. -/
theorem partition_mono (n m : Nat) (hm : circuitCutoff < m) (h : m ≤ n) :
    (partitionInteger m).1 ≤ (partitionInteger n).1 ∧ (partitionInteger m).2 ≤ (partitionInteger n).2 := by
  unfold partitionInteger
  rw [if_neg (by omega), if_neg (by omega)]
  constructor <;> simp only <;> omega

theorem longer_shorter (a b : List Bool) :
    (longer a b).length + (shorter a b).length = a.length + b.length ∧
    valLE (longer a b) * valLE (shorter a b) = valLE a * valLE b ∧
    (shorter a b).length ≤ (longer a b).length := by
  unfold longer shorter
  split
  · exact ⟨by omega, Nat.mul_comm _ _, by omega⟩
  · exact ⟨rfl, rfl, by omega⟩

theorem foldl_len (f : List BddFn × BddFn → Nat → List BddFn × BddFn)
    (h : ∀ st i, (f st i).1.length = st.1.length + 1) : ∀ (l : List Nat) st, (l.foldl f st).1.length = st.1.length + l.length
  | [], st => by simp
  | i :: l, st => by rw [List.foldl_cons, foldl_len f h l, h]; simp; omega

theorem adder_length (n m : Nat) (cin : Bool) (outs : List BddFn) (h : Arith.rippleCarryAdder n m cin = some outs) :
    outs.length = max n m + 1 := by
  unfold Arith.rippleCarryAdder at h
  split at h
  · exact absurd h (by simp)
  · split at h
    · exact absurd h (by simp)
    · simp only at h
      generalize (if cin = true then 1 else 0) = off at h
      split at h
      · exact absurd h (by simp)
      · simp only [Option.some.injEq] at h
        rw [← h, List.length_append, foldl_len _ (by intro st i; simp [Arith.addTailStep]),
          foldl_len _ (by intro st i; simp [Arith.addStep])]
        simp; omega

theorem applyCircuit_some {c ar ins r} (h : applyCircuit c ar ins = some r) :
    ∃ outs, c = some outs ∧ ar = ins.length ∧ r = outs.map (· (wires ins)) := by
  unfold applyCircuit at h
  split at h
  · exact absurd h (by simp)
  · split at h
    · exact absurd h (by simp)
    · rename_i outs har
      exact ⟨outs, rfl, Classical.not_not.1 har, (Option.some.inj h).symm⟩

theorem partition_big (n : Nat) (h : circuitCutoff < n) : partitionInteger n = ((n + 1) / 2, n / 2) := by
  unfold partitionInteger; rw [if_neg (by omega)]
theorem partition_small (n : Nat) (h : n ≤ circuitCutoff) : partitionInteger n = (n, 0) := by
  unfold partitionInteger; rw [if_pos h]

/-- **C10 (soundness).** For operands of any widths, whenever the recursive multiplier builds its circuit (does not
panic) the result has exactly `n + m` bits and its value is exactly the product. -/
theorem C10_mul_sound (a b r : List Bool) (h : mulImpl a b = some r) :
    r.length = a.length + b.length ∧ valLE r = valLE a * valLE b := by
  generalize hk : a.length + b.length = k
  induction k using Nat.strongRecOn generalizing a b r with
  | _ k ih =>
  obtain ⟨s1, s2, s3⟩ := longer_shorter a b
  rw [mulImpl] at h
  simp only at h
  rw [← s2, ← hk, ← s1]
  rw [← s1] at hk
  generalize longer a b = x at *
  generalize shorter a b = y at *
  clear s1 s2
  split at h
  · -- base case
    rename_i hb
    obtain ⟨outs, h1, h2, rfl⟩ := applyCircuit_some h
    have hx : x.length ≤ circuitCutoff := by
      rcases Nat.lt_or_ge circuitCutoff x.length with hx | hx
      · rw [partition_big _ hx] at hb; simp only [circuitCutoff] at *; omega
      · exact hx
    have hx0 : x.length ≠ 0 ∧ y.length ≠ 0 := by
      constructor <;> intro h0 <;> rw [C09_refusals _ _ (by omega)] at h1 <;> simp at h1
    have hmul : 2 * x.length * y.length ≤ 2 * 16 * 16 := Nat.mul_le_mul (Nat.mul_le_mul_left 2 hx) (by
      simp only [circuitCutoff] at hx; omega)
    obtain ⟨outs', h3, h4, h5⟩ := C09_multiplier x y (by omega) (by omega) (by simp only [maxVars]; omega)
      (by simp only [circuitCutoff] at hx; omega)
    rw [h1] at h3
    obtain rfl : outs = outs' := by simpa using h3
    exact ⟨by simpa using h4, h5⟩
  · split at h
    · -- one long, one short operand: always panics
      rename_i hb0 hb
      split at h
      · exact absurd h (by simp)
      · rename_i hA
        have hA' : circuitCutoff < x.length := by omega
        have hy : y.length ≤ circuitCutoff := by
          rcases Nat.lt_or_ge circuitCutoff y.length with hx | hx
          · rw [partition_big _ hx] at hb; simp only [circuitCutoff] at *; omega
          · exact hx
        rw [partition_big _ hA', partition_small _ hy] at h
        simp only at h
        split at h
        · rename_i p q hp hq
          split at h
          · exact absurd h (by simp)
          · rename_i s hs
            split at h
            · exact absurd h (by simp)
            · rename_i hlen
              exfalso
              obtain ⟨outs, h1, h2, rfl⟩ := applyCircuit_some hs
              have hol := adder_length _ _ _ _ h1
              obtain ⟨pl, _⟩ := ih _ (by
                simp only [List.length_take, circuitCutoff] at *; omega) _ _ _ hp rfl
              apply hlen
              simp only [List.length_take, List.length_map, circuitCutoff] at *
              exfalso; omega
        · exact absurd h (by simp)
    · rename_i hb0 hb
      split at h
      · exact absurd h (by simp)
      · rename_i hA
        have hx : circuitCutoff < x.length := by omega
        have hy : circuitCutoff < y.length := by omega
        obtain ⟨m1, m2⟩ := partition_mono x.length y.length hy s3
        have hxl : (partitionInteger x.length).1 + (partitionInteger x.length).2 = x.length ∧
            (partitionInteger x.length).1 < x.length ∧ (partitionInteger x.length).2 < x.length := by
          rw [partition_big _ hx]; simp only [circuitCutoff] at *; omega
        have hyl : (partitionInteger y.length).1 + (partitionInteger y.length).2 = y.length ∧
            (partitionInteger y.length).1 < y.length ∧ (partitionInteger y.length).2 < y.length := by
          rw [partition_big _ hy]; simp only [circuitCutoff] at *; omega
        split at h
        · rename_i p00 p01 p10 p11 h00 h01 h10 h11
          obtain ⟨l00, v00⟩ := ih _ (by simp only [List.length_take, List.length_drop]; omega) _ _ _ h00 rfl
          obtain ⟨l01, v01⟩ := ih _ (by simp only [List.length_take, List.length_drop]; omega) _ _ _ h01 rfl
          obtain ⟨l10, v10⟩ := ih _ (by simp only [List.length_take, List.length_drop]; omega) _ _ _ h10 rfl
          obtain ⟨l11, v11⟩ := ih _ (by simp only [List.length_take, List.length_drop]; omega) _ _ _ h11 rfl
          simp only [List.length_take, List.length_drop] at l00 l01 l10 l11
          split at h
          · exact absurd h (by simp)
          · rename_i enc henc
            obtain ⟨outs, h1, h2, rfl⟩ := applyCircuit_some h
            have hcap : 2 * (y.length + x.length) < maxVars := by
              by_contra hcon
              unfold gradeschoolReduceImpl at h1
              simp only at h1
              rw [if_neg (by omega), if_pos (by omega)] at h1
              exact absurd h1 (by simp)
            obtain ⟨enc', outs', r1, r2, r3, r4, r5⟩ := C10_reduction x.length y.length s3 hcap m1 m2 p00 p01 p10 p11
              (by omega) (by omega) (by omega) (by omega)
            rw [henc] at r1
            rw [h1] at r3
            obtain rfl : enc = enc' := by simpa using r1
            obtain rfl : outs = outs' := by simpa using r3
            refine ⟨by simp [r4], ?_⟩
            rw [r5, v00, v01, v10, v11]
            have ex := valLE_split x (partitionInteger x.length).1 (by omega)
            have ey := valLE_split y (partitionInteger y.length).1 (by omega)
            have hlt : valLE x * valLE y < 2 ^ (x.length + y.length) := by
              rw [Nat.pow_add]
              exact Nat.mul_lt_mul_of_lt_of_le (valLE_lt x) (Nat.le_of_lt (valLE_lt y)) (Nat.two_pow_pos _)
            rw [← Nat.mod_eq_of_lt hlt]
            congr 1
            rw [Nat.pow_add]
            rw [ex, ey]
            ring
        · exact absurd h (by simp)

theorem longer_shorter_big (a b : List Bool) (h : b.length < a.length) :
    longer a b = a ∧ shorter a b = b ∧ longer b a = a ∧ shorter b a = b := by
  unfold longer shorter
  refine ⟨if_neg (by omega), if_neg (by omega), if_pos h, if_pos h⟩

/-- **C10 violated (unequal widths).** Multiplying an operand of more than 16 bits by one of at most 16 bits always
panics, in either order: the final adder yields one bit more than the `assert_eq!` on the result width allows. -/
theorem C10_unbalanced_violated (a b : List Bool) (h1 : circuitCutoff < a.length) (h2 : b.length ≤ circuitCutoff) :
    mulImpl a b = none ∧ mulImpl b a = none := by
  have key : ∀ x y : List Bool, longer x y = a → shorter x y = b → mulImpl x y = none := by
    intro x y hx hy
    cases h : mulImpl x y with
    | none => rfl
    | some r =>
      exfalso
      rw [mulImpl] at h
      simp only [hx, hy] at h
      rw [partition_big _ h1, partition_small _ h2] at h
      simp only at h
      rw [if_neg (by simp only [circuitCutoff] at *; omega), if_pos trivial, dif_neg (by omega)] at h
      split at h
      · rename_i p q hp hq
        split at h
        · exact absurd h (by simp)
        · rename_i s hs
          split at h
          · exact absurd h (by simp)
          · rename_i hlen
            obtain ⟨outs, h1, h2, rfl⟩ := applyCircuit_some hs
            have hol := adder_length _ _ _ _ h1
            obtain ⟨pl, _⟩ := C10_mul_sound _ _ _ hp
            apply hlen
            simp only [List.length_take, List.length_map, circuitCutoff] at *
            exfalso; omega
      · exact absurd h (by simp)
  obtain ⟨k1, k2, k3, k4⟩ := longer_shorter_big a b (by omega)
  exact ⟨key a b k1 k2, key b a k3 k4⟩

/-- Operands of at most 16 bits multiply in one circuit. -/
theorem mul_base_ok (a b : List Bool) (ha : 1 ≤ a.length) (hb : 1 ≤ b.length) (ha' : a.length ≤ 16)
    (hb' : b.length ≤ 16) : ∃ r, mulImpl a b = some r := by
  rw [mulImpl]
  simp only
  have l1 : 1 ≤ (longer a b).length ∧ (longer a b).length ≤ 16 := by unfold longer; split <;> omega
  have l2 : 1 ≤ (shorter a b).length ∧ (shorter a b).length ≤ 16 := by unfold shorter; split <;> omega
  rw [partition_small _ l1.2, partition_small _ l2.2, if_pos ⟨rfl, rfl⟩]
  have hmul : 2 * (longer a b).length * (shorter a b).length ≤ 2 * 16 * 16 :=
    Nat.mul_le_mul (Nat.mul_le_mul_left 2 l1.2) l2.2
  obtain ⟨outs, h, _, _⟩ := C09_multiplier (longer a b) (shorter a b) (by omega) (by omega)
    (by simp only [maxVars]; omega) (by omega)
  rw [h]
  simp only [applyCircuit]
  rw [if_neg (by simp)]
  exact ⟨_, rfl⟩

/-- One level of splitting succeeds when the four sub-products do. -/
theorem mul_split_ok (a b : List Bool) (ha : circuitCutoff < a.length) (hb : circuitCutoff < b.length)
    (hab : b.length ≤ a.length) (hcap : 2 * (b.length + a.length) < maxVars)
    (h00 : ∃ r, mulImpl (a.take ((a.length + 1) / 2)) (b.take ((b.length + 1) / 2)) = some r)
    (h01 : ∃ r, mulImpl (a.take ((a.length + 1) / 2)) (b.drop ((b.length + 1) / 2)) = some r)
    (h10 : ∃ r, mulImpl (a.drop ((a.length + 1) / 2)) (b.take ((b.length + 1) / 2)) = some r)
    (h11 : ∃ r, mulImpl (a.drop ((a.length + 1) / 2)) (b.drop ((b.length + 1) / 2)) = some r) :
    ∃ r, mulImpl a b = some r := by
  obtain ⟨p00, e00⟩ := h00
  obtain ⟨p01, e01⟩ := h01
  obtain ⟨p10, e10⟩ := h10
  obtain ⟨p11, e11⟩ := h11
  have l00 := (C10_mul_sound _ _ _ e00).1
  have l01 := (C10_mul_sound _ _ _ e01).1
  have l10 := (C10_mul_sound _ _ _ e10).1
  have l11 := (C10_mul_sound _ _ _ e11).1
  have hl : longer a b = a := if_neg (by omega)
  have hs : shorter a b = b := if_neg (by omega)
  obtain ⟨m1, m2⟩ := partition_mono a.length b.length hb hab
  have pa := partition_big _ ha
  have pb := partition_big _ hb
  obtain ⟨enc, outs, r1, r2, r3, _, _⟩ := C10_reduction a.length b.length hab hcap m1 m2 p00 p01 p10 p11
    (by rw [pa, pb]; simp only [List.length_take] at *; omega)
    (by rw [pa, pb]; simp only [List.length_take, List.length_drop] at *; omega)
    (by rw [pa, pb]; simp only [List.length_take, List.length_drop] at *; omega)
    (by rw [pa, pb]; simp only [List.length_drop] at *; omega)
  rw [mulImpl]
  simp only [hl, hs]
  rw [pa, pb]
  simp only
  rw [if_neg (by simp only [circuitCutoff] at *; omega), if_neg (by simp only [circuitCutoff] at *; omega),
    dif_neg (by omega), e00, e01, e10, e11]
  simp only [r1, r3, applyCircuit]
  rw [if_neg (by omega)]
  exact ⟨_, rfl⟩

/-- **C10 (success, equal widths `c·2^j` with `c ≤ 16`; in particular every power of two).** The product circuit is
built, has `2n` bits and is exact. (`4n < 65536` is the variable capacity of the reduction circuit.) -/
theorem C10_mul_exact (c j : Nat) (hc : 1 ≤ c) (hc' : c ≤ 16) (a b : List Bool) (ha : a.length = c * 2 ^ j)
    (hb : b.length = c * 2 ^ j) (hcap : 4 * (c * 2 ^ j) < maxVars) :
    ∃ r, mulImpl a b = some r ∧ r.length = a.length + b.length ∧ valLE r = valLE a * valLE b := by
  have key : ∃ r, mulImpl a b = some r := by
    induction j generalizing a b with
    | zero =>
      simp only [Nat.pow_zero, Nat.mul_one] at ha hb
      exact mul_base_ok a b (by omega) (by omega) (by omega) (by omega)
    | succ j ih =>
      have e : c * 2 ^ (j + 1) = 2 * (c * 2 ^ j) := by rw [Nat.pow_succ]; ring
      rw [e] at ha hb hcap
      have hpos : 1 ≤ c * 2 ^ j := Nat.mul_pos hc (Nat.two_pow_pos j)
      by_cases hsmall : a.length ≤ 16
      · exact mul_base_ok a b (by omega) (by omega) hsmall (by omega)
      · have h2 : (a.length + 1) / 2 = c * 2 ^ j := by omega
        have h3 : (b.length + 1) / 2 = c * 2 ^ j := by omega
        apply mul_split_ok a b (by simp only [circuitCutoff]; omega) (by simp only [circuitCutoff]; omega) (by omega)
          (by omega)
        all_goals
          rw [h2, h3]
          apply ih
          · simp only [List.length_take, List.length_drop]; omega
          · simp only [List.length_take, List.length_drop]; omega
          · omega
  obtain ⟨r, hr⟩ := key
  exact ⟨r, hr, C10_mul_sound a b r hr⟩

/-- **C10 (success, both widths between 17 and 32, or both between 1 and 16).** -/
theorem C10_mul_exact_small (a b : List Bool)
    (h : (1 ≤ a.length ∧ a.length ≤ 16 ∧ 1 ≤ b.length ∧ b.length ≤ 16) ∨
      (17 ≤ a.length ∧ a.length ≤ 32 ∧ 17 ≤ b.length ∧ b.length ≤ 32 ∧ b.length ≤ a.length)) :
    ∃ r, mulImpl a b = some r ∧ r.length = a.length + b.length ∧ valLE r = valLE a * valLE b := by
  have key : ∃ r, mulImpl a b = some r := by
    rcases h with ⟨h1, h2, h3, h4⟩ | ⟨h1, h2, h3, h4, h5⟩
    · exact mul_base_ok a b h1 h3 h2 h4
    · apply mul_split_ok a b (by simp only [circuitCutoff]; omega) (by simp only [circuitCutoff]; omega) (by omega)
        (by simp only [maxVars]; omega)
      all_goals
        apply mul_base_ok <;> simp only [List.length_take, List.length_drop] <;> omega
  obtain ⟨r, hr⟩ := key
  exact ⟨r, hr, C10_mul_sound a b r hr⟩

/-- **C10 violated (33 × 33 bits).** Equal widths can panic too: 33 splits into 17 + 16. -/
theorem C10_33_violated (a b : List Bool) (ha : a.length = 33) (hb : b.length = 33) : mulImpl a b = none := by
  rw [mulImpl]
  have hl : longer a b = a := if_neg (by omega)
  have hs : shorter a b = b := if_neg (by omega)
  simp only [hl, hs, ha, hb]
  rw [partition_big 33 (by decide)]
  simp only
  rw [if_neg (by omega), if_neg (by omega), dif_neg (by decide)]
  have := (C10_unbalanced_violated (a.take ((33 + 1) / 2)) (b.drop ((33 + 1) / 2))
    (by simp [circuitCutoff, ha]) (by simp [circuitCutoff, hb])).1
  rw [this]
  split
  · rename_i h01 _ _; exact absurd h01 (by simp)
  · rfl

/-! ### signed -/

theorem getLastD_getLast? (a : List Bool) (s : Bool) (h : a.getLast? = some s) : a.getLastD false = s := by
  rw [List.getLastD_eq_getLast?, h]; rfl

theorem valLE_top (a : List Bool) (ha : 0 < a.length) :
    (a.getLastD false = true → 2 ^ a.length ≤ 2 * valLE a) ∧ (a.getLastD false = false → 2 * valLE a < 2 ^ a.length) := by
  obtain ⟨l, x, rfl⟩ : ∃ l x, a = l ++ [x] := ⟨a.dropLast, a.getLast (by intro h; simp [h] at ha),
    (List.dropLast_append_getLast _).symm⟩
  have := valLE_lt l
  rw [valLE_snoc]
  simp only [List.length_append, List.length_cons, List.length_nil, Nat.zero_add, Nat.pow_succ]
  constructor <;> intro h <;> simp at h <;> subst h <;> simp <;> omega

theorem negBits_spec (a : List Bool) (ha : 0 < a.length) (hv : a.length < maxVars) :
    ∃ r, negBits a = some r ∧ r.length = a.length ∧ valLE r = (2 ^ a.length - valLE a) % 2 ^ a.length := by
  obtain ⟨outs, h1, h2, h3⟩ := C03_negator a ha hv
  refine ⟨outs.map (· (wires a)), ?_, by simpa using h2, h3⟩
  unfold negBits applyCircuit
  rw [h1]; simp only; rw [if_neg (by simp)]; rfl

theorem zipWith_sel (s : Bool) (f t : List Bool) (h : f.length = t.length) :
    List.zipWith (fun f t => bif s then t else f) f t = if s then t else f := by
  cases s
  · simp only [cond_false, Bool.false_eq_true, if_false]
    apply List.ext_getElem <;> simp [h]
  · simp only [cond_true, if_true]
    apply List.ext_getElem <;> simp [h]

theorem absBits_spec (a : List Bool) (ha : 0 < a.length) (hv : a.length < maxVars) :
    ∃ r, absBits a = some r ∧ r.length = a.length ∧ (valLE r : Int) = |valSigned a| := by
  obtain ⟨na, h1, h2, h3⟩ := negBits_spec a ha hv
  obtain ⟨s, hs⟩ : ∃ s, a.getLast? = some s := by
    cases a with
    | nil => simp at ha
    | cons x l => exact ⟨_, List.getLast?_eq_some_getLast (by simp)⟩
  have hsD := getLastD_getLast? a s hs
  have ht := valLE_top a ha
  have hlt := valLE_lt a
  have hcast : ((2 ^ a.length : Nat) : Int) = (2 : Int) ^ a.length := by push_cast; rfl
  unfold absBits
  rw [h1, hs]
  simp only
  rw [zipWith_sel s a na h2.symm]
  refine ⟨_, rfl, by split <;> omega, ?_⟩
  unfold valSigned
  rw [hsD] at ht ⊢
  rw [← hcast]
  cases s
  · simp
  · have := ht.1 rfl
    have hpos := Nat.two_pow_pos a.length
    simp only [if_true]
    rw [h3, Nat.mod_eq_of_lt (by omega), abs_of_nonpos (by omega)]
    omega

/-- **C10 (signed product).** Whenever the signed multiplier builds its circuit, low and high words together are the
exact two's complement product. -/
theorem C10_signed_sound (a b lo hi : List Bool) (hv : a.length + b.length < maxVars)
    (h : appendIntMultiply a b = some (lo, hi)) :
    lo.length = a.length ∧ hi.length = b.length ∧ valSigned (lo ++ hi) = valSigned a * valSigned b := by
  unfold appendIntMultiply at h
  split at h
  · rename_i absA absB s1 s2 hA hB hs1 hs2
    have ha : 0 < a.length := by cases a with | nil => simp at hs1 | cons => simp
    have hb : 0 < b.length := by cases b with | nil => simp at hs2 | cons => simp
    obtain ⟨ra, e1, e2, e3⟩ := absBits_spec a ha (by omega)
    obtain ⟨rb, f1, f2, f3⟩ := absBits_spec b hb (by omega)
    rw [hA] at e1; rw [hB] at f1
    obtain rfl : absA = ra := by simpa using e1
    obtain rfl : absB = rb := by simpa using f1
    split at h
    · exact absurd h (by simp)
    · rename_i pos hpos
      obtain ⟨pl, pv⟩ := C10_mul_sound _ _ _ hpos
      obtain ⟨neg, n1, n2, n3⟩ := negBits_spec pos (by omega) (by omega)
      rw [n1] at h
      simp only [Option.some.injEq, Prod.mk.injEq] at h
      obtain ⟨rfl, rfl⟩ := h
      have hz : List.zipWith (fun pos neg => bif s2 then bif s1 then pos else neg else bif s1 then neg else pos) pos neg
          = if xor s1 s2 then neg else pos := by
        cases s1 <;> cases s2 <;> simp <;> apply List.ext_getElem <;> simp [n2]
      rw [hz]
      have hl : (if xor s1 s2 then neg else pos).length = a.length + b.length := by split <;> omega
      refine ⟨by rw [List.length_take, hl]; omega, by rw [List.length_drop, hl]; omega, ?_⟩
      rw [List.take_append_drop]
      -- magnitudes
      have h1D := getLastD_getLast? a s1 hs1
      have h2D := getLastD_getLast? b s2 hs2
      have tA := valLE_top a ha
      have tB := valLE_top b hb
      have ltA := valLE_lt a
      have ltB := valLE_lt b
      have sA : valSigned a = if s1 then -(valLE absA : Int) else valLE absA := by
        rw [e3]; unfold valSigned; rw [h1D] at tA ⊢
        have hcast : ((2 ^ a.length : Nat) : Int) = (2 : Int) ^ a.length := by push_cast; rfl
        rw [← hcast]
        cases s1
        · simp
        · simp only [if_true]; rw [abs_of_nonpos (by omega)]; omega
      have sB : valSigned b = if s2 then -(valLE absB : Int) else valLE absB := by
        rw [f3]; unfold valSigned; rw [h2D] at tB ⊢
        have hcast : ((2 ^ b.length : Nat) : Int) = (2 : Int) ^ b.length := by push_cast; rfl
        rw [← hcast]
        cases s2
        · simp
        · simp only [if_true]; rw [abs_of_nonpos (by omega)]; omega
      -- bounds on the magnitudes
      have bA : 2 * valLE absA ≤ 2 ^ a.length ∧ (s1 = false → 2 * valLE absA < 2 ^ a.length) ∧ (s1 = true → 0 < valLE absA) := by
        have hcast : ((2 ^ a.length : Nat) : Int) = (2 : Int) ^ a.length := by push_cast; rfl
        have q := sA
        unfold valSigned at q
        rw [h1D, ← hcast] at q
        rw [h1D] at tA
        cases s1 <;> simp at q tA ⊢ <;> omega
      have bB : 2 * valLE absB ≤ 2 ^ b.length ∧ (s2 = false → 2 * valLE absB < 2 ^ b.length) ∧ (s2 = true → 0 < valLE absB) := by
        have hcast : ((2 ^ b.length : Nat) : Int) = (2 : Int) ^ b.length := by push_cast; rfl
        have q := sB
        unfold valSigned at q
        rw [h2D, ← hcast] at q
        rw [h2D] at tB
        cases s2 <;> simp at q tB ⊢ <;> omega
      have hP : 4 * valLE pos ≤ 2 ^ pos.length := by
        rw [pv, pl, e2, f2, Nat.pow_add]
        have := Nat.mul_le_mul bA.1 bB.1
        calc 4 * (valLE absA * valLE absB) = 2 * valLE absA * (2 * valLE absB) := by ring
          _ ≤ _ := this
      have key : valSigned (if xor s1 s2 then neg else pos) = if xor s1 s2 then -(valLE pos : Int) else valLE pos := by
        have hposlen : 0 < pos.length := by omega
        have hcast : ((2 ^ pos.length : Nat) : Int) = (2 : Int) ^ pos.length := by push_cast; rfl
        have hpp := Nat.two_pow_pos pos.length
        cases hx : xor s1 s2
        · simp only [Bool.false_eq_true, if_false]
          have tp := valLE_top pos hposlen
          unfold valSigned
          cases hq : pos.getLastD false
          · simp
          · have := tp.1 hq; omega
        · simp only [if_true]
          have tn := valLE_top neg (by omega)
          have hltn := valLE_lt neg
          unfold valSigned
          rw [n2, ← hcast]
          rw [n2] at tn hltn
          by_cases h0 : valLE pos = 0
          · have : valLE neg = 0 := by rw [n3, h0]; simp
            cases hq : neg.getLastD false
            · simp [this, h0]
            · have := tn.1 hq; omega
          · rw [Nat.mod_eq_of_lt (by omega)] at n3
            cases hq : neg.getLastD false
            · have := tn.2 hq; omega
            · simp only [if_true]; omega
      rw [key, sA, sB, pv]
      cases s1 <;> cases s2 <;> simp
  · exact absurd h (by simp)

-- non-vacuity
example : ∃ r, mulImpl (List.replicate 64 true) (List.replicate 64 true) = some r ∧ r.length = 128 ∧
    valLE r = valLE (List.replicate 64 true) * valLE (List.replicate 64 true) := by
  obtain ⟨r, h1, h2, h3⟩ := C10_mul_exact 16 2 (by decide) (by decide) (List.replicate 64 true) (List.replicate 64 true)
    (by simp) (by simp) (by decide)
  exact ⟨r, h1, by simpa using h2, h3⟩

example : mulImpl (List.replicate 17 true) [true] = none :=
  (C10_unbalanced_violated (List.replicate 17 true) [true] (by decide) (by decide)).1

end Spf.Props
