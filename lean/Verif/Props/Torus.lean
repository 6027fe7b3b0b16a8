import Verif.Proof.Torus
import Verif.Spec.Torus
/-!
C44 torus encoding, C45 radix decomposition, C54 modulus switching.  A torus element of a `W`-bit machine type is a
`BitVec W`, the noise is an integer added modulo `2^W`.
-/
namespace Spf.Props
open Spf.Spec Spf.Tfhe

/-- **C44.** A `p`-bit message, encoded and disturbed by any noise in `[-2^(W-p-1), 2^(W-p-1))` (half an encoding step),
decodes to itself, for every precision `0 < p < 32`.  Missing from the full claim: precisions 32..63 of the 64-bit
torus (and the degenerate precision 0), where the code panics, see the `_violated` theorems. -/
theorem C44_decode_encode_partial (W p : Nat) (hp0 : 0 < p) (hp : p < W) (hp32 : p < 32) (m : Nat) (hm : m < 2 ^ p) (e : Int)
    (he : -(2 ^ (W - p - 1) : Int) ≤ e) (he' : e < 2 ^ (W - p - 1)) :
    ∃ c, encode (BitVec.ofNat W m) p = some c ∧ decode (c + BitVec.ofInt W e) p = some (BitVec.ofNat W m) := by
  obtain ⟨y, hy, hv⟩ := decode_val hp hp32 hp0 (wrapShl (BitVec.ofNat W m) (W - p) + BitVec.ofInt W e)
  refine ⟨_, by rw [encode, if_pos hp], ?_⟩
  rw [hy]
  congr 1
  apply BitVec.eq_of_toNat_eq
  have hmW : m < 2 ^ W := lt_of_lt_of_le hm (Nat.pow_le_pow_right (by decide) (by omega))
  rw [hv, BitVec.toNat_ofNat, Nat.mod_eq_of_lt hmW]
  have hpw : 2 ^ (W - p) = 2 * 2 ^ (W - p - 1) := by rw [← Nat.pow_succ']; congr 1; omega
  have hc : (wrapShl (BitVec.ofNat W m) (W - p)).toNat = m * 2 ^ (W - p) := by
    rw [wrapShl, Nat.mod_eq_of_lt (by omega), BitVec.toNat_shiftLeft, Nat.shiftLeft_eq, BitVec.toNat_ofNat,
      Nat.mod_eq_of_lt hmW, Nat.mod_eq_of_lt]
    calc m * 2 ^ (W - p) < 2 ^ p * 2 ^ (W - p) := Nat.mul_lt_mul_of_pos_right hm (Nat.two_pow_pos _)
      _ = 2 ^ W := by rw [← Nat.pow_add]; congr 1; omega
  have hX := toNat_add_ofInt (wrapShl (BitVec.ofNat W m) (W - p)) e
  rw [hc] at hX
  have h2W : 2 ^ W = 2 ^ p * (2 * 2 ^ (W - p - 1)) := by rw [← hpw, ← Nat.pow_add]; congr 1; omega
  rw [hpw]
  apply round_core (2 ^ (W - p - 1)) m (2 ^ p) _ e (Nat.two_pow_pos _) hm (by exact_mod_cast he) (by exact_mod_cast he')
  rw [hX, hpw, h2W]
  push_cast
  rfl

/-- a concrete case: 4-bit message 11 on the 64-bit torus, the largest negative noise -/
example : (0:Nat) < 4 ∧ 4 < 64 ∧ 4 < 32 ∧ 11 < 2 ^ 4 ∧ -(2 ^ (64 - 4 - 1) : Int) ≤ -(2 ^ 59) ∧ (-(2 ^ 59) : Int) < 2 ^ (64 - 4 - 1) := by
  decide

/-- The noise bound is tight: noise of exactly half a step decodes to the next message. -/
theorem C44_bound_tight (W p : Nat) (hp0 : 0 < p) (hp : p < W) (hp32 : p < 32) (m : Nat) (hm : m < 2 ^ p) :
    ∃ c, encode (BitVec.ofNat W m) p = some c ∧
      decode (c + BitVec.ofInt W (2 ^ (W - p - 1))) p = some (BitVec.ofNat W ((m + 1) % 2 ^ p)) := by
  have hlt : (m + 1) % 2 ^ p < 2 ^ p := Nat.mod_lt _ (Nat.two_pow_pos _)
  obtain ⟨c, h1, h2⟩ := C44_decode_encode_partial W p hp0 hp hp32 ((m + 1) % 2 ^ p) hlt (-(2 ^ (W - p - 1))) (le_refl _)
    (by have : (0:Int) < 2 ^ (W - p - 1) := by positivity
        linarith)
  refine ⟨_, by rw [encode, if_pos hp], ?_⟩
  rw [encode, if_pos hp] at h1
  rw [← h2, ← Option.some.inj h1]
  congr 1
  have key : ∀ v : Nat, wrapShl (BitVec.ofNat W v) (W - p) = BitVec.ofNat W v * BitVec.ofNat W (2 ^ (W - p)) := by
    intro v; rw [wrapShl, Nat.mod_eq_of_lt (show W - p < W by omega), shl_eq_mul]
  rw [key, key]
  have hdm := Nat.div_add_mod (m + 1) (2 ^ p)
  have hz : BitVec.ofNat W (2 ^ p) * BitVec.ofNat W (2 ^ (W - p)) = 0 := by
    rw [← BitVec.ofNat_mul, ← Nat.pow_add, show p + (W - p) = W by omega]
    apply BitVec.eq_of_toNat_eq; simp [BitVec.toNat_ofNat]
  have h3 : BitVec.ofNat W m + 1 = BitVec.ofNat W (2 ^ p) * BitVec.ofNat W ((m + 1) / 2 ^ p) + BitVec.ofNat W ((m + 1) % 2 ^ p) := by
    rw [← BitVec.ofNat_mul, ← BitVec.ofNat_add, hdm, BitVec.ofNat_add]; rfl
  have h4 : BitVec.ofNat W (2 ^ (W - p)) = BitVec.ofInt W (2 ^ (W - p - 1)) + BitVec.ofInt W (2 ^ (W - p - 1)) := by
    rw [← two_pow_bv, ← BitVec.ofNat_add]; congr 1; rw [← Nat.two_mul, ← Nat.pow_succ']; congr 1; omega
  have h5 : BitVec.ofInt W (-(2 ^ (W - p - 1))) = - BitVec.ofInt W (2 ^ (W - p - 1)) := by
    rw [show (-(2 ^ (W - p - 1)) : Int) = 0 - 2 ^ (W - p - 1) by ring, ofInt_sub']; simp
  rw [h5]
  have h6 : BitVec.ofNat W ((m + 1) % 2 ^ p) = BitVec.ofNat W m + 1 - BitVec.ofNat W (2 ^ p) * BitVec.ofNat W ((m + 1) / 2 ^ p) := by
    rw [h3]; ring
  rw [h6]
  have h7 : (BitVec.ofNat W m + 1 - BitVec.ofNat W (2 ^ p) * BitVec.ofNat W ((m + 1) / 2 ^ p)) * BitVec.ofNat W (2 ^ (W - p)) =
      BitVec.ofNat W m * BitVec.ofNat W (2 ^ (W - p)) + BitVec.ofNat W (2 ^ (W - p))
      - BitVec.ofNat W (2 ^ p) * BitVec.ofNat W (2 ^ (W - p)) * BitVec.ofNat W ((m + 1) / 2 ^ p) := by ring
  rw [h7, hz, h4]
  ring

/-- **C44, violation.** On the 64-bit torus every precision of 32 bits or more is accepted by the assertion
`plain_bits < 64`, but decoding any element panics. -/
theorem C44_wide_violated (p : Nat) (hp : 32 ≤ p) (h64 : p < 64) (x : BitVec 64) :
    (encode x p).isSome ∧ decode x p = none := by
  constructor
  · simp [encode, h64]
  · simp only [decode, if_pos h64, mask32, if_neg (show ¬ p < 32 by omega)]

/-- **C44, violation**, overflow checks disabled: a 33-bit message is silently truncated to its lowest bit. -/
theorem C44_wide_release_violated : ∃ c : BitVec 64, encode 0x1_2345_6789#64 33 = some c ∧ decodeRelease c 33 = some 1#64 :=
  ⟨_, rfl, by decide⟩

/-- **C44, violation**: precision 0 with noise -1 panics on overflow. -/
theorem C44_zero_bits_violated : encode 0#64 0 = some 0#64 ∧ decode (0#64 + BitVec.ofInt 64 (-1)) 0 = none := by decide

/-! ### C45 -/

private theorem digitSum_eq {W : Nat} (l : Nat) : ∀ ds : List (BitVec W), digitSum l ds = digitValue l (ds.map BitVec.toInt)
  | [] => rfl
  | d :: ds => by simp [digitSum, digitValue, digitSum_eq l ds]

/-- **C45.** For every element and every decomposition with at least one unused low bit: there are exactly `count` digits,
each in `[-B/2, B/2)` with `B = 2^log`; the integer they write, scaled by `2^shift` (`shift` = unused low bits), is
congruent modulo `2^W` to the element rounded by at most half of `2^shift`. -/
theorem C45_digits_partial (W : Nat) (r : Radix) (hl : 0 < r.log) (hc : 0 < r.count) (hlt : r.log * r.count < W) (x : BitVec W) :
    ∃ ds, radixDigits x r = some ds ∧ ds.length = r.count ∧
      (∀ d ∈ ds, -(2 ^ (r.log - 1) : Int) ≤ d.toInt ∧ d.toInt < 2 ^ (r.log - 1)) ∧
      ∃ err : Int, -(2 ^ (W - r.log * r.count - 1) : Int) ≤ err ∧ err < 2 ^ (W - r.log * r.count - 1) ∧
        ((2:Int) ^ W) ∣ (x.toNat : Int) - err - 2 ^ (W - r.log * r.count) * digitValue r.log (ds.map BitVec.toInt) := by
  obtain ⟨y, hy, hv⟩ := radixRound_val (r := r) (Nat.mul_pos hl hc) hlt x
  have hlW : r.log < W := lt_of_le_of_lt (Nat.le_mul_of_pos_right _ hc) hlt
  obtain ⟨h1, h2, t, ht⟩ := digitsFrom_spec hl hlW r.count y
  refine ⟨_, by rw [radixDigits, hy]; rfl, h1, h2, ?_⟩
  obtain ⟨err, he, hb1, hb2⟩ := round_err x.toNat (W - r.log * r.count - 1)
  rw [show W - r.log * r.count - 1 + 1 = W - r.log * r.count by omega, ← hv, ht] at he
  refine ⟨err, hb1, hb2, t, ?_⟩
  rw [he, ← digitSum_eq, show (2:Int) ^ W = 2 ^ (W - r.log * r.count) * 2 ^ (r.log * r.count) by rw [← pow_add]; congr 1; omega]
  ring

/-- a concrete case -/
example : let r : Radix := ⟨4, 3⟩
    0 < r.log ∧ 0 < r.count ∧ r.log * r.count < 64 ∧ radixDigits 0xfedcba9876543210#64 r = some [-2#64, -1#64, 0#64] := by
  decide

/-- **C45, recomposition.** Recomposing the digits of `x` on top of `dst` adds `x` up to the rounding error. -/
theorem C45_recompose_partial (W : Nat) (r : Radix) (hl : 0 < r.log) (hc : 0 < r.count) (hlt : r.log * r.count < W)
    (x dst : BitVec W) :
    ∃ ds, radixDigits x r = some ds ∧ ∃ err : Int, -(2 ^ (W - r.log * r.count - 1) : Int) ≤ err ∧
      err < 2 ^ (W - r.log * r.count - 1) ∧ recomposeAndAdd dst ds r = dst + x - BitVec.ofInt W err := by
  obtain ⟨ds, h1, _, _, err, hb1, hb2, k, hk⟩ := C45_digits_partial W r hl hc hlt x
  refine ⟨ds, h1, err, hb1, hb2, ?_⟩
  rw [recomposeAndAdd, recomposeFrom_eq, digitSum_eq, two_pow_bv, ← BitVec.ofInt_mul]
  have : (2:Int) ^ (W - r.log * r.count) * digitValue r.log (ds.map BitVec.toInt) = x.toNat - err - 2 ^ W * k := by linarith
  rw [this, ofInt_sub', ofInt_sub', BitVec.ofInt_mul, ← two_pow_bv, BitVec.ofInt_natCast, BitVec.ofNat_toNat, BitVec.setWidth_eq,
    show BitVec.ofNat W (2 ^ W) = 0 by apply BitVec.eq_of_toNat_eq; simp [BitVec.toNat_ofNat]]
  ring

/-- **C45, violation**: `RadixDecomposition::assert_valid` accepts decompositions that use all the bits, but decomposing
any element with one panics. -/
theorem C45_full_width_violated (W : Nat) (r : Radix) (hl : 0 < r.log) (hc : 0 < r.count) (hW : r.log * r.count = W) (x : BitVec W) :
    r.valid W = true ∧ radixDigits x r = none ∧ ∀ p, polyDigits (W := W) p r = none := by
  refine ⟨?_, ?_, ?_⟩
  · simp [Radix.valid, hl, hc, ← hW, Nat.mul_comm]
  · simp only [radixDigits, radixRound, hW, Nat.sub_self]; simp
  · intro p; simp [polyDigits, hW]

/-- a concrete case -/
example : let r : Radix := ⟨8, 4⟩
    0 < r.log ∧ 0 < r.count ∧ r.log * r.count = 32 := by decide

private theorem polyGo_getElem {W : Nat} (l : Nat) : ∀ (k : Nat) (cur : List (BitVec W)),
    (polyDigits.go l k cur).length = k ∧
    ∀ i (c : BitVec W), cur[i]? = some c → (polyDigits.go l k cur).map (fun p => p.getD i 0) = digitsFrom l k c
  | 0, cur => by simp [polyDigits.go, digitsFrom]
  | k + 1, cur => by
    obtain ⟨h1, h2⟩ := polyGo_getElem l k (cur.map fun c => (nextDigit c l).2)
    refine ⟨by simp [polyDigits.go, h1], ?_⟩
    intro i c hi
    simp only [polyDigits.go, List.map_cons, digitsFrom]
    rw [h2 i (nextDigit c l).2 (by simp [hi])]
    simp [List.getD, hi]

/-- **C45, polynomials.** The polynomial iterator produces, for each coefficient, exactly the digits of that
coefficient. -/
theorem C45_poly_digits (W : Nat) (r : Radix) (hl : 0 < r.log) (hc : 0 < r.count) (hlt : r.log * r.count < W)
    (p : List (BitVec W)) :
    ∃ dp, polyDigits p r = some dp ∧ dp.length = r.count ∧
      ∀ (i : Nat) (x : BitVec W), p[i]? = some x → radixDigits x r = some (dp.map fun q => q.getD i 0) := by
  have hpos : 0 < r.log * r.count := Nat.mul_pos hl hc
  have hall : ∀ x : BitVec W, radixRound x r = some ((radixRound x r).getD 0) := by
    intro x; obtain ⟨y, hy, _⟩ := radixRound_val (r := r) hpos hlt x; simp [hy]
  have hm : ∀ l : List (BitVec W), l.mapM (fun x => radixRound x r) = some (l.map fun x => (radixRound x r).getD 0) := by
    intro l
    induction l with
    | nil => rfl
    | cons a l ih => rw [List.mapM_cons, ih]; rw [hall a]; rfl
  refine ⟨_, by rw [polyDigits, if_pos ⟨hlt, hpos.ne'⟩, hm], (polyGo_getElem _ _ _).1, ?_⟩
  intro i x hi
  rw [(polyGo_getElem r.log r.count _).2 i ((radixRound x r).getD 0) (by simp [hi]), radixDigits, hall x]
  rfl

/-- a concrete case -/
example : (polyDigits [0xfedcba98#32, 0x01234567#32] ⟨4, 2⟩).map (·.map (·.map BitVec.toInt)) = some [[-1, 1], [0, 0]] := by decide

/-! ### C54 -/

/-- **C54.** After dropping the `logChi` top bits, the element is `y * 2^shift + err` with `err` at most half of
`2^shift` (`shift = W - (logMod - logV)`), and the result is `y`, reduced modulo the target modulus, scaled by
`2^logV`: the element is rounded to the nearest multiple. -/
theorem C54_rounds (W : Nat) (x : BitVec W) (chi v k : Nat) (hk : k < W) (hchi : chi < W) (hv : v < k) :
    ∃ z y : Nat, ∃ err : Int, (modulusSwitch x chi v k).map BitVec.toNat = some z ∧
      (((x.toNat * 2 ^ chi) % 2 ^ W : Nat) : Int) = y * 2 ^ (W - (k - v)) + err ∧
      -(2 ^ (W - (k - v) - 1) : Int) ≤ err ∧ err < 2 ^ (W - (k - v) - 1) ∧
      z % 2 ^ k = (y * 2 ^ v) % 2 ^ k ∧ z ≤ 2 ^ k := by
  have hx : (x <<< chi).toNat = (x.toNat * 2 ^ chi) % 2 ^ W := by rw [BitVec.toNat_shiftLeft, Nat.shiftLeft_eq]
  generalize hX : x <<< chi = X at hx
  obtain ⟨err, he, hb1, hb2⟩ := round_err X.toNat (W - (k - v) - 1)
  rw [show W - (k - v) - 1 + 1 = W - (k - v) by omega] at he
  have hmask : BitVec.ofNat W (2 ^ k) - 1#W = BitVec.ofNat W (2 ^ k - 1) := by
    have : BitVec.ofNat W (2 ^ k) = BitVec.ofNat W (2 ^ k - 1) + 1#W := by
      rw [← BitVec.ofNat_add]; congr 1; have := Nat.two_pow_pos k; omega
    rw [this]; ring
  have hq : X.toNat / 2 ^ (W - (k - v)) < 2 ^ (k - v) := by
    rw [Nat.div_lt_iff_lt_mul (Nat.two_pow_pos _), ← Nat.pow_add, show k - v + (W - (k - v)) = W by omega]; exact X.isLt
  have hb := Nat.mod_lt (X.toNat / 2 ^ (W - (k - v) - 1)) (show 2 > 0 by decide)
  have hkv : 2 ^ (k - v) ≤ 2 ^ k := Nat.pow_le_pow_right (by decide) (by omega)
  have hk2 : 2 ^ (k + 1) ≤ 2 ^ W := Nat.pow_le_pow_right (by decide) (by omega)
  have hsum : (X >>> (W - (k - v)) + (X >>> (W - (k - v) - 1) &&& 1#W)).toNat =
      X.toNat / 2 ^ (W - (k - v)) + X.toNat / 2 ^ (W - (k - v) - 1) % 2 := by
    rw [BitVec.toNat_add, and_one_toNat _ (by omega), shr_toNat, shr_toNat, Nat.mod_eq_of_lt]
    have := Nat.two_pow_pos k
    omega
  generalize hy : X.toNat / 2 ^ (W - (k - v)) + X.toNat / 2 ^ (W - (k - v) - 1) % 2 = y at he hsum
  have hyle : y ≤ 2 ^ (k - v) := by omega
  have hpow : 2 ^ (k - v) * 2 ^ v = 2 ^ k := by rw [← Nat.pow_add]; congr 1; omega
  have hle : (y % 2 ^ k) * 2 ^ v ≤ 2 ^ k := by
    calc (y % 2 ^ k) * 2 ^ v ≤ y * 2 ^ v := Nat.mul_le_mul_right _ (Nat.mod_le _ _)
      _ ≤ 2 ^ (k - v) * 2 ^ v := Nat.mul_le_mul_right _ hyle
      _ = 2 ^ k := hpow
  refine ⟨(y % 2 ^ k) * 2 ^ v, y, err, ?_, ?_, hb1, hb2, ?_, hle⟩
  · simp only [modulusSwitch, hX]
    rw [if_pos ⟨hk, hchi, by omega, by omega, by omega⟩]
    simp only [Option.map_some, Option.some.injEq]
    rw [BitVec.toNat_shiftLeft, Nat.shiftLeft_eq, hmask, and_mask_toNat _ (by omega), hsum, Nat.mod_eq_of_lt]
    have := Nat.two_pow_pos k
    omega
  · rw [← hx]; exact he
  · rw [Nat.mod_mul_mod]

/-- **C54, range.** Without output packing (`logV = 0`) the result is a valid element of the new modulus. -/
theorem C54_range (W : Nat) (x : BitVec W) (chi k : Nat) (hk : k < W) (hk0 : 0 < k) (hchi : chi < W) :
    ∃ z : BitVec W, modulusSwitch x chi 0 k = some z ∧ z.toNat < 2 ^ k := by
  refine ⟨_, by simp only [modulusSwitch]; rw [if_pos ⟨hk, hchi, by omega, by omega, by omega⟩], ?_⟩
  have hmask : BitVec.ofNat W (2 ^ k) - 1#W = BitVec.ofNat W (2 ^ k - 1) := by
    have : BitVec.ofNat W (2 ^ k) = BitVec.ofNat W (2 ^ k - 1) + 1#W := by
      rw [← BitVec.ofNat_add]; congr 1; have := Nat.two_pow_pos k; omega
    rw [this]; ring
  rw [BitVec.shiftLeft_zero, hmask, and_mask_toNat _ (by omega)]
  exact Nat.mod_lt _ (Nat.two_pow_pos _)

/-- a concrete case -/
example : (modulusSwitch 0xDEADBEEFBEEFDEAD#64 2 1 11).map BitVec.toNat = some ((0b0111101010 + 1) * 2) := by decide

/-- **C54, violation**: with output packing (`logV > 0`) rounding up at the top is masked before, not after, the scaling,
and the result is `2^k`, not a valid element of the new modulus. -/
theorem C54_range_violated (W v k : Nat) (hv : 0 < v) (hvk : v < k) (hk : k < W) :
    (modulusSwitch (BitVec.allOnes W) 0 v k).map BitVec.toNat = some (2 ^ k) := by
  obtain ⟨z, y, err, h1, h2, h3, h4, h5, h6⟩ := C54_rounds W (BitVec.allOnes W) 0 v k hk (by omega) hvk
  simp only [modulusSwitch]
  rw [if_pos ⟨hk, by omega, by omega, by omega, by omega⟩]
  simp only [Option.map_some, Option.some.injEq, BitVec.shiftLeft_zero]
  have hmask : BitVec.ofNat W (2 ^ k) - 1#W = BitVec.ofNat W (2 ^ k - 1) := by
    have : BitVec.ofNat W (2 ^ k) = BitVec.ofNat W (2 ^ k - 1) + 1#W := by
      rw [← BitVec.ofNat_add]; congr 1; have := Nat.two_pow_pos k; omega
    rw [this]; ring
  have hdiv : ∀ s, s ≤ W → (2 ^ W - 1) / 2 ^ s = 2 ^ (W - s) - 1 := by
    intro s hs
    have h1 : 2 ^ W = 2 ^ s * 2 ^ (W - s) := by rw [← Nat.pow_add]; congr 1; omega
    have h2 := Nat.two_pow_pos s
    have h3 := Nat.two_pow_pos (W - s)
    apply Nat.div_eq_of_lt_le
    · rw [h1, Nat.sub_mul, Nat.one_mul, Nat.mul_comm]; omega
    · have h4 : 2 ^ (W - s) - 1 + 1 = 2 ^ (W - s) := by omega
      rw [h1, h4, Nat.mul_comm]
      have := Nat.mul_pos h3 h2
      omega
  have hlt : 2 ^ (k - v) < 2 ^ k := Nat.pow_lt_pow_right (by decide) (by omega)
  have hlt2 : 2 ^ k < 2 ^ W := Nat.pow_lt_pow_right (by decide) (by omega)
  have hpp := Nat.two_pow_pos (k - v)
  have hodd : (2 ^ (k - v + 1) - 1) % 2 = 1 := by rw [Nat.pow_succ]; omega
  rw [BitVec.toNat_shiftLeft, Nat.shiftLeft_eq, hmask, and_mask_toNat _ (by omega), BitVec.toNat_add, and_one_toNat _ (by omega),
    shr_toNat, shr_toNat, BitVec.toNat_allOnes, hdiv _ (by omega), hdiv _ (by omega),
    show W - (W - (k - v)) = k - v by omega, show W - (W - (k - v) - 1) = k - v + 1 by omega, hodd,
    show 2 ^ (k - v) - 1 + 1 = 2 ^ (k - v) by omega, Nat.mod_eq_of_lt (show 2 ^ (k - v) < 2 ^ W by omega), Nat.mod_eq_of_lt hlt,
    ← Nat.pow_add, show k - v + v = k by omega, Nat.mod_eq_of_lt hlt2]

example : (0:Nat) < 1 ∧ 1 < 11 ∧ 11 < 64 := by decide

end Spf.Props
