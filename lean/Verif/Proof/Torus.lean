import Verif.Model.Torus
import Mathlib.Data.BitVec
import Mathlib.Tactic.Ring
import Mathlib.Tactic.Linarith
/-! Rounding, encoding, radix decomposition. -/
namespace Spf.Tfhe

/-- rounding to the nearest multiple of `2h` undoes an offset of less than half a step -/
theorem round_core (h m P X : Nat) (e : Int) (hh : 0 < h) (hm : m < P) (he : -(h : Int) ≤ e) (he' : e < h)
    (hX : (X : Int) = ((m : Int) * (2 * h) + e) % ((P : Int) * (2 * h))) : (X / (2 * h) + X / h % 2) % P = m := by
  have key : ∀ q r : Nat, X = q * (2 * h) + r → r < 2 * h → X / (2 * h) = q ∧ X / h % 2 = if r < h then 0 else 1 := by
    intro q r hx hr
    have h1 : X / (2 * h) = q := by
      rw [hx, Nat.mul_comm, Nat.mul_add_div (by omega), Nat.div_eq_of_lt hr, Nat.add_zero]
    refine ⟨h1, ?_⟩
    have h2 : X = h * (2 * q) + r := by rw [hx]; ring
    rw [h2, Nat.mul_add_div hh]
    split
    · rename_i hlt; rw [Nat.div_eq_of_lt hlt]; omega
    · rename_i hge
      have : r / h = 1 := by
        apply Nat.div_eq_of_lt_le <;> omega
      rw [this]; omega
  have hPpos : (0 : Int) < (P : Int) * (2 * h) := by
    have : 0 < P := by omega
    positivity
  have hub : (m : Int) * (2 * h) + (2 * h) ≤ P * (2 * h) := by
    have : (m : Int) + 1 ≤ P := by exact_mod_cast hm
    nlinarith
  by_cases hneg : e < 0
  · by_cases hm0 : m = 0
    · subst hm0
      have : ((0 : Nat) : Int) * (2 * h) + e = (P * (2 * h) + e) + (P * (2 * h)) * (-1) := by push_cast; ring
      rw [this, Int.add_mul_emod_self_left, Int.emod_eq_of_lt (by nlinarith) (by omega)] at hX
      obtain ⟨r, hr⟩ : ∃ r : Nat, (r : Int) = 2 * h + e := ⟨(2 * h + e).toNat, by omega⟩
      obtain ⟨P', rfl⟩ : ∃ P', P = P' + 1 := ⟨P - 1, by omega⟩
      have hXn : X = P' * (2 * h) + r := by
        have : (X : Int) = ((P' * (2 * h) + r : Nat) : Int) := by rw [hX]; push_cast; rw [hr]; ring
        exact_mod_cast this
      obtain ⟨a, b⟩ := key P' r hXn (by omega)
      rw [a, b, if_neg (by omega), Nat.mod_self]
    · rw [Int.emod_eq_of_lt (by nlinarith [show (1:Int) ≤ m by exact_mod_cast (by omega : 1 ≤ m)]) (by nlinarith)] at hX
      obtain ⟨r, hr⟩ : ∃ r : Nat, (r : Int) = 2 * h + e := ⟨(2 * h + e).toNat, by omega⟩
      obtain ⟨m', rfl⟩ : ∃ m', m = m' + 1 := ⟨m - 1, by omega⟩
      have hXn : X = m' * (2 * h) + r := by
        have : (X : Int) = ((m' * (2 * h) + r : Nat) : Int) := by rw [hX]; push_cast; rw [hr]; ring
        exact_mod_cast this
      obtain ⟨a, b⟩ := key m' r hXn (by omega)
      rw [a, b, if_neg (by omega), Nat.mod_eq_of_lt hm]
  · rw [Int.emod_eq_of_lt (by nlinarith) (by nlinarith)] at hX
    obtain ⟨r, hr⟩ : ∃ r : Nat, (r : Int) = e := ⟨e.toNat, by omega⟩
    have hXn : X = m * (2 * h) + r := by
      have : (X : Int) = ((m * (2 * h) + r : Nat) : Int) := by rw [hX]; push_cast; rw [hr]
      exact_mod_cast this
    obtain ⟨a, b⟩ := key m r hXn (by omega)
    rw [a, b, if_pos (by omega), Nat.add_zero, Nat.mod_eq_of_lt hm]

theorem and_one_toNat {W : Nat} (x : BitVec W) (hW : 0 < W) : (x &&& 1#W).toNat = x.toNat % 2 := by
  rw [BitVec.toNat_and, BitVec.toNat_ofNat, Nat.mod_eq_of_lt (Nat.one_lt_two_pow (by omega)), Nat.and_one_is_mod]

theorem and_mask_toNat {W : Nat} (x : BitVec W) {k : Nat} (hk : k ≤ W) : (x &&& BitVec.ofNat W (2 ^ k - 1)).toNat = x.toNat % 2 ^ k := by
  have : 2 ^ k - 1 < 2 ^ W := by
    have := Nat.pow_le_pow_right (show 0 < 2 by decide) hk
    have := Nat.two_pow_pos k
    omega
  rw [BitVec.toNat_and, BitVec.toNat_ofNat, Nat.mod_eq_of_lt this, Nat.and_two_pow_sub_one_eq_mod]

theorem shr_toNat {W : Nat} (x : BitVec W) (k : Nat) : (x >>> k).toNat = x.toNat / 2 ^ k := by
  rw [BitVec.toNat_ushiftRight, Nat.shiftRight_eq_div_pow]

/-- value of `decode` -/
theorem decode_val {W p : Nat} (hp : p < W) (hp32 : p < 32) (hp0 : 0 < p) (x : BitVec W) :
    ∃ y, decode x p = some y ∧ y.toNat = (x.toNat / 2 ^ (W - p) + x.toNat / 2 ^ (W - p - 1) % 2) % 2 ^ p := by
  have h1 : (wrapShr x (W - p)).toNat = x.toNat / 2 ^ (W - p) := by
    rw [wrapShr, Nat.mod_eq_of_lt (by omega), shr_toNat]
  have h2 : (wrapShr x (W - p - 1) &&& 1#W).toNat = x.toNat / 2 ^ (W - p - 1) % 2 := by
    rw [and_one_toNat _ (by omega), wrapShr, Nat.mod_eq_of_lt (show W - p - 1 < W by omega), shr_toNat]
  have hlt : x.toNat / 2 ^ (W - p) < 2 ^ p := by
    rw [Nat.div_lt_iff_lt_mul (Nat.two_pow_pos _), ← Nat.pow_add, show p + (W - p) = W by omega]; exact x.isLt
  have hle : 2 ^ p + 2 ≤ 2 ^ W + 1 := by
    have : 2 ^ (p + 1) ≤ 2 ^ W := Nat.pow_le_pow_right (by decide) (by omega)
    have := Nat.two_pow_pos p
    omega
  have hsum : (wrapShr x (W - p)).toNat + (wrapShr x (W - p - 1) &&& 1#W).toNat < 2 ^ W := by
    rw [h1, h2]
    have := Nat.mod_lt (x.toNat / 2 ^ (W - p - 1)) (show 2 > 0 by decide)
    omega
  refine ⟨(wrapShr x (W - p) + (wrapShr x (W - p - 1) &&& 1#W)) &&& BitVec.ofNat W (2 ^ p - 1),
    by simp only [decode, if_pos hp, mask32, if_pos hp32, addC, if_pos hsum], ?_⟩
  rw [and_mask_toNat _ (by omega), BitVec.toNat_add, Nat.mod_eq_of_lt hsum, h1, h2]

theorem toNat_add_ofInt {W : Nat} (x : BitVec W) (e : Int) : ((x + BitVec.ofInt W e).toNat : Int) = ((x.toNat : Int) + e) % (2 ^ W : Nat) := by
  have := BitVec.ofInt_add (n := W) (x := x.toNat) (y := e)
  rw [BitVec.ofInt_natCast, BitVec.ofNat_toNat, BitVec.setWidth_eq] at this
  rw [← this, BitVec.toNat_ofInt]
  rw [Int.toNat_of_nonneg (Int.emod_nonneg _ (by exact_mod_cast (Nat.two_pow_pos W).ne'))]

/-- rounding to a multiple of `2^(h+1)` -/
theorem round_err (X h : Nat) : ∃ err : Int, (X : Int) = ((X / 2 ^ (h + 1) + X / 2 ^ h % 2 : Nat) : Int) * 2 ^ (h + 1) + err ∧
    -(2 ^ h : Int) ≤ err ∧ err < 2 ^ h := by
  have hd : X / 2 ^ (h + 1) = X / 2 ^ h / 2 := by rw [Nat.pow_succ, Nat.div_div_eq_div_mul]
  have h1 := Nat.div_add_mod X (2 ^ h)
  have h2 := Nat.mod_lt X (Nat.two_pow_pos h)
  have h3 := Nat.div_add_mod (X / 2 ^ h) 2
  rw [hd]
  generalize X / 2 ^ h = q at *
  generalize X % 2 ^ h = r at *
  have hP : (0 : Int) < 2 ^ h := by positivity
  have e1 : (X : Int) = 2 ^ h * q + r := by exact_mod_cast h1.symm
  have e2 : (r : Int) < 2 ^ h := by exact_mod_cast h2
  have e3 : (q : Int) = 2 * ((q / 2 : Nat) : Int) + ((q % 2 : Nat) : Int) := by exact_mod_cast h3.symm
  refine ⟨(r : Int) - 2 ^ h * ((q % 2 : Nat) : Int), ?_, ?_, ?_⟩
  · rw [e1]
    conv_lhs => rw [e3]
    rw [pow_succ]
    push_cast
    ring
  · rcases Nat.mod_two_eq_zero_or_one q with h | h <;> rw [h] <;> push_cast <;> linarith
  · rcases Nat.mod_two_eq_zero_or_one q with h | h <;> rw [h] <;> push_cast <;> linarith

theorem radixRound_val {W : Nat} {r : Radix} (hl : 0 < r.log * r.count) (hlt : r.log * r.count < W) (x : BitVec W) :
    ∃ y, radixRound x r = some y ∧
      y.toNat = x.toNat / 2 ^ (W - r.log * r.count) + x.toNat / 2 ^ (W - r.log * r.count - 1) % 2 := by
  generalize hn : r.log * r.count = n at *
  refine ⟨x >>> (W - n) + ((x >>> (W - n - 1)) &&& 1#W), ?_, ?_⟩
  · simp only [radixRound, hn]
    rw [if_pos (by omega), if_pos ⟨by omega, by omega⟩]
  · rw [BitVec.toNat_add, and_one_toNat _ (by omega), shr_toNat, shr_toNat, Nat.mod_eq_of_lt]
    have hlt' : x.toNat / 2 ^ (W - n) < 2 ^ n := by
      rw [Nat.div_lt_iff_lt_mul (Nat.two_pow_pos _), ← Nat.pow_add, show n + (W - n) = W by omega]; exact x.isLt
    have h1 : 2 ^ (n + 1) ≤ 2 ^ W := Nat.pow_le_pow_right (by decide) (by omega)
    have h2 : 2 ^ 1 ≤ 2 ^ n := Nat.pow_le_pow_right (by decide) (by omega)
    have := Nat.mod_lt (x.toNat / 2 ^ (W - n - 1)) (show 2 > 0 by decide)
    rw [Nat.pow_succ] at h1
    omega

theorem two_pow_bv {W : Nat} (k : Nat) : BitVec.ofNat W (2 ^ k) = BitVec.ofInt W (2 ^ k) := by
  rw [show (2 ^ k : Int) = ((2 ^ k : Nat) : Int) by push_cast; rfl, BitVec.ofInt_natCast]

theorem shl_eq_mul {W : Nat} (x : BitVec W) (k : Nat) : x <<< k = x * BitVec.ofNat W (2 ^ k) := by
  apply BitVec.eq_of_toNat_eq
  simp [BitVec.toNat_shiftLeft, BitVec.toNat_mul, Nat.shiftLeft_eq]

theorem ofInt_sub' {W : Nat} (a b : Int) : BitVec.ofInt W (a - b) = BitVec.ofInt W a - BitVec.ofInt W b := by
  have := BitVec.ofInt_add (n := W) (x := a - b) (y := b)
  rw [Int.sub_add_cancel] at this
  rw [this]; ring

/-- digit and carry of one step -/
theorem nextDigit_spec {W l : Nat} (hl : 0 < l) (hlW : l < W) (c : BitVec W) :
    ((nextDigit c l).1.toInt : Int) + 2 ^ l * ((nextDigit c l).2.toNat : Int) = c.toNat ∧
    -(2 ^ (l - 1) : Int) ≤ (nextDigit c l).1.toInt ∧ (nextDigit c l).1.toInt < 2 ^ (l - 1) := by
  obtain ⟨k, rfl⟩ : ∃ k, l = k + 1 := ⟨l - 1, by omega⟩
  obtain ⟨V, rfl⟩ : ∃ V, W = V + 1 := ⟨W - 1, by omega⟩
  simp only [nextDigit, Nat.add_sub_cancel]
  have hdig : (c &&& BitVec.ofNat (V + 1) (2 ^ (k + 1) - 1)).toNat = c.toNat % 2 ^ (k + 1) := and_mask_toNat c (by omega)
  generalize hD : c &&& BitVec.ofNat (V + 1) (2 ^ (k + 1) - 1) = D at hdig
  have hcar : (D >>> k).toNat = c.toNat % 2 ^ (k + 1) / 2 ^ k := by rw [shr_toNat, hdig]
  generalize hC : D >>> k = C at hcar
  have hm := Nat.mod_lt c.toNat (Nat.two_pow_pos (k + 1))
  have hdm := Nat.div_add_mod c.toNat (2 ^ (k + 1))
  have hpk : 2 ^ (k + 1) = 2 * 2 ^ k := by rw [Nat.pow_succ]; ring
  have hkV : 2 ^ k ≤ 2 ^ V / 2 := by
    have : 2 ^ (k + 1) ≤ 2 ^ V := Nat.pow_le_pow_right (by decide) (by omega)
    omega
  have hVV : 2 ^ (V + 1) = 2 * 2 ^ V := by rw [Nat.pow_succ]; ring
  generalize hd : c.toNat % 2 ^ (k + 1) = d at *
  have hc01 : d / 2 ^ k = if d < 2 ^ k then 0 else 1 := by
    split
    · rename_i h; exact Nat.div_eq_of_lt h
    · apply Nat.div_eq_of_lt_le <;> omega
  rw [hc01] at hcar
  have hDI : D = BitVec.ofInt (V + 1) d := by
    apply BitVec.eq_of_toNat_eq; rw [BitVec.ofInt_natCast, BitVec.toNat_ofNat, hdig, Nat.mod_eq_of_lt]
    omega
  have hCI : C = BitVec.ofInt (V + 1) ((if d < 2 ^ k then 0 else 1 : Nat) : Int) := by
    apply BitVec.eq_of_toNat_eq; rw [BitVec.ofInt_natCast, BitVec.toNat_ofNat, hcar, Nat.mod_eq_of_lt]
    have := Nat.two_pow_pos V
    split <;> omega
  have hsub : D - C <<< (k + 1) = BitVec.ofInt (V + 1) ((d : Int) - ((if d < 2 ^ k then 0 else 1 : Nat) : Int) * 2 ^ (k + 1)) := by
    rw [shl_eq_mul, hDI, hCI, two_pow_bv, ← BitVec.ofInt_mul, ofInt_sub']
  have hpkI : (2 : Int) ^ (k + 1) = 2 * 2 ^ k := by rw [pow_succ]; ring
  have hrange : -(2 ^ k : Int) ≤ (d : Int) - ((if d < 2 ^ k then 0 else 1 : Nat) : Int) * 2 ^ (k + 1) ∧
      (d : Int) - ((if d < 2 ^ k then 0 else 1 : Nat) : Int) * 2 ^ (k + 1) < 2 ^ k := by
    have hm' : (d : Int) < 2 * 2 ^ k := by rw [hpk] at hm; exact_mod_cast hm
    split
    · rename_i h
      have : (d : Int) < 2 ^ k := by exact_mod_cast h
      push_cast; constructor <;> linarith
    · rename_i h
      have : (2 : Int) ^ k ≤ d := by exact_mod_cast (by omega : 2 ^ k ≤ d)
      rw [hpkI]; push_cast; constructor <;> linarith
  have hI : (D - C <<< (k + 1)).toInt = (d : Int) - ((if d < 2 ^ k then 0 else 1 : Nat) : Int) * 2 ^ (k + 1) := by
    rw [hsub, BitVec.toInt_ofInt]
    have hkVI : (2 : Int) ^ k * 2 ≤ 2 ^ V := by
      have : 2 ^ k * 2 ≤ 2 ^ V := by omega
      exact_mod_cast this
    have hp : (0 : Int) < 2 ^ k := by positivity
    have hh1 : ((2 : Int) * 2 ^ V) / 2 = 2 ^ V := Int.mul_ediv_cancel_left _ (by decide)
    have hh2 : ((2 : Int) * 2 ^ V + 1) / 2 = 2 ^ V := by omega
    apply Int.bmod_eq_of_le
    · rw [hVV]; push_cast at hrange ⊢; rw [hh1]; linarith [hrange.1]
    · rw [hVV]; push_cast at hrange ⊢; rw [hh2]; linarith [hrange.2]
  have hcur : (c >>> (k + 1) + C).toNat = c.toNat / 2 ^ (k + 1) + (if d < 2 ^ k then 0 else 1) := by
    rw [BitVec.toNat_add, shr_toNat, hcar, Nat.mod_eq_of_lt]
    have h1 : c.toNat / 2 ^ (k + 1) ≤ c.toNat / 2 := by
      rw [hpk, Nat.mul_comm, ← Nat.div_div_eq_div_mul]
      rw [Nat.div_div_eq_div_mul, Nat.mul_comm, ← Nat.div_div_eq_div_mul]
      exact Nat.div_le_self _ _
    have := c.isLt
    have := Nat.two_pow_pos V
    split <;> omega
  refine ⟨?_, by rw [hI]; exact hrange.1, by rw [hI]; exact hrange.2⟩
  rw [hI, hcur]
  have : (c.toNat : Int) = 2 ^ (k + 1) * ((c.toNat / 2 ^ (k + 1) : Nat) : Int) + d := by exact_mod_cast hdm.symm
  rw [this]
  push_cast
  ring_nf

/-- weighted sum of digits, least significant first -/
def digitSum {W : Nat} (l : Nat) : List (BitVec W) → Int
  | [] => 0
  | d :: ds => d.toInt + 2 ^ l * digitSum l ds

theorem digitsFrom_spec {W l : Nat} (hl : 0 < l) (hlW : l < W) : ∀ (k : Nat) (c : BitVec W),
    (digitsFrom l k c).length = k ∧ (∀ d ∈ digitsFrom l k c, -(2 ^ (l - 1) : Int) ≤ d.toInt ∧ d.toInt < 2 ^ (l - 1)) ∧
    ∃ t : Int, (c.toNat : Int) = digitSum l (digitsFrom l k c) + 2 ^ (l * k) * t
  | 0, c => ⟨rfl, by simp [digitsFrom], c.toNat, by simp [digitsFrom, digitSum]⟩
  | k + 1, c => by
    obtain ⟨h1, h2, h3⟩ := nextDigit_spec hl hlW c
    obtain ⟨a, b, t, ht⟩ := digitsFrom_spec hl hlW k (nextDigit c l).2
    refine ⟨by simp [digitsFrom, a], ?_, t, ?_⟩
    · intro d hd
      simp only [digitsFrom, List.mem_cons] at hd
      rcases hd with rfl | hd
      · exact ⟨h2, h3⟩
      · exact b d hd
    · simp only [digitsFrom, digitSum]
      rw [← h1, ht, Nat.mul_succ, pow_add]
      ring

theorem recomposeFrom_eq {W l : Nat} : ∀ (ds : List (BitVec W)) (cur dst : BitVec W),
    recomposeFrom l ds cur dst = dst + cur * BitVec.ofInt W (digitSum l ds)
  | [], cur, dst => by
    simp [recomposeFrom, digitSum]
  | d :: ds, cur, dst => by
    rw [recomposeFrom, recomposeFrom_eq ds, digitSum, shl_eq_mul, BitVec.ofInt_add, BitVec.ofInt_mul, BitVec.ofInt_toInt, two_pow_bv]
    ring

end Spf.Tfhe
