import Verif.Model.RoundedDiv
import Mathlib.Algebra.Order.Field.Basic
import Mathlib.Tactic.Linarith
import Mathlib.Tactic.Ring
import Mathlib.Tactic.FieldSimp
import Mathlib.Tactic.Positivity
/-!
C112: `RoundedDiv::div_rounded` ("divides two numbers and rounds the result to the nearest integer") and the distance of torus elements.
-/
namespace Spf.Props
open Spf.Tfhe

/-- `y` is an integer nearest to `a / d` (`d` positive): `|y - a / d| ≤ 1 / 2`, cleared of denominators. -/
def Nearest (a d y : Int) : Prop := |2 * (y * d - a)| ≤ d

/-- **C112 (partial: even divisors only).** Dividing any unsigned `a` by an even `d > 0` never panics and returns the nearest integer, rounding halves up: the floor of `a / d + 1 / 2`. -/
theorem C112_div_rounded_partial (W a d : Nat) (ha : a < 2 ^ W) (hd : 0 < d) (he : d % 2 = 0) :
    ∃ y, divRounded W a d = some y ∧ Nearest a d y ∧ y = (2 * a + d) / (2 * d) := by
  have hdm := Nat.div_add_mod a d
  have hm := Nat.mod_lt a hd
  have hq : a / d + 1 < 2 ^ W ∨ a % d < d / 2 := by
    rcases Nat.lt_or_ge (a % d) (d / 2) with h | h
    · exact .inr h
    · left
      have h1 : 2 * (a / d) ≤ d * (a / d) := Nat.mul_le_mul_right _ (by omega)
      omega
  generalize hq' : a / d = q at *
  generalize hr' : a % d = r at *
  unfold divRounded
  rw [if_neg (by omega), hq', hr']
  by_cases h : d / 2 ≤ r
  · have hq1 : q + 1 < 2 ^ W := by omega
    refine ⟨q + 1, by rw [if_pos h, if_pos hq1], ?_, ?_⟩
    · unfold Nearest
      have : 2 * (((q + 1 : Nat) : Int) * d - a) = 2 * ((d : Int) - r) := by rw [← hdm]; push_cast; ring
      rw [this, abs_le]; omega
    · symm
      have e : 2 * a + d = (q + 1) * (2 * d) + (2 * r - d) := by
        rw [← hdm, show (q + 1) * (2 * d) = 2 * (d * q) + 2 * d by ring]; omega
      rw [e, Nat.mul_comm, Nat.mul_add_div (by omega), Nat.div_eq_of_lt (by omega), Nat.add_zero]
  · refine ⟨q, by rw [if_neg h], ?_, ?_⟩
    · unfold Nearest
      have : 2 * ((q : Int) * d - a) = -(2 * (r : Int)) := by rw [← hdm]; push_cast; ring
      rw [this, abs_le]; omega
    · symm
      have e : 2 * a + d = q * (2 * d) + (2 * r + d) := by
        rw [← hdm, show q * (2 * d) = 2 * (d * q) by ring]; omega
      rw [e, Nat.mul_comm, Nat.mul_add_div (by omega), Nat.div_eq_of_lt (by omega), Nat.add_zero]

/-- non-vacuity: 7 / 4 rounds to 2, 6 / 4 to 2, 5 / 4 to 1, and the largest `u8` divided by 2 to 128. -/
example : divRounded 8 7 4 = some 2 ∧ divRounded 8 6 4 = some 2 ∧ divRounded 8 5 4 = some 1 ∧ divRounded 8 255 2 = some 128 := by decide

/-- **C112, divisors in general.** For a divisor of at least 2 the result is never further than `(d + 1) / 2` units from `a`, that is, at most half a unit of `1 / d` worse than the nearest integer. -/
theorem C112_div_rounded_bound (W a d : Nat) (ha : a < 2 ^ W) (hd : 2 ≤ d) :
    ∃ y, divRounded W a d = some y ∧ |2 * ((y : Int) * d - a)| ≤ d + 1 := by
  have hdm := Nat.div_add_mod a d
  have hm := Nat.mod_lt a (show 0 < d by omega)
  have h1 : 2 * (a / d) ≤ d * (a / d) := Nat.mul_le_mul_right _ (by omega)
  generalize hq' : a / d = q at *
  generalize hr' : a % d = r at *
  unfold divRounded
  rw [if_neg (by omega), hq', hr']
  by_cases h : d / 2 ≤ r
  · have hq1 : q + 1 < 2 ^ W := by omega
    refine ⟨q + 1, by rw [if_pos h, if_pos hq1], ?_⟩
    have : 2 * (((q + 1 : Nat) : Int) * d - a) = 2 * ((d : Int) - r) := by rw [← hdm]; push_cast; ring
    rw [this, abs_le]; omega
  · refine ⟨q, by rw [if_neg h], ?_⟩
    have : 2 * ((q : Int) * d - a) = -(2 * (r : Int)) := by rw [← hdm]; push_cast; ring
    rw [this, abs_le]; omega

/-- **C112 is violated for every odd divisor.** For odd `d ≥ 3`, `(d - 1) / 2` divided by `d` is below one half but is rounded to 1; dividing any `a` by 1 gives `a + 1`, and panics for the largest value of the type. -/
theorem C112_div_rounded_violated (W d : Nat) (hd : d % 2 = 1) :
    (3 ≤ d → 1 < 2 ^ W → divRounded W ((d - 1) / 2) d = some 1 ∧ ¬ Nearest ((d - 1) / 2 : Nat) d 1) ∧
    (∀ a, a + 1 < 2 ^ W → divRounded W a 1 = some (a + 1) ∧ ¬ Nearest a 1 (a + 1)) ∧ divRounded W (2 ^ W - 1) 1 = none := by
  refine ⟨fun h hW => ⟨?_, ?_⟩, fun a ha => ⟨?_, ?_⟩, ?_⟩
  · have h1 : (d - 1) / 2 < d := by omega
    unfold divRounded
    rw [if_neg (by omega), Nat.mod_eq_of_lt h1, Nat.div_eq_of_lt h1, if_pos (by omega), if_pos (by omega)]
  · unfold Nearest; rw [abs_le]; omega
  · unfold divRounded
    rw [if_neg (by omega), if_pos (by omega), Nat.div_one, if_pos ha]
  · unfold Nearest; rw [abs_le]; omega
  · have := Nat.two_pow_pos W
    unfold divRounded
    rw [if_neg (by omega), if_pos (by omega), Nat.div_one, if_neg (by omega)]

/-- **C112, signed types (partial).** A nonnegative `a` divided by a positive even `d` gives the nearest integer. -/
theorem C112_div_rounded_signed_partial (W : Nat) (a d : Int) (ha : 0 ≤ a) (ha' : a < 2 ^ (W - 1)) (hd : 0 < d) (he : d % 2 = 0) :
    ∃ y, divRoundedS W a d = some y ∧ Nearest a d y := by
  obtain ⟨a, rfl⟩ := Int.eq_ofNat_of_zero_le ha
  obtain ⟨d, rfl⟩ := Int.eq_ofNat_of_zero_le hd.le
  obtain ⟨y, h1, h2, -⟩ := C112_div_rounded_partial (W - 1) a d (by exact_mod_cast ha') (by omega) (by omega)
  refine ⟨y, ?_, h2⟩
  unfold divRounded at h1
  rw [if_neg (by omega)] at h1
  unfold divRoundedS
  rw [if_neg (by omega), if_neg (by omega)]
  have e1 : ((d : Int)).tdiv 2 = ((d / 2 : Nat) : Int) := by rw [Int.tdiv_eq_ediv_of_nonneg (by omega)]; simp
  have e2 : ((a : Int)).tmod d = ((a % d : Nat) : Int) := by rw [Int.tmod_eq_emod_of_nonneg (by omega)]; simp
  have e3 : ((a : Int)).tdiv d = ((a / d : Nat) : Int) := by rw [Int.tdiv_eq_ediv_of_nonneg (by omega)]; simp
  rw [e1, e2, e3]
  by_cases h : d / 2 ≤ a % d
  · rw [if_pos h] at h1
    rw [if_pos (by exact_mod_cast h)]
    by_cases g : a / d + 1 < 2 ^ (W - 1)
    · rw [if_pos g] at h1
      rw [if_pos (by exact_mod_cast g)]
      cases h1; rfl
    · rw [if_neg g] at h1; cases h1
  · rw [if_neg h] at h1
    rw [if_neg (by exact_mod_cast h)]
    cases h1; rfl

example : divRoundedS 8 7 4 = some 2 := by decide

/-- **C112 is violated for negative dividends**, whatever the divisor: `-3 / 4` gives 0 where -1 is nearest; for every even `d ≥ 4`, `-(d - 1)` divided by `d` gives 0. -/
theorem C112_div_rounded_signed_violated (W : Nat) (d : Int) (hd : 4 ≤ d) :
    divRoundedS W (-(d - 1)) d = some 0 ∧ ¬ Nearest (-(d - 1)) d 0 := by
  have h1 : (-(d - 1)).tdiv d = 0 := by
    rw [Int.neg_tdiv, Int.tdiv_eq_ediv_of_nonneg (by omega), Int.ediv_eq_zero_of_lt (by omega) (by omega)]; rfl
  have h2 : (-(d - 1)).tmod d = -(d - 1) := by
    rw [Int.neg_tmod, Int.tmod_eq_emod_of_nonneg (by omega), Int.emod_eq_of_lt (by omega) (by omega)]
  have h3 : d.tdiv 2 = d / 2 := Int.tdiv_eq_ediv_of_nonneg (by omega)
  constructor
  · unfold divRoundedS
    rw [if_neg (by omega), if_neg (by omega), h1, h2, h3, if_neg (by omega)]
  · unfold Nearest; rw [abs_le]; omega

/-! ### torus distance -/

private theorem dist_int {W : Nat} (a b : BitVec W) :
    (∃ k : Int, (b.toNat : Int) = a.toNat + torusDistNum a b + k * 2 ^ W) ∧ 2 * |torusDistNum a b| ≤ 2 ^ W ∧ 2 * torusDistNum a b ≠ -2 ^ W := by
  have ha := a.isLt
  have hb := b.isLt
  have hc : ((2 ^ W : Nat) : Int) = 2 ^ W := by push_cast; rfl
  have e1 : (b.toNat ≤ a.toNat ∧ (a - b).toNat = a.toNat - b.toNat) ∨ (a.toNat < b.toNat ∧ (a - b).toNat = 2 ^ W + a.toNat - b.toNat) := by
    rw [BitVec.toNat_sub]
    rcases Nat.lt_or_ge a.toNat b.toNat with h | h
    · right; rw [Nat.mod_eq_of_lt (by omega)]; omega
    · left
      rw [show 2 ^ W - b.toNat + a.toNat = (a.toNat - b.toNat) + 2 ^ W by omega, Nat.add_mod_right, Nat.mod_eq_of_lt (by omega)]
      exact ⟨h, rfl⟩
  have e2 : (a.toNat ≤ b.toNat ∧ (b - a).toNat = b.toNat - a.toNat) ∨ (b.toNat < a.toNat ∧ (b - a).toNat = 2 ^ W + b.toNat - a.toNat) := by
    rw [BitVec.toNat_sub]
    rcases Nat.lt_or_ge b.toNat a.toNat with h | h
    · right; rw [Nat.mod_eq_of_lt (by omega)]; omega
    · left
      rw [show 2 ^ W - a.toNat + b.toNat = (b.toNat - a.toNat) + 2 ^ W by omega, Nat.add_mod_right, Nat.mod_eq_of_lt (by omega)]
      exact ⟨h, rfl⟩
  unfold torusDistNum
  rw [← hc]
  generalize (a - b).toNat = u at *
  generalize (b - a).toNat = v at *
  generalize a.toNat = x at *
  generalize b.toNat = y at *
  clear hc
  generalize 2 ^ W = M at *
  by_cases h : u < v
  · rw [if_pos h, abs_neg, abs_of_nonneg (by omega)]
    refine ⟨?_, by omega, by omega⟩
    rcases e1 with e1 | e1
    · exact ⟨0, by omega⟩
    · exact ⟨1, by omega⟩
  · rw [if_neg h, abs_of_nonneg (by omega)]
    refine ⟨?_, by omega, by omega⟩
    rcases e2 with e2 | e2
    · exact ⟨0, by omega⟩
    · exact ⟨-1, by omega⟩

/-- **C112, torus distance.** `normalized_torus(b) = normalized_torus(a) + distance(a, b) (mod 1)`, the distance lies in `(-1/2, 1/2]`, and it is the shortest: every other `x` with `b = a + x (mod 1)` is at least as long. (Exact values; the code returns them rounded to `f64`.) -/
theorem C112_distance {W : Nat} (a b : BitVec W) :
    (∃ k : Int, torusPos b = torusPos a + torusDist a b + k) ∧ -1 / 2 < torusDist a b ∧ torusDist a b ≤ 1 / 2 ∧
    ∀ x : ℚ, (∃ k : Int, torusPos b = torusPos a + x + k) → |torusDist a b| ≤ |x| := by
  obtain ⟨⟨k, hk⟩, h2, h3⟩ := dist_int a b
  have hM : (0 : ℚ) < 2 ^ W := by positivity
  have e1 : torusPos b = torusPos a + torusDist a b + k := by
    unfold torusPos torusDist
    have : ((b.toNat : Int) : ℚ) = ((a.toNat + torusDistNum a b + k * 2 ^ W : Int) : ℚ) := by rw [hk]
    push_cast at this
    rw [this]; field_simp
  have h2q : 2 * |(torusDistNum a b : ℚ)| ≤ 2 ^ W := by exact_mod_cast h2
  have hlo : -1 / 2 < torusDist a b := by
    unfold torusDist
    rw [lt_div_iff₀ hM]
    have h4 : -2 ^ W < 2 * torusDistNum a b := by
      have := neg_abs_le (torusDistNum a b)
      omega
    have : (-2 ^ W : ℚ) < 2 * torusDistNum a b := by exact_mod_cast h4
    linarith
  have hhi : torusDist a b ≤ 1 / 2 := by
    unfold torusDist
    rw [div_le_iff₀ hM]
    have := le_abs_self (torusDistNum a b : ℚ)
    linarith
  refine ⟨⟨k, e1⟩, hlo, hhi, ?_⟩
  rintro x ⟨j, hj⟩
  have hx : x = torusDist a b + ((k - j : Int) : ℚ) := by push_cast; linarith
  by_cases h0 : k - j = 0
  · rw [hx, h0]; simp
  · have habs : |torusDist a b| ≤ 1 / 2 := abs_le.2 ⟨by linarith, hhi⟩
    have h1 : (1 : ℚ) ≤ |((k - j : Int) : ℚ)| := by
      rw [← Int.cast_abs]; exact_mod_cast Int.one_le_abs h0
    have h5 : |((k - j : Int) : ℚ)| ≤ |x| + |torusDist a b| := by
      have : ((k - j : Int) : ℚ) = x - torusDist a b := by rw [hx]; ring
      rw [this]; exact abs_sub _ _
    linarith

/-- non-vacuity: the documented example (positions 0.25 and 0.875 of an 8-bit torus): the short way is -0.375. -/
example : torusDist (64 : BitVec 8) 224 = -3 / 8 := by
  unfold torusDist
  rw [show torusDistNum (64 : BitVec 8) 224 = -96 by decide]; norm_num

end Spf.Props
