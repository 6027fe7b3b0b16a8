import Mathlib.Algebra.Order.Ring.Rat
/-! Model of the rounded division of `sunscreen_tfhe/src/math/basic.rs` and of the torus distance of `sunscreen_tfhe/src/math/torus.rs`. `none` = panic (overflow checks enabled). -/
namespace Spf.Tfhe

/-- sunscreen_tfhe/src/math/basic.rs:11-20 `div_rounded` on an unsigned type of `W` bits (operands below `2 ^ W`). -/
def divRounded (W a d : Nat) : Option Nat :=
  if d = 0 then none
  else if d / 2 ≤ a % d then (if a / d + 1 < 2 ^ W then some (a / d + 1) else none)
  else some (a / d)

/-- sunscreen_tfhe/src/math/basic.rs:11-20 `div_rounded` on a signed type of `W` bits: `/` and `%` truncate towards zero and panic on `MIN / -1`. -/
def divRoundedS (W : Nat) (a d : Int) : Option Int :=
  if d = 0 then none
  else if a = -2 ^ (W - 1) ∧ d = -1 then none
  else if d.tdiv 2 ≤ a.tmod d then (if a.tdiv d + 1 < 2 ^ (W - 1) then some (a.tdiv d + 1) else none)
  else some (a.tdiv d)

/-- sunscreen_tfhe/src/math/torus.rs:222-235 `normalized_torus_distance`, the numerator `difference` as an exact integer (the code converts it to `f64`, which rounds from 2^53 on). -/
def torusDistNum {W : Nat} (a b : BitVec W) : Int :=
  if (a - b).toNat < (b - a).toNat then -((a - b).toNat : Int) else ((b - a).toNat : Int)

/-- sunscreen_tfhe/src/math/torus.rs:222-235 `normalized_torus_distance` (exact rational instead of `f64`). -/
def torusDist {W : Nat} (a b : BitVec W) : ℚ := (torusDistNum a b : ℚ) / 2 ^ W

/-- sunscreen_tfhe/src/math/torus.rs:251-256 `normalized_torus` (exact rational instead of `f64`). -/
def torusPos {W : Nat} (a : BitVec W) : ℚ := (a.toNat : ℚ) / 2 ^ W

end Spf.Tfhe
