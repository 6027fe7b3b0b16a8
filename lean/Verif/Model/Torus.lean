/-! Model of `sunscreen_tfhe/src/math/torus.rs`, `math/radix.rs` and of `modulus_switch`. A torus element of a machine
type with `W` bits is a `BitVec W` (`TorusOps` is implemented for `W = 32` and `W = 64`). `none` = panic (overflow checks
enabled). -/
namespace Spf.Tfhe

/-- `WrappingShl::wrapping_shl` (num-traits, used at sunscreen_tfhe/src/math/torus.rs:287): the shift is taken modulo the
width. -/
def wrapShl {W : Nat} (x : BitVec W) (s : Nat) : BitVec W := x <<< (s % W)

/-- `WrappingShr::wrapping_shr` (used at torus.rs:296, 299). -/
def wrapShr {W : Nat} (x : BitVec W) (s : Nat) : BitVec W := x >>> (s % W)

/-- checked unsigned addition (`+`, torus.rs:299). -/
def addC {W : Nat} (x y : BitVec W) : Option (BitVec W) := if x.toNat + y.toNat < 2 ^ W then some (x + y) else none

/-- sunscreen_tfhe/src/math/torus.rs:284-290 `Torus::encode`. -/
def encode {W : Nat} (val : BitVec W) (bits : Nat) : Option (BitVec W) :=
  if bits < W then some (wrapShl val (W - bits)) else none

/-- torus.rs:297: `(0x1 << plain_bits) - 1`, computed in `u32` (the only integer type `TorusOps` converts from). -/
def mask32 (bits : Nat) : Option Nat := if bits < 32 then some (2 ^ bits - 1) else none

/-- sunscreen_tfhe/src/math/torus.rs:293-300 `Torus::decode`. -/
def decode {W : Nat} (x : BitVec W) (bits : Nat) : Option (BitVec W) :=
  if bits < W then
    match mask32 bits with
    | none => none
    | some mask =>
      match addC (wrapShr x (W - bits)) (wrapShr x (W - bits - 1) &&& 1#W) with
      | none => none
      | some y => some (y &&& BitVec.ofNat W mask)
  else none

/-- The same function with overflow checks disabled (release profile): `0x1u32 << plain_bits` shifts by
`plain_bits % 32`. -/
def decodeRelease {W : Nat} (x : BitVec W) (bits : Nat) : Option (BitVec W) :=
  if bits < W then
    some ((wrapShr x (W - bits) + (wrapShr x (W - bits - 1) &&& 1#W)) &&& BitVec.ofNat W (2 ^ (bits % 32) - 1))
  else none

/-- sunscreen_tfhe/src/math/torus.rs:304-314 `switch_modulus_smaller` from `W` to `V ≤ W` bits. -/
def switchModulusSmaller {W : Nat} (V : Nat) (x : BitVec W) : Option (BitVec V) :=
  if V ≤ W then
    let y := x >>> (W - V)
    if y.toNat < 2 ^ V then some (BitVec.ofNat V y.toNat) else none
  else none

/-! ### radix decomposition -/

/-- sunscreen_tfhe/src/params.rs:110-116 `RadixDecomposition`. -/
structure Radix where
  log : Nat
  count : Nat
  deriving Repr, DecidableEq

/-- sunscreen_tfhe/src/params.rs:121-125 `assert_valid`. -/
def Radix.valid (W : Nat) (r : Radix) : Bool := decide (0 < r.count) && decide (0 < r.log) && decide (r.count * r.log ≤ W)

/-- sunscreen_tfhe/src/math/radix.rs:157-163 `round`. The subtractions panic on underflow, the shifts when the amount is
the full width. -/
def radixRound {W : Nat} (x : BitVec W) (r : Radix) : Option (BitVec W) :=
  if r.log * r.count ≤ W then
    let shift := W - r.log * r.count
    if 1 ≤ shift ∧ shift < W then some (x >>> shift + ((x >>> (shift - 1)) &&& 1#W)) else none
  else none

/-- sunscreen_tfhe/src/math/radix.rs:34-47 `get_next_digit` (and simd/scalar.rs:52-72 `vector_next_decomp`, one
coefficient): the digit and the new `cur`. -/
def nextDigit {W : Nat} (cur : BitVec W) (log : Nat) : BitVec W × BitVec W :=
  let mask := BitVec.ofNat W (2 ^ log - 1)
  let digit := cur &&& mask
  let cur := cur >>> log
  let carry := digit >>> (log - 1)
  (digit - carry <<< log, cur + carry)

/-- The digits produced by `k` calls of `next` (radix.rs:49-64). -/
def digitsFrom {W : Nat} (log : Nat) : Nat → BitVec W → List (BitVec W)
  | 0, _ => []
  | k + 1, cur => (nextDigit cur log).1 :: digitsFrom log k (nextDigit cur log).2

/-- sunscreen_tfhe/src/math/radix.rs:22-64: all the digits of `ScalarRadixIterator`, least significant first. -/
def radixDigits {W : Nat} (x : BitVec W) (r : Radix) : Option (List (BitVec W)) :=
  (radixRound x r).map (digitsFrom r.log r.count)

/-- sunscreen_tfhe/src/math/radix.rs:66-106: the digit polynomials of `PolynomialRadixIterator`, least significant
first; every coefficient is decomposed on its own. -/
def polyDigits {W : Nat} (p : List (BitVec W)) (r : Radix) : Option (List (List (BitVec W))) :=
  if r.log * r.count < W ∧ r.log * r.count ≠ 0 then
    match p.mapM (fun x => radixRound x r) with
    | none => none
    | some cur => some ((go r.log r.count cur))
  else none
where
  /-- radix.rs:93-105 `write_next`, repeated. -/
  go (log : Nat) : Nat → List (BitVec W) → List (List (BitVec W))
    | 0, _ => []
    | k + 1, cur => cur.map (fun c => (nextDigit c log).1) :: go log k (cur.map fun c => (nextDigit c log).2)

/-- sunscreen_tfhe/src/math/radix.rs:112-137, the loop of `recompose_and_add` on one coefficient: `dst` accumulates
`digit * cur_radix`, and `cur_radix` is shifted by the radix. -/
def recomposeFrom {W : Nat} (log : Nat) : List (BitVec W) → BitVec W → BitVec W → BitVec W
  | [], _, dst => dst
  | d :: ds, cur, dst => recomposeFrom log ds (cur <<< log) (dst + d * cur)

/-- sunscreen_tfhe/src/math/radix.rs:112-137 `recompose_and_add` on one coefficient. -/
def recomposeAndAdd {W : Nat} (dst : BitVec W) (ds : List (BitVec W)) (r : Radix) : BitVec W :=
  recomposeFrom r.log ds (BitVec.ofNat W (2 ^ (W - r.log * r.count))) dst

/-- sunscreen_tfhe/src/math/radix.rs:141-152 `scale_by_decomposition_factor`: multiply by `q / B^(j+1)`. -/
def scaleByFactor {W : Nat} (val : BitVec W) (j : Nat) (r : Radix) : BitVec W :=
  val * BitVec.ofNat W (2 ^ (W - r.log * (j + 1)))

/-! ### modulus switching -/

/-- sunscreen_tfhe/src/ops/ciphertext/lwe_ciphertext_ops.rs:130-142 `modulus_switch`. -/
def modulusSwitch {W : Nat} (x : BitVec W) (logChi logV logMod : Nat) : Option (BitVec W) :=
  if logMod < W ∧ logChi < W ∧ logV < W ∧ logV ≤ logMod ∧ 1 ≤ logMod - logV then
    let mask := BitVec.ofNat W (2 ^ logMod) - 1#W
    let x := x <<< logChi
    let shift := W - (logMod - logV)
    let round := (x >>> (shift - 1)) &&& 1#W
    let x := x >>> shift
    some (((x + round) &&& mask) <<< logV)
  else none

end Spf.Tfhe
