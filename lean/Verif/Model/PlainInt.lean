/-!
Model of the plaintext side of the fluent integers: `parasol_runtime/src/fluent/uint.rs`, `int.rs`
(`PlaintextOps` for `u128` and `i128`).  `none` = panic (debug profile: overflowing shifts, negations and
subtractions panic).
-/
namespace Spf.Fluent

/-- `1 << k` on `u128` (uint.rs:22, int.rs:22): shifting by 128 or more panics. -/
def shl1 (k : Nat) : Option (BitVec 128) := if k < 128 then some (1#128 <<< k) else none

/-- uint.rs:21-23 `assert_in_bounds` for `u128` (`bits == 128 ||` short-circuits). -/
def assertInBoundsU (v : BitVec 128) (bits : Nat) : Option Unit :=
  if bits = 128 then some ()
  else
    match shl1 bits with
    | none => none
    | some m => if v.toNat < m.toNat then some () else none

/-- uint.rs:25-28, one step of the fold of `from_bits`: `s | ((x as u128) << i)`. -/
def fromBitsStep (s : BitVec 128) (i : Nat) (x : Bool) : Option (BitVec 128) :=
  if i < 128 then some (s ||| ((if x then 1#128 else 0#128) <<< i)) else none

/-- The fold of uint.rs:25-28 and int.rs:32-35, from position `i` on. -/
def fromBitsAux : Nat → List Bool → BitVec 128 → Option (BitVec 128)
  | _, [], s => some s
  | i, x :: xs, s =>
    match fromBitsStep s i x with
    | none => none
    | some s => fromBitsAux (i + 1) xs s

/-- uint.rs:25-28 `from_bits` for `u128`. -/
def fromBitsU (bits : List Bool) : Option (BitVec 128) := fromBitsAux 0 bits 0#128

/-- uint.rs:30-32 `to_bits` for `u128`: `(*self >> i) & 1 == 1` for `i < len` (a shift by 128 or more panics). -/
def toBitsU (v : BitVec 128) (len : Nat) : Option (List Bool) :=
  if len ≤ 128 then some ((List.range len).map fun i => ((v >>> i) &&& 1#128) == 1#128) else none

/-- int.rs:21-27 `assert_in_bounds` for `i128`: the bounds are computed before `bits == 128` is tested, and negating
`i128::MIN` panics. -/
def assertInBoundsS (v : BitVec 128) (bits : Nat) : Option Unit :=
  if bits = 0 then none
  else
    match shl1 (bits - 1) with
    | none => none
    | some m =>
      let maxVal := m - 1#128
      if m = BitVec.intMin 128 then none
      else
        let minVal := -m
        if bits = 128 ∨ v.toInt ≤ maxVal.toInt then
          if bits = 128 ∨ v.toInt ≥ minVal.toInt then some () else none
        else none

/-- int.rs:40-42: the sign-extension loop `for i in num_bits..128 { val |= sign << i }`. -/
def signExtend (sign : BitVec 128) : Nat → Nat → BitVec 128 → BitVec 128
  | 0, _, v => v
  | k + 1, i, v => signExtend sign k (i + 1) (v ||| (sign <<< i))

/-- int.rs:29-45 `from_bits` for `i128`; `num_bits - 1` is a negative shift amount (panic) when there are no bits. -/
def fromBitsS (bits : List Bool) : Option (BitVec 128) :=
  match fromBitsAux 0 bits 0#128 with
  | none => none
  | some val =>
    if bits.length = 0 then none
    else
      let sign := (val.sshiftRight (bits.length - 1)) &&& 1#128
      some (signExtend sign (128 - bits.length) bits.length val)

/-- int.rs:47-49 `to_bits` for `i128` (arithmetic shifts). -/
def toBitsS (v : BitVec 128) (len : Nat) : Option (List Bool) :=
  if len ≤ 128 then some ((List.range len).map fun i => ((v.sshiftRight i) &&& 1#128) == 1#128) else none

/-- The signedness of a fluent integer (`Unsigned` uint.rs:18, `Signed` int.rs:18). -/
inductive Sign | unsigned | signed
  deriving Repr, DecidableEq

/-- uint.rs:49-58 and int.rs:67-76 `resize_config`: how many bits to keep, how many to append, and whether the appended
bit is the most significant one. The signed `min - 1` underflows (panics) when a width is zero. -/
def resizeConfig : Sign → Nat → Nat → Option (Nat × Nat × Bool)
  | .unsigned, old, new => some (min new old, new - old, false)
  | .signed, old, new => if min new old = 0 then none else some (min new old - 1, new - old + 1, true)

end Spf.Fluent
