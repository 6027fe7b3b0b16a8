/-! Model of the ring of integers modulo `q` with Barrett multiplication: `sunscreen_math/src/ring/barrett.rs`,
`sunscreen_math/src/ring/mod.rs` and the constants derived in `sunscreen_math_macros/src/lib.rs`. A `Uint<N>` is a
`Nat` below `2 ^ (64 N)`; the limb arithmetic of the `crypto_bigint` crate is taken at its documented meaning. -/
namespace Spf.Zq

/-- Number of values of a `Uint<N>`. -/
def base (N : Nat) : Nat := 2 ^ (64 * N)

/-- `BarrettConfig`, barrett.rs:18-33. -/
structure Config where
  limbs : Nat
  modulus : Nat
  r : Nat
  s : Nat
  t : Nat

/-- `derive_barrett_config`, sunscreen_math_macros/src/lib.rs:66-117: `none` when the macro rejects the modulus or
panics (no limbs, zero modulus, or a constant that does not fit, `emit_limbs`, lib.rs:33-46). Moduli are
non-negative here. -/
def derive (N m : Nat) : Option Config :=
  if N = 0 then none
  else if m > 2 ^ (64 * N - 1) then none
  else if m = 0 then none
  else
    let r := base N / m
    let s := 2 ^ (128 * N) / m - base N * r
    let t := base N - r * m
    if m < base N ∧ r < base N ∧ s < base N ∧ t < base N then some { limbs := N, modulus := m, r, s, t } else none

/-- `Uint::wrapping_sub`. -/
def wsub (N a b : Nat) : Nat := (a + (base N - b)) % base N
/-- `Uint::wrapping_mul`. -/
def wmul (N a b : Nat) : Nat := a * b % base N
/-- `Uint::wrapping_add`. -/
def wadd (N a b : Nat) : Nat := (a + b) % base N
/-- The high half of `Uint::mul_wide`. -/
def mulHi (N a b : Nat) : Nat := a * b / base N

/-- The inner function `reduce` of `barrett_reduce`, barrett.rs:60-64. -/
def condReduce (c : Config) (v : Nat) : Nat :=
  let reduced := wsub c.limbs v c.modulus
  if v < c.modulus then v else reduced

/-- `barrett_reduce`, barrett.rs:57-90. -/
def barrettReduce (c : Config) (xlo xhi : Nat) : Nat :=
  let N := c.limbs
  let asp := wmul N (mulHi N xhi c.s) c.modulus
  let modHi := wmul N xhi c.t
  let modHi := wsub N modHi asp
  let modHi := condReduce c modHi
  let qHi := mulHi N xlo c.r
  let modLo := wsub N xlo (wmul N qHi c.modulus)
  let modLo := condReduce c modLo
  let result := wadd N modLo modHi
  condReduce c result

/-- `mul_mod` of the Barrett backend, barrett.rs:104-107 (`mul_wide` splits the product in two halves). -/
def mulMod (c : Config) (a b : Nat) : Nat := barrettReduce c (a * b % base c.limbs) (a * b / base c.limbs)

/-- `add_mod`, ring/mod.rs:339-341 (`Uint::add_mod` subtracts the modulus when the sum reaches it). -/
def addMod (c : Config) (a b : Nat) : Nat := if a + b ≥ c.modulus then a + b - c.modulus else a + b
/-- `sub_mod`, ring/mod.rs:344-346 (`Uint::sub_mod` adds the modulus when the difference is negative). -/
def subMod (c : Config) (a b : Nat) : Nat := if a < b then a + c.modulus - b else a - b

/-- `Neg for Zq`, ring/mod.rs:566-572. -/
def neg (c : Config) (a : Nat) : Nat := subMod c 0 a

/-- `TryFrom<Uint<N>> for Zq`, ring/mod.rs:588-602. -/
def tryFrom (c : Config) (v : Nat) : Option Nat := if v ≥ c.modulus then none else some v

/-- `From<u64> for Zq`, ring/mod.rs:610-622. -/
def fromU64 (c : Config) (v : Nat) : Nat := v % c.modulus

/-- `From<i64> for Zq`, ring/mod.rs:630-660. -/
def fromI64 (c : Config) (v : Int) : Nat :=
  let abs := v.natAbs
  let negVal := wsub c.limbs c.modulus abs
  (if v < 0 then negVal else abs) % c.modulus

/-- `extend_bigint`, ring/mod.rs:698-710, on little-endian limbs: pads with zero limbs, panics when shrinking. -/
def extendLimbs (N : Nat) (x : List Nat) : Option (List Nat) :=
  if x.length ≤ N then some (x ++ List.replicate (N - x.length) 0) else none

/-- `Field for Zq`, sunscreen_math/src/ring/mod.rs:681-693: the first component of `Uint::inv_odd_mod`, a function of
the crate `crypto_bigint` (first argument here: value, then modulus), is stored without looking at the second one,
which tells whether an inverse exists. -/
def inverse (c : Config) (invOddMod : Nat → Nat → Nat) (a : Nat) : Nat := invOddMod a c.modulus

/-- `Serialize for Zq`, sunscreen_math/src/ring/mod.rs:411-450: the number that is written; `none` is the
`unimplemented!` for more than 16 limbs (and the unreachable zero limbs). -/
def serialize (c : Config) (a : Nat) : Option Nat := if 1 ≤ c.limbs ∧ c.limbs ≤ 16 then some a else none

/-- `Deserialize for Zq`, sunscreen_math/src/ring/mod.rs:452-500: `none` is the panic for more than 16 limbs,
`some none` the error for a number that is not below the modulus. -/
def deserialize (c : Config) (v : Nat) : Option (Option Nat) :=
  if 1 ≤ c.limbs ∧ c.limbs ≤ 16 then some (tryFrom c v) else none

end Spf.Zq
