/-! Model of the Goldilocks field (`sunscreen_tfhe/src/math/goldilocks_field.rs`), of the generic square-and-multiply
(`sunscreen_tfhe/src/math/mod.rs`) and of the twiddle tables of the naive NTT
(`sunscreen_tfhe/src/math/fft/cyclic/mod.rs`). A `u64` is a `Nat` below `2 ^ 64`; every wrapping operation is written
with its reduction. A result `none` stands for a panic of the build with overflow checks. -/
namespace Spf.Gold

/-- `GOLDILOCKS_PRIME`, goldilocks_field.rs:9. -/
def P : Nat := 0xFFFFFFFF00000001

/-- The size of a machine word. -/
def W : Nat := 2 ^ 64

/-- `u64::wrapping_add`. -/
def wadd (a b : Nat) : Nat := (a + b) % W
/-- `u64::wrapping_sub` (operands below `2 ^ 64`). -/
def wsub (a b : Nat) : Nat := (a + (W - b)) % W

/-- `Fg::new`, goldilocks_field.rs:38-44. -/
def new (x : Nat) : Nat := if x > P then x - P else x

/-- `Fg96`, goldilocks_field.rs:199-204. -/
structure Fg96 where
  lo : Nat
  hi : Nat

/-- `Fg159`, goldilocks_field.rs:226-232. -/
structure Fg159 where
  lo : Nat
  mid : Nat
  hi : Nat

/-- `Fg96::reduce`, goldilocks_field.rs:214-223. The shift of `hi` drops the bits above 64; the checked subtraction
panics when that makes it smaller than `hi`. -/
def Fg96.reduce (x : Fg96) : Option Nat :=
  let s := (x.hi * 2 ^ 32) % W
  if s < x.hi then none else
  let prod := s - x.hi
  let res := wadd prod x.lo
  some (if res < prod ∨ res ≥ P then wsub res P else res)

/-- `Fg159::reduce`, goldilocks_field.rs:244-258. -/
def Fg159.reduce (x : Fg159) : Option Nat :=
  let lo2 := wsub x.lo x.hi
  let lo2 := if x.hi > x.lo then wadd lo2 P else lo2
  let s := (x.mid * 2 ^ 32) % W
  if s < x.mid then none else
  let prod := s - x.mid
  let res := wadd lo2 prod
  some (if res < prod ∨ res ≥ P then wsub res P else res)

/-- `From<u128> for Fg159`, goldilocks_field.rs:261-270. -/
def Fg159.ofU128 (r : Nat) : Fg159 where
  lo := r % 2 ^ 64
  mid := (r / 2 ^ 64) % 2 ^ 32
  hi := (r / 2 ^ 96) % 2 ^ 64

/-- `Fg::unreduced_add`, goldilocks_field.rs:46-54. -/
def unreducedAdd (a b : Nat) : Fg96 := { lo := wadd a b, hi := if a + b ≥ W then 1 else 0 }

/-- `Fg::unreduced_sub`, goldilocks_field.rs:56-59. -/
def unreducedSub (a b : Nat) : Option Fg96 := if b > P then none else some (unreducedAdd a (P - b))

/-- `Fg::unreduced_mul`, goldilocks_field.rs:61-66. The product of two 64-bit numbers fits in 128 bits. -/
def unreducedMul (a b : Nat) : Fg159 := .ofU128 (a * b)

/-- `Fg::unreduced_mad`, goldilocks_field.rs:68-74. -/
def unreducedMad (a b c : Nat) : Fg159 := .ofU128 (a * b + c)

/-- `Fg::mad`, goldilocks_field.rs:76-80. -/
def mad (a b c : Nat) : Option Nat := (unreducedMad a b c).reduce

/-- `Add for Fg`, goldilocks_field.rs:89-110. -/
def add (a b : Nat) : Nat :=
  let res := wadd a b
  if a + b ≥ W ∨ res ≥ P then wadd res 0xFFFFFFFF else res

/-- `Mul for Fg`, goldilocks_field.rs:112-120. -/
def mul (a b : Nat) : Option Nat := (unreducedMul a b).reduce

/-- `Sub for Fg`, goldilocks_field.rs:122-138. -/
def sub (a b : Nat) : Nat :=
  let res := wsub a b
  let offset := if b > a then 0xFFFFFFFF else 0
  wsub res offset

/-- `Neg for Fg`, goldilocks_field.rs:140-146. -/
def neg (a : Nat) : Option Nat := if a > P then none else some (P - a)

/-- One pass over the bits of the exponent, `i` counting up: the loop of `Pow::pow`, math/mod.rs:66-78. -/
def powLoop {U : Type} (mul : U → U → Option U) (exp : Nat) : Nat → Nat → U → U → Option U
  | _, 0, result, _ => some result
  | i, n + 1, result, power =>
    (if (exp / 2 ^ i) % 2 = 1 then mul result power else some result).bind fun result =>
    (mul power power).bind fun power => powLoop mul exp (i + 1) n result power

/-- `Pow::pow`, math/mod.rs:59-79, for an exponent type of `w` bits: shifting a `w`-bit integer by `w` or more
panics. `one` and `mul` are the methods of the base type. -/
def pow {U : Type} (one : U) (mul : U → U → Option U) (w : Nat) (x : U) (exp : Nat) : Option U :=
  if w < 64 then none else powLoop mul exp 0 64 one x

/-- `Inverse for Fg`, goldilocks_field.rs:193-197. -/
def inverse (a : Nat) : Option Nat := pow 1 mul 64 a (P - 2)

/-- `RootOfUnity for Fg`, goldilocks_field.rs:19-34; `n` is a `u64`. -/
def nthRootOfUnity (n : Nat) : Option Nat :=
  if n = 2 ^ n.log2 then pow 1 mul 64 12037493425763644479 (0x100000000 / n) else none

/-- `NaiveNtt`, fft/cyclic/mod.rs:62-68. -/
structure Ntt where
  twiddle : List Nat
  invTwiddle : List Nat
  nInv : Nat

/-- `NaiveNtt::<Fg>::new`, fft/cyclic/mod.rs:84-101. -/
def Ntt.new (n : Nat) : Option Ntt := do
  let root ← nthRootOfUnity n
  let invRoot ← inverse root
  let twiddle ← (List.range n).mapM fun i => pow 1 mul 64 root i
  let invTwiddle ← (List.range n).mapM fun i => pow 1 mul 64 invRoot i
  let nInv ← inverse (Gold.new n)
  pure { twiddle, invTwiddle, nInv }

end Spf.Gold
