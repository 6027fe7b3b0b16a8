import Verif.Model.EncInt
import Verif.Spec.CtNoise
import Verif.Spec.Bits
/-! Specification for encrypted integers: which values fit, and bounds on the random draws. -/
namespace Spf.Spec
open Spf.Fhe Spf.Tfhe Spf.CtExec Spf.EncInt Spf.Fluent

/-- `v` is an unsigned integer of `n ≤ 128` bits, or a two's complement integer of `1 ≤ n ≤ 127` bits (128 signed bits are not usable: `C21_int128_violated`). -/
def Fits : Sign → Nat → BitVec 128 → Prop
  | .unsigned, n, v => n ≤ 128 ∧ v.toNat < 2 ^ n
  | .signed, n, v => 1 ≤ n ∧ n ≤ 127 ∧ -(2 : Int) ^ (n - 1) ≤ v.toInt ∧ v.toInt < (2 : Int) ^ (n - 1)

/-- the integer a `u128` or an `i128` stands for -/
def intOf : Sign → BitVec 128 → Int
  | .unsigned, v => v.toNat
  | .signed, v => v.toInt

/-- the integer with the given bits, least significant first -/
def bitsInt : Sign → List Bool → Int
  | .unsigned, bs => valLE bs
  | .signed, bs => valSigned bs

/-- The draws of a public-key encryption: `u` binary, the noises at most `E`. -/
structure PkDrawsOk {W : Nat} (N E : Nat) (d : PkDraws W) : Prop where
  u : d.u.length = N ∧ ∀ x ∈ d.u, x = 0 ∨ x = 1
  e0 : d.e0.length = N ∧ ∀ x ∈ d.e0, x.toInt.natAbs ≤ E
  e1 : d.e1.length = N ∧ ∀ x ∈ d.e1, x.toInt.natAbs ≤ E

/-- The draws of a public key: any mask, noise at most `E`. -/
structure PkOk {W : Nat} (N E : Nat) (mask e : List (BitVec W)) : Prop where
  mask : mask.length = N
  noise : e.length = N ∧ ∀ x ∈ e, x.toInt.natAbs ≤ E

/-- the noise of a fresh public-key encryption -/
def pkNoise (N E : Nat) : Nat := N * E + E + N * E

/-- The draws of a secret-key encryption: masks of the right shape, noises at most `E`. -/
structure BitDrawsOk {W : Nat} (P : EvalParams) (t : CtType) (E : Nat) (d : BitDraws W) : Prop where
  lweMask : (t = .lwe0 → d.lweMask.length = P.lweDim) ∧ (t = .lwe1 → d.lweMask.length = P.glweSize * P.degree)
  lweNoise : d.lweNoise.natAbs ≤ E
  glweMask : Props.KeyFor d.glweMask P.glweSize P.degree
  glweNoise : NoiseOk P.degree E d.glweNoise
  glevMask : ∀ j, Props.KeyFor (d.glevMask j) P.glweSize P.degree
  glevNoise : ∀ j, NoiseOk P.degree E (d.glevNoise j)
  ggswMask : ∀ i j, Props.KeyFor (d.ggswMask i j) P.glweSize P.degree
  ggswNoise : ∀ i j, NoiseOk P.degree E (d.ggswNoise i j)

end Spf.Spec
