import Verif.Model.Poly
import Mathlib.Data.Complex.BigOperators
import Mathlib.Analysis.SpecialFunctions.Complex.Circle
/-! Model of the negacyclic transform, sunscreen_tfhe/src/math/fft/negacyclic/mod.rs, and of the way back to the torus. The
arithmetic is exact: `f64` values are real numbers (integers once they have been rounded), so rounding errors, NaNs and
infinities are not modelled. The library transform of `rustfft` is modelled by its documentation: the unnormalised
discrete Fourier transform. -/
namespace Spf.Fft
open Spf.Tfhe

/-- `x as i64` (or `i32`, ..) for an integral `f64`: saturates (sunscreen_tfhe/src/math/torus.rs:179-186 `from_f64`, with the
reinterpretation as an unsigned number). -/
def fromF64 (W : Nat) (x : Int) : BitVec W :=
  BitVec.ofInt W (if 2 ^ (W - 1) ≤ x then 2 ^ (W - 1) - 1 else if x < -2 ^ (W - 1) then -2 ^ (W - 1) else x)

/-- sunscreen_tfhe/src/math/simd/scalar.rs:101-118 (and x86_64/avx2.rs:107-124): one coefficient of
`vector_mod_pow2_q_f64` with `log2_q = W`. `mod_q` is `val - trunc(val / q) * q`; the division by a power of two and the
fused multiply-add are exact. -/
def modPow2 (W : Nat) (val : Int) : BitVec W :=
  let q : Int := 2 ^ W
  let qDiv2 : Int := 2 ^ (W - 1)
  let ifft := val - Int.tdiv val q * q
  let ifft := if ifft ≥ qDiv2 then ifft - q else if ifft ≤ -qDiv2 then ifft + q else ifft
  fromF64 W ifft

/-- sunscreen_tfhe/src/math/fft/negacyclic/mod.rs:55-62: the twisting factors of `TwistedFft::new(n)`. -/
noncomputable def twist (n : Nat) : List ℂ :=
  (List.range (n / 2)).map fun (x : Nat) => ⟨Real.cos (2 * Real.pi * x / (2 * n)), Real.sin (2 * Real.pi * x / (2 * n))⟩

/-- sunscreen_tfhe/src/math/fft/negacyclic/mod.rs:64-68: `t.powf(-1)`. -/
noncomputable def twistInv (n : Nat) : List ℂ := (twist n).map fun t => t⁻¹

/-- `rustfft`'s forward transform: `X_k = Σ_j x_j e^(-2πi jk / len)`. -/
noncomputable def dftForward (x : List ℂ) : List ℂ :=
  (List.range x.length).map fun (k : Nat) => ∑ j ∈ Finset.range x.length,
    x.getD j 0 * Complex.exp (-(2 * Real.pi * Complex.I * (j * k) / x.length))

/-- `rustfft`'s inverse transform, not normalised: `x_j = Σ_k X_k e^(2πi jk / len)`. -/
noncomputable def dftInverse (x : List ℂ) : List ℂ :=
  (List.range x.length).map fun (j : Nat) => ∑ k ∈ Finset.range x.length,
    x.getD k 0 * Complex.exp (2 * Real.pi * Complex.I * (j * k) / x.length)

/-- sunscreen_tfhe/src/math/simd/scalar.rs:19-23 `complex_twist`. -/
noncomputable def complexTwist (re im : List ℝ) (twist : List ℂ) : List ℂ :=
  List.zipWith (fun (z : ℝ × ℝ) t => (⟨z.1, z.2⟩ : ℂ) * t) (re.zip im) twist

/-- `f64::round`: to the nearest integer, halves away from zero. -/
noncomputable def rustRound (x : ℝ) : Int := if 0 ≤ x then ⌊x + 1 / 2⌋ else ⌈x - 1 / 2⌉

/-- sunscreen_tfhe/src/math/simd/scalar.rs:26-35 `complex_untwist`: `output[i]` and `output[i + len]` are the rounded real and
imaginary parts of `x * (1 / len) * twist_inv[i]`. -/
noncomputable def complexUntwist (ifft twistInv : List ℂ) : List Int :=
  let tmp := List.zipWith (fun x t => x * (1 / (ifft.length : ℂ)) * t) ifft twistInv
  tmp.map (fun z => rustRound z.re) ++ tmp.map (fun z => rustRound z.im)

/-- sunscreen_tfhe/src/math/fft/negacyclic/mod.rs:94-106 `forward` of `TwistedFft::new(n)`. -/
noncomputable def forward (n : Nat) (x : List ℝ) : Option (List ℂ) :=
  if x.length = n / 2 * 2 then
    let h := x.length / 2
    some (dftForward (complexTwist (x.take h) (x.drop h) (twist n)))
  else none

/-- sunscreen_tfhe/src/math/fft/negacyclic/mod.rs:108-121 `reverse` of `TwistedFft::new(n)`. -/
noncomputable def reverse (n : Nat) (data : List ℂ) : Option (List Int) :=
  if data.length = n / 2 then some (complexUntwist (dftInverse data) (twistInv n)) else none

/-- sunscreen_tfhe/src/entities/polynomial.rs:256-275 `fft` into a buffer of `N / 2` points, with the assertion of
negacyclic/mod.rs:15-22 `get_fft` that the degree is at most 4096. Coefficients are read as signed integers. -/
noncomputable def polyFft {W : Nat} (x : List (BitVec W)) : Option (List ℂ) :=
  if isPow2 x.length ∧ x.length = x.length / 2 * 2 ∧ Nat.log2 x.length < 13 then forward x.length (x.map fun c => (c.toInt : ℝ)) else none

/-- sunscreen_tfhe/src/entities/polynomial_fft.rs:78-98 `ifft` into a polynomial of twice the length. -/
noncomputable def polyIfft (W : Nat) (data : List ℂ) : Option (List (BitVec W)) :=
  if isPow2 data.length ∧ Nat.log2 (data.length * 2) < 13 then
    (reverse (data.length * 2) data).map fun l => l.map (modPow2 W)
  else none

/-- sunscreen_tfhe/src/entities/polynomial_fft.rs:105-111 `multiply_add` (simd/scalar.rs:12-16 `complex_mad`; the vector
kernels are in Model/Simd). -/
noncomputable def fftMad (c a b : List ℂ) : List ℂ := List.zipWith (fun c (ab : ℂ × ℂ) => c + ab.1 * ab.2) c (a.zip b)

end Spf.Fft
