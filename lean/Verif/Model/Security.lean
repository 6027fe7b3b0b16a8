import Verif.Model.Stats
import Mathlib.Analysis.SpecialFunctions.Pow.Real
/-! Model of the security estimates of `sunscreen_math/src/security.rs`. Simplification: `f64` arithmetic is exact rational arithmetic; `10.0f64.powf` is the real power; `lwe_std_to_security_level` is given the
logarithm `std.log10()` that it computes first (a rational, as every finite `f64`). -/
namespace Spf.Stats

/-- sunscreen_math/src/security.rs:64-81 `evaluate_polynomial_2d`, the inner loop from column `j`. -/
def evalRow (x y : ℚ) (i : Nat) : Nat → List ℚ → ℚ → ℚ
  | _, [], acc => acc
  | j, c :: cs, acc => evalRow x y i (j + 1) cs (acc + c * x ^ i * y ^ j)

/-- sunscreen_math/src/security.rs:64-81 `evaluate_polynomial_2d`, from row `i`. -/
def evalRows (x y : ℚ) : Nat → List (List ℚ) → ℚ → ℚ
  | _, [], acc => acc
  | i, r :: rs, acc => evalRows x y (i + 1) rs (evalRow x y i 0 r acc)

/-- sunscreen_math/src/security.rs:64-81 `evaluate_polynomial_2d`. -/
def evalPoly2d (coeffs : List (List ℚ)) (x y : ℚ) : ℚ := evalRows x y 0 coeffs 0

/-- sunscreen_math/src/security.rs:52-60 `evaluate_polynomial`, from index `i`. -/
def evalPoly (x : ℚ) : Nat → List ℚ → ℚ → ℚ
  | _, [], acc => acc
  | i, c :: cs, acc => evalPoly x (i + 1) cs (acc + c * x ^ i)

/-- The polytope of `lwe_security_level_to_std`, sunscreen_math/src/security.rs:166-176. -/
def levelPolytope : List Half :=
  [⟨(-1, 0), -368⟩, ⟨(1, 0), 2048⟩, ⟨(0, -1), -78⟩, ⟨(0, 1), 130⟩, ⟨(0.05678074392712544, -1), 3.5151045883938177⟩]

/-- The coefficients of `lwe_security_level_to_std`, sunscreen_math/src/security.rs:186-222. -/
def levelCoeffs : List (List ℚ) :=
  [[2.89630547e00, -1.26321873e-01, 2.13993467e-03, -1.49515549e-05, 3.84468453e-08],
   [-5.60568533e-02, 1.33311189e-03, -1.56200244e-05, 8.93067686e-08, -2.00996854e-10],
   [7.39088707e-07, -9.61269520e-08, 2.15766569e-09, -1.82462028e-11, 5.45243818e-14],
   [1.49456164e-09, -4.28264022e-11, 4.30538855e-13, -1.50621118e-15, 0],
   [9.49334890e-14, -2.17539853e-15, 1.22195316e-17, 0, 0]]

/-- sunscreen_math/src/security.rs:165-227 `lwe_security_level_to_std`; `none` = `OutsideConstraintsError`. -/
noncomputable def levelToStd (dim : Nat) (level : ℚ) : Option ℝ :=
  if polyInside levelPolytope ⟨dim, level⟩ then some ((10 : ℝ) ^ ((evalPoly2d levelCoeffs dim level : ℚ) : ℝ)) else none

/-- The polytope of `lwe_std_to_security_level`, sunscreen_math/src/security.rs:248-258. -/
def stdPolytope : List Half :=
  [⟨(-1, 0), -386⟩, ⟨(1, 0), 2048⟩, ⟨(-0.012501482876757172, -1), -0.5040411014606384⟩, ⟨(0.0077927720025765665, 1), 0.7390928205510939⟩, ⟨(0, -1), 17.67⟩]

/-- The coefficients of `lwe_std_to_security_level`, sunscreen_math/src/security.rs:268-331. -/
def stdCoeffs : List (List ℚ) :=
  [[6.90381015e01, 5.02853460e01, 1.94568148e01, 4.20275108e00, 5.70115313e-01, 3.84445029e-02, 1.01123781e-03],
   [5.74446364e-01, 2.16090358e-01, 4.33027422e-02, 5.96469779e-03, 3.47705471e-05, -3.75600129e-05, -1.73396859e-06],
   [1.38947894e-04, -1.97798175e-06, 6.18022031e-06, -8.44553282e-06, -9.87061302e-07, -1.98799589e-08, 7.73239565e-10],
   [-1.76700147e-07, 4.46397961e-08, -8.48859329e-08, -6.50906497e-09, 2.29684491e-10, 2.23006735e-11, 0],
   [2.73798876e-10, -4.27647020e-10, -1.56129840e-12, 5.18444880e-12, 2.50320308e-13, 0, 0],
   [-9.58735744e-13, 1.71390444e-13, 3.36603110e-14, 1.30767385e-15, 0, 0, 0],
   [5.98968287e-16, 7.74296283e-17, 2.66615159e-18, 0, 0, 0, 0]]

/-- sunscreen_math/src/security.rs:245-334 `lwe_std_to_security_level`, given `log_std`; `none` = `OutsideConstraintsError`. -/
def stdToLevel (dim : Nat) (logStd : ℚ) : Option ℚ :=
  if polyInside stdPolytope ⟨dim, logStd⟩ then some (evalPoly2d stdCoeffs dim logStd) else none

end Spf.Stats
