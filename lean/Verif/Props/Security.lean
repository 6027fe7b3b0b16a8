import Verif.Proof.SecurityFloor
/-!
C115: the security estimates `lwe_security_level_to_std`, `lwe_std_to_security_level`. That the polynomials fit the lattice estimator is outside the model; what is proved is what the functions compute from them.
-/
namespace Spf.Props
open Spf.Stats

/-- The value of a polynomial in two variables with coefficients in increasing order of degree: `∑ i j, c i j * x ^ i * y ^ j`. -/
def polyValue (coeffs : List (List ℚ)) (x y : ℚ) : ℚ := (coeffs.zipIdx.map fun (r, i) => (r.zipIdx.map fun (c, j) => c * x ^ i * y ^ j).sum).sum

/-- **C115, evaluation.** `evaluate_polynomial_2d` computes the polynomial, for coefficient matrices of every size. -/
theorem C115_evaluate (coeffs : List (List ℚ)) (x y : ℚ) : evalPoly2d coeffs x y = polyValue coeffs x y := by
  have row : ∀ (i : Nat) (cs : List ℚ) (j : Nat) (acc : ℚ), evalRow x y i j cs acc = acc + ((cs.zipIdx j).map fun (c, j) => c * x ^ i * y ^ j).sum := by
    intro i cs
    induction cs with
    | nil => intro j acc; simp [evalRow]
    | cons c cs ih => intro j acc; rw [evalRow, ih]; simp [List.zipIdx_cons, add_assoc]
  have rows : ∀ (rs : List (List ℚ)) (i : Nat) (acc : ℚ), evalRows x y i rs acc = acc + ((rs.zipIdx i).map fun (r, i) => (r.zipIdx.map fun (c, j) => c * x ^ i * y ^ j).sum).sum := by
    intro rs
    induction rs with
    | nil => intro i acc; simp [evalRows]
    | cons r rs ih => intro i acc; rw [evalRows, ih, row]; simp [List.zipIdx_cons, add_assoc]
  rw [evalPoly2d, rows, zero_add]; rfl

/-- **C115, evaluation** of a polynomial in one variable. -/
theorem C115_evaluate_1d (coeffs : List ℚ) (x : ℚ) : evalPoly x 0 coeffs 0 = (coeffs.zipIdx.map fun (c, i) => c * x ^ i).sum := by
  have h : ∀ (cs : List ℚ) (i : Nat) (acc : ℚ), evalPoly x i cs acc = acc + ((cs.zipIdx i).map fun (c, i) => c * x ^ i).sum := by
    intro cs
    induction cs with
    | nil => intro i acc; simp [evalPoly]
    | cons c cs ih => intro i acc; rw [evalPoly, ih]; simp [List.zipIdx_cons, add_assoc]
  rw [h, zero_add]

private theorem level_inside (d : Nat) (s : ℚ) : polyInside levelPolytope ⟨d, s⟩ = true ↔
    368 ≤ d ∧ d ≤ 2048 ∧ 78 ≤ s ∧ s ≤ 130 ∧ 0.05678074392712544 * d - s ≤ 3.5151045883938177 := by
  simp only [polyInside, levelPolytope, List.all_cons, List.all_nil, Half.inside, Bool.and_true, Bool.and_eq_true, decide_eq_true_eq]
  constructor
  · rintro ⟨h1, h2, h3, h4, h5⟩
    have g1 : (368 : ℚ) ≤ d := by linarith
    have g2 : (d : ℚ) ≤ 2048 := by linarith
    exact ⟨by exact_mod_cast g1, by exact_mod_cast g2, by linarith, by linarith, by linarith⟩
  · rintro ⟨h1, h2, h3, h4, h5⟩
    have g1 : (368 : ℚ) ≤ d := by exact_mod_cast h1
    have g2 : (d : ℚ) ≤ 2048 := by exact_mod_cast h2
    exact ⟨by linarith, by linarith, by linarith, by linarith, by linarith⟩

private theorem std_inside (d : Nat) (y : ℚ) : polyInside stdPolytope ⟨d, y⟩ = true ↔
    386 ≤ d ∧ d ≤ 2048 ∧ 0.5040411014606384 ≤ 0.012501482876757172 * d + y ∧ 0.0077927720025765665 * d + y ≤ 0.7390928205510939 ∧ -17.67 ≤ y := by
  simp only [polyInside, stdPolytope, List.all_cons, List.all_nil, Half.inside, Bool.and_true, Bool.and_eq_true, decide_eq_true_eq]
  constructor
  · rintro ⟨h1, h2, h3, h4, h5⟩
    have g1 : (386 : ℚ) ≤ d := by linarith
    have g2 : (d : ℚ) ≤ 2048 := by linarith
    exact ⟨by exact_mod_cast g1, by exact_mod_cast g2, by linarith, by linarith, by linarith⟩
  · rintro ⟨h1, h2, h3, h4, h5⟩
    have g1 : (386 : ℚ) ≤ d := by exact_mod_cast h1
    have g2 : (d : ℚ) ≤ 2048 := by exact_mod_cast h2
    exact ⟨by linarith, by linarith, by linarith, by linarith, by linarith⟩

private theorem level_some {d : Nat} {s : ℚ} {x : ℝ} (h : levelToStd d s = some x) :
    (368 ≤ d ∧ d ≤ 2048 ∧ 78 ≤ s ∧ s ≤ 130 ∧ 0.05678074392712544 * d - s ≤ 3.5151045883938177) ∧ x = (10 : ℝ) ^ ((evalPoly2d levelCoeffs d s : ℚ) : ℝ) := by
  unfold levelToStd at h
  by_cases hi : polyInside levelPolytope ⟨d, s⟩ = true
  · rw [if_pos hi] at h
    exact ⟨(level_inside d s).1 hi, (Option.some.inj h).symm⟩
  · rw [if_neg hi] at h; cases h

/-- **C115, accepted inputs.** `lwe_security_level_to_std` returns a standard deviation exactly for 368 to 2048 dimensions and 78 to 130 bits of security within the last half space. -/
theorem C115_region (d : Nat) (s : ℚ) : (∃ x, levelToStd d s = some x) ↔
    368 ≤ d ∧ d ≤ 2048 ∧ 78 ≤ s ∧ s ≤ 130 ∧ 0.05678074392712544 * d - s ≤ 3.5151045883938177 := by
  constructor
  · rintro ⟨x, h⟩; exact (level_some h).1
  · intro h
    exact ⟨_, if_pos ((level_inside d s).2 h)⟩

example : ∃ x, levelToStd 637 128 = some x := (C115_region 637 128).2 (by norm_num)

/-- **C115, more security needs more noise.** At every dimension the standard deviation grows with the level, by a factor of at least `10 ^ (0.024 * bits)`. -/
theorem C115_level_monotone (d : Nat) (s t : ℚ) (x y : ℝ) (hx : levelToStd d s = some x) (hy : levelToStd d t = some y) (hst : s < t) :
    x < y ∧ x * (10 : ℝ) ^ (((3 / 125 * (t - s) : ℚ)) : ℝ) ≤ y := by
  obtain ⟨⟨a1, a2, a3, a4, _⟩, rfl⟩ := level_some hx
  obtain ⟨⟨_, _, b3, b4, _⟩, rfl⟩ := level_some hy
  have h := eval_level_mono d s t (by exact_mod_cast a1) (by exact_mod_cast a2) a3 a4 b3 b4 hst.le
  refine ⟨Real.rpow_lt_rpow_of_exponent_lt (by norm_num) ?_, ?_⟩
  · have h1 : evalPoly2d levelCoeffs d s < evalPoly2d levelCoeffs d t := by linarith
    exact_mod_cast h1
  · rw [← Real.rpow_add (by norm_num)]
    apply Real.rpow_le_rpow_of_exponent_le (by norm_num)
    have h1 : evalPoly2d levelCoeffs d s + 3 / 125 * (t - s) ≤ evalPoly2d levelCoeffs d t := by linarith
    exact_mod_cast h1

/-- **C115, a larger dimension needs less noise** for the same level, by a factor of at least `10 ^ (0.0077 * dimensions)`. -/
theorem C115_dimension_monotone (d e : Nat) (s : ℚ) (x y : ℝ) (hx : levelToStd d s = some x) (hy : levelToStd e s = some y) (hde : d < e) :
    y < x ∧ y * (10 : ℝ) ^ (((77 / 10000 * (e - d) : ℚ)) : ℝ) ≤ x := by
  obtain ⟨⟨a1, a2, a3, a4, _⟩, rfl⟩ := level_some hx
  obtain ⟨⟨b1, b2, _, _, _⟩, rfl⟩ := level_some hy
  have hq : (d : ℚ) < e := by exact_mod_cast hde
  have h := eval_dim_mono d e s (by exact_mod_cast a1) (by exact_mod_cast a2) (by exact_mod_cast b1) (by exact_mod_cast b2) a3 a4 hq.le
  refine ⟨Real.rpow_lt_rpow_of_exponent_lt (by norm_num) ?_, ?_⟩
  · have h1 : evalPoly2d levelCoeffs e s < evalPoly2d levelCoeffs d s := by linarith
    exact_mod_cast h1
  · rw [← Real.rpow_add (by norm_num)]
    apply Real.rpow_le_rpow_of_exponent_le (by norm_num)
    have h1 : evalPoly2d levelCoeffs e s + 77 / 10000 * (e - d) ≤ evalPoly2d levelCoeffs d s := by linarith
    exact_mod_cast h1

/-- **C115, the two functions fit together (partial: 79 to 129 bits, from dimension 386 on).** Every standard deviation obtained from a level in that range is accepted by `lwe_std_to_security_level` at the same dimension.
(How close the recovered level is, is not proved.) -/
theorem C115_inverse_accepts_partial (d : Nat) (s : ℚ) (x : ℝ) (hd : 386 ≤ d) (h1 : 79 ≤ s) (h2 : s ≤ 129) (hx : levelToStd d s = some x) :
    ∃ y : ℚ, x = (10 : ℝ) ^ (y : ℝ) ∧ ∃ l, stdToLevel d y = some l := by
  obtain ⟨⟨a1, a2, a3, a4, a5⟩, rfl⟩ := level_some hx
  refine ⟨_, rfl, _, if_pos ((std_inside d _).2 ?_)⟩
  have q1 : (368 : ℚ) ≤ d := by exact_mod_cast a1
  have q2 : (d : ℚ) ≤ 2048 := by exact_mod_cast a2
  have f := eval_floor d s q1 q2 a3 a4 a5
  have l := sec_low d s q1 q2 h1 h2
  have u := sec_high d s q1 q2 h1 h2
  have e := eval_expanded d s
  refine ⟨hd, a2, ?_, ?_, f⟩
  · rw [e]; linarith
  · rw [e]; linarith

/-- non-vacuity -/
example : ∃ x, levelToStd 637 128 = some x ∧ ∃ y : ℚ, x = (10 : ℝ) ^ (y : ℝ) ∧ ∃ l, stdToLevel 637 y = some l := by
  obtain ⟨x, hx⟩ := (C115_region 637 128).2 (by norm_num)
  exact ⟨x, hx, C115_inverse_accepts_partial 637 128 x (by norm_num) (by norm_num) (by norm_num) hx⟩

/-- **C115 is violated for dimensions 368 to 385**: `lwe_std_to_security_level`, documented as valid from 368 dimensions, refuses every standard deviation there (the bound in the code is 386), although
`lwe_security_level_to_std` returns one for every level from 78 to 130. (So `LweDef::security_level` panics on such parameters.) -/
theorem C115_dimension_violated (d : Nat) (h1 : 368 ≤ d) (h2 : d < 386) :
    (∀ y, stdToLevel d y = none) ∧ ∀ s : ℚ, 78 ≤ s → s ≤ 130 → ∃ x, levelToStd d s = some x := by
  constructor
  · intro y
    refine if_neg fun h => ?_
    have := ((std_inside d y).1 h).1
    omega
  · intro s a b
    refine (C115_region d s).2 ⟨h1, by omega, a, b, ?_⟩
    have : (d : ℚ) < 386 := by exact_mod_cast h2
    norm_num; linarith

/-- **C115 is violated at the ends of the range of levels**: at dimension 400, the standard deviations of 78 and of 130 bits (documented as valid) are refused by `lwe_std_to_security_level`. -/
theorem C115_levels_violated : ∀ s ∈ [(78 : ℚ), 130], (∃ x, levelToStd 400 s = some x) ∧ stdToLevel 400 (evalPoly2d levelCoeffs 400 s) = none := by
  intro s hs
  simp only [List.mem_cons, List.not_mem_nil, or_false] at hs
  rcases hs with rfl | rfl
  · refine ⟨(C115_region 400 78).2 (by norm_num), if_neg fun h => ?_⟩
    have h1 := ((std_inside 400 _).1 h).2.2.1
    rw [eval_expanded] at h1
    norm_num at h1
  · refine ⟨(C115_region 400 130).2 (by norm_num), if_neg fun h => ?_⟩
    have h1 := ((std_inside 400 _).1 h).2.2.2.1
    rw [eval_expanded] at h1
    norm_num at h1

/-- **C115 is violated between 1436 and 1472 dimensions**: the documentation restricts the levels only above 1472 dimensions, but 78 bits are refused from 1436 on. -/
theorem C115_constraint_violated (d : Nat) (h1 : 1436 ≤ d) : levelToStd d 78 = none := by
  refine if_neg fun h => ?_
  have := ((level_inside d 78).1 h).2.2.2.2
  have q : (1436 : ℚ) ≤ d := by exact_mod_cast h1
  norm_num at this
  linarith

end Spf.Props
