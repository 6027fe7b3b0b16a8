import Verif.Model.Fft
import Verif.Proof.PowK
import Mathlib.RingTheory.RootsOfUnity.Complex
import Mathlib.Data.BitVec
import Mathlib.Tactic.FieldSimp
/-! Proofs for the negacyclic transform. -/
namespace Spf.Fft
open Spf.Tfhe Spf.Spec

theorem modPow2_spec {W : Nat} (hW : 0 < W) (v : Int) :
    modPow2 W v = if Int.tmod v (2 ^ W) = -2 ^ (W - 1) then BitVec.ofInt W v - 1#W else BitVec.ofInt W v := by
  have hq : (2 : Int) ^ W = 2 * 2 ^ (W - 1) := by
    rw [← pow_succ', Nat.sub_add_cancel hW]
  have hp : (0 : Int) < 2 ^ (W - 1) := by positivity
  have hdiv : v - Int.tdiv v (2 ^ W) * 2 ^ W = Int.tmod v (2 ^ W) := by
    rw [Int.tmod_def, mul_comm]
  have hlt : Int.tmod v (2 ^ W) < 2 ^ W := Int.tmod_lt_of_pos _ (by positivity)
  have hgt : -2 ^ W < Int.tmod v (2 ^ W) := by
    have := Int.tmod_lt_of_pos (-v) (b := 2 ^ W) (by positivity)
    rw [Int.neg_tmod] at this
    omega
  have hmod : ∃ t : Int, v = Int.tmod v (2 ^ W) + t * 2 ^ W := ⟨Int.tdiv v (2 ^ W), by rw [← hdiv]; ring⟩
  obtain ⟨t, ht⟩ := hmod
  have hof : ∀ (x s : Int), BitVec.ofInt W (x + s * 2 ^ W) = BitVec.ofInt W x := by
    intro x s
    apply BitVec.eq_of_toInt_eq
    simp only [BitVec.toInt_ofInt]
    have : x + s * 2 ^ W = x + ((2 ^ W : Nat) : Int) * s := by push_cast; ring
    rw [this, Int.add_mul_bmod_self_left]
  have hv : BitVec.ofInt W v = BitVec.ofInt W (Int.tmod v (2 ^ W)) := by
    conv_lhs => rw [ht, hof]
  simp only [modPow2, hdiv]
  rw [hv]
  generalize Int.tmod v (2 ^ W) = m at *
  split
  · rename_i h1
    rw [if_neg (by omega), fromF64, if_neg (by omega), if_neg (by omega)]
    have := hof m (-1)
    rw [show m + -1 * 2 ^ W = m - 2 ^ W by ring] at this
    exact this
  · rename_i h1
    split
    · rename_i h2
      split
      · rename_i h3
        rw [fromF64, if_pos (by omega), h3]
        have e : (2 : Int) ^ (W - 1) - 1 = -2 ^ (W - 1) + -1 + 1 * 2 ^ W := by omega
        rw [e, hof, BitVec.ofInt_add]
        rw [BitVec.sub_eq_add_neg]
        congr 1
        rw [BitVec.ofInt_neg]; rfl
      · rename_i h3
        rw [fromF64, if_neg (by omega), if_neg (by omega)]
        have := hof m 1
        rw [one_mul] at this
        exact this
    · rename_i h2
      rw [if_neg (by omega), fromF64, if_neg (by omega), if_neg (by omega)]

theorem rustRound_int (n : Int) : rustRound (n : ℝ) = n := by
  rw [rustRound]
  split
  · rw [Int.floor_eq_iff]; constructor <;> push_cast <;> linarith
  · rw [Int.ceil_eq_iff]; constructor <;> push_cast <;> linarith

/-- `e^(πi/N)`, `N = 2H`: the twisting root. -/
noncomputable def zeta (N : Nat) : ℂ := Complex.exp (2 * Real.pi * Complex.I / (2 * N))

theorem twist_eq (N j : Nat) : (⟨Real.cos (2 * Real.pi * j / (2 * N)), Real.sin (2 * Real.pi * j / (2 * N))⟩ : ℂ) = zeta N ^ j := by
  rw [zeta, ← Complex.exp_nat_mul]
  have : (j : ℂ) * (2 * Real.pi * Complex.I / (2 * N)) = ((2 * Real.pi * j / (2 * N) : ℝ) : ℂ) * Complex.I := by
    push_cast; ring
  rw [this, Complex.exp_mul_I]
  apply Complex.ext <;> simp [← Complex.ofReal_cos, ← Complex.ofReal_sin, -Complex.ofReal_div, -Complex.ofReal_mul]

theorem zeta_half {H : Nat} (hH : 0 < H) : zeta (2 * H) ^ H = Complex.I := by
  rw [zeta, ← Complex.exp_nat_mul]
  have h : (H : ℂ) ≠ 0 := by exact_mod_cast hH.ne'
  have : (H : ℂ) * (2 * Real.pi * Complex.I / (2 * ((2 * H : Nat) : ℂ))) = Real.pi / 2 * Complex.I := by
    push_cast; field_simp
  rw [this, Complex.exp_pi_div_two_mul_I]

/-- the primitive root of the transform -/
noncomputable def rho (H : Nat) : ℂ := Complex.exp (2 * Real.pi * Complex.I / H)

theorem rho_pow (H j : Nat) : Complex.exp (2 * Real.pi * Complex.I * j / H) = rho H ^ j := by
  rw [rho, ← Complex.exp_nat_mul]; ring_nf

theorem rho_mul (H j k : Nat) : Complex.exp (2 * Real.pi * Complex.I * (j * k) / H) = rho H ^ (j * k) := by
  rw [← rho_pow]; push_cast; ring_nf

theorem rho_neg (H j k : Nat) : Complex.exp (-(2 * Real.pi * Complex.I * (j * k) / H)) = (rho H ^ (j * k))⁻¹ := by
  rw [Complex.exp_neg, rho_mul]

theorem rho_ne (H : Nat) : rho H ≠ 0 := Complex.exp_ne_zero _
theorem zeta_ne (H : Nat) : zeta H ≠ 0 := Complex.exp_ne_zero _

theorem rho_one {H : Nat} (hH : 0 < H) : rho H ^ H = 1 := (Complex.isPrimitiveRoot_exp H hH.ne').pow_eq_one

theorem orth {H : Nat} (hH : 0 < H) {j l : Nat} (hj : j < H) (hl : l < H) :
    ∑ k ∈ Finset.range H, (rho H ^ (l * k))⁻¹ * rho H ^ (j * k) = if j = l then (H : ℂ) else 0 := by
  have hp : IsPrimitiveRoot (rho H) H := Complex.isPrimitiveRoot_exp H hH.ne'
  set s := (rho H ^ l)⁻¹ * rho H ^ j with hs
  have e : ∀ k, (rho H ^ (l * k))⁻¹ * rho H ^ (j * k) = s ^ k := by
    intro k; rw [hs, mul_pow, inv_pow, ← pow_mul, ← pow_mul]
  simp only [e]
  split
  · rename_i h
    have : s = 1 := by rw [hs, h]; exact inv_mul_cancel₀ (pow_ne_zero _ (rho_ne H))
    simp [this]
  · rename_i h
    have hne : s ≠ 1 := by
      intro h1
      rw [hs, inv_mul_eq_one₀ (pow_ne_zero _ (rho_ne H))] at h1
      exact h (hp.pow_inj hl hj h1).symm
    have hs1 : s ^ H = 1 := by
      rw [hs, mul_pow, inv_pow, ← pow_mul, ← pow_mul, mul_comm l, mul_comm j, pow_mul, pow_mul, rho_one hH]; simp
    have := mul_geom_sum s H
    rw [hs1, sub_self] at this
    exact (mul_eq_zero.1 this).resolve_left (sub_ne_zero.2 hne)

theorem getD_map_range (f : Nat → ℂ) (n k : Nat) (h : k < n) : ((List.range n).map f).getD k 0 = f k := by
  simp [List.getD, h]

theorem dft_inverse (z : List ℂ) (hz : 0 < z.length) :
    dftInverse (dftForward z) = (List.range z.length).map fun j => (z.length : ℂ) * z.getD j 0 := by
  have hl : (dftForward z).length = z.length := by simp [dftForward]
  rw [dftInverse, hl]
  apply List.map_congr_left
  intro j hj
  have hj := List.mem_range.1 hj
  have e : ∀ k ∈ Finset.range z.length, (dftForward z).getD k 0 * Complex.exp (2 * Real.pi * Complex.I * (j * k) / z.length) =
      ∑ l ∈ Finset.range z.length, z.getD l 0 * ((rho z.length ^ (l * k))⁻¹ * rho z.length ^ (j * k)) := by
    intro k hk
    rw [dftForward, getD_map_range _ _ _ (Finset.mem_range.1 hk), rho_mul, Finset.sum_mul]
    apply Finset.sum_congr rfl
    intro l _
    rw [rho_neg]; ring
  rw [Finset.sum_congr rfl e, Finset.sum_comm]
  have e2 : ∀ l ∈ Finset.range z.length, ∑ k ∈ Finset.range z.length, z.getD l 0 * ((rho z.length ^ (l * k))⁻¹ * rho z.length ^ (j * k)) =
      if j = l then z.getD l 0 * z.length else 0 := by
    intro l hl
    rw [← Finset.mul_sum, orth hz hj (Finset.mem_range.1 hl)]
    split <;> simp
  rw [Finset.sum_congr rfl e2, Finset.sum_ite_eq, if_pos (Finset.mem_range.2 hj), mul_comm]

/-- the folded and twisted sequence -/
theorem complexTwist_eq (H : Nat) (lo hi : List ℝ) (hlo : lo.length = H) (hhi : hi.length = H) :
    complexTwist lo hi (twist (2 * H)) = (List.range H).map fun j =>
      ((lo.getD j 0 : ℂ) + Complex.I * (hi.getD j 0 : ℂ)) * zeta (2 * H) ^ j := by
  apply List.ext_getElem
  · simp [complexTwist, twist, hlo, hhi]
  · intro j h1 h2
    have hj : j < H := by simpa using h2
    simp only [complexTwist, twist, List.getElem_zipWith, List.getElem_zip, List.getElem_map, List.getElem_range, twist_eq]
    congr 1
    simp only [List.getD, List.getElem?_eq_getElem (by omega : j < lo.length), List.getElem?_eq_getElem (by omega : j < hi.length),
      Option.getD_some]
    apply Complex.ext <;> simp

/-- the `k`-th point at which the transform evaluates -/
noncomputable def pt (H k : Nat) : ℂ := zeta (2 * H) * (rho H ^ k)⁻¹

theorem pt_half {H : Nat} (hH : 0 < H) (k : Nat) : pt H k ^ H = Complex.I := by
  rw [pt, mul_pow, zeta_half hH, inv_pow, ← pow_mul, mul_comm k, pow_mul, rho_one hH]; simp

theorem pt_root {H : Nat} (hH : 0 < H) (k : Nat) : pt H k ^ (2 * H) = -1 := by
  rw [mul_comm, pow_mul, pt_half hH]; simp

/-- the transform evaluates the polynomial -/
theorem forward_eval {H : Nat} (hH : 0 < H) (x : List ℝ) (hx : x.length = 2 * H) :
    forward (2 * H) x = some ((List.range H).map fun k => ∑ j ∈ Finset.range (2 * H), (x.getD j 0 : ℂ) * pt H k ^ j) := by
  rw [forward, if_pos (by omega)]
  simp only [hx, show 2 * H / 2 = H by omega]
  rw [complexTwist_eq H _ _ (by simp; omega) (by simp; omega)]
  congr 1
  rw [dftForward]
  simp only [List.length_map, List.length_range]
  apply List.map_congr_left
  intro k hk
  rw [show 2 * H = H + H by ring, Finset.sum_range_add]
  rw [← Finset.sum_add_distrib]
  apply Finset.sum_congr rfl
  intro j hj
  have hj := Finset.mem_range.1 hj
  rw [getD_map_range _ _ _ hj, rho_neg, pow_add, pt_half hH]
  have e1 : (x.take H).getD j 0 = x.getD j 0 := by simp [List.getD, List.getElem?_take, hj]
  have e2 : (x.drop H).getD j 0 = x.getD (H + j) 0 := by simp [List.getD]
  rw [e1, e2, pt, mul_pow, inv_pow, ← pow_mul, mul_comm k j, show H + H = 2 * H by ring]
  ring

/-- going back gives the integers one started from -/
theorem reverse_forward {H : Nat} (hH : 0 < H) (x : List Int) (hx : x.length = 2 * H) (f : List ℂ)
    (hf : forward (2 * H) (x.map fun (c : Int) => (c : ℝ)) = some f) : reverse (2 * H) f = some x := by
  rw [forward, if_pos (by simp [hx]; omega)] at hf
  simp only [List.length_map, hx, show 2 * H / 2 = H by omega] at hf
  rw [complexTwist_eq H _ _ (by simp; omega) (by simp; omega), Option.some_inj] at hf
  subst hf
  rw [reverse, if_pos (by simp [dftForward]), dft_inverse _ (by simpa using hH)]
  congr 1
  simp only [List.length_map, List.length_range]
  have hne : (H : ℂ) ≠ 0 := by exact_mod_cast hH.ne'
  have htmp : List.zipWith (fun (x t : ℂ) => x * (1 / (H : ℂ)) * t)
      ((List.range H).map fun j => (H : ℂ) * ((List.range H).map fun j =>
        (((List.take H (x.map fun (c : Int) => (c : ℝ))).getD j 0 : ℝ) + Complex.I * (((x.map fun (c : Int) => (c : ℝ)).drop H).getD j 0 : ℝ)) *
          zeta (2 * H) ^ j).getD j 0) (twistInv (2 * H)) =
      (List.range H).map fun j => ((x.getD j 0 : ℂ) + Complex.I * (x.getD (H + j) 0 : ℂ)) := by
    apply List.ext_getElem
    · simp [twistInv, twist]
    · intro j h1 h2
      have hj : j < H := by simpa using h2
      simp only [twistInv, twist, List.getElem_zipWith, List.getElem_map, List.getElem_range, twist_eq, getD_map_range _ _ _ hj]
      have hz := pow_ne_zero j (zeta_ne (2 * H))
      have e1 : (((x.map fun (c : Int) => (c : ℝ)).take H).getD j 0 : ℝ) = (x.getD j 0 : ℝ) := by
        simp [List.getD, List.getElem?_take, hj, List.getElem?_eq_getElem (by omega : j < x.length)]
      have e2 : (((x.map fun (c : Int) => (c : ℝ)).drop H).getD j 0 : ℝ) = (x.getD (H + j) 0 : ℝ) := by
        simp [List.getD, List.getElem?_eq_getElem (by omega : H + j < x.length)]
      rw [e1, e2]
      push_cast
      field_simp
  rw [complexUntwist]
  simp only [List.length_map, List.length_range]
  rw [htmp]
  apply List.ext_getElem
  · simp; omega
  · intro i h1 h2
    rw [List.getElem_append]
    split
    · rename_i h
      have hi : i < H := by simpa using h
      simp only [List.getElem_map, List.getElem_range]
      have : ((x.getD i 0 : ℂ) + Complex.I * (x.getD (H + i) 0 : ℂ)).re = ((x.getD i 0 : Int) : ℝ) := by simp
      rw [this, rustRound_int]; simp [List.getD, h2]
    · rename_i h
      have hi : H ≤ i := by simpa using h
      simp only [List.getElem_map, List.getElem_range, List.length_map, List.length_range]
      have : ((x.getD (i - H) 0 : ℂ) + Complex.I * (x.getD (H + (i - H)) 0 : ℂ)).im = ((x.getD (H + (i - H)) 0 : Int) : ℝ) := by simp
      rw [this, rustRound_int, Nat.add_sub_cancel' hi]; simp [List.getD, h2]

/-- evaluation at a root of `X^N + 1` -/
noncomputable def evalAt {R : Type} [CommRing R] (f : R →+* ℂ) (N : Nat) (w : ℂ) (h : w ^ N = -1) : Nega R N →+* ℂ :=
  AdjoinRoot.lift f w (by simp [h])

theorem evalAt_cls {R : Type} [CommRing R] (f : R →+* ℂ) (N : Nat) (w : ℂ) (h : w ^ N = -1) (l : List R) :
    evalAt f N w h (cls N l) = ∑ i ∈ Finset.range l.length, f (l.getD i 0) * w ^ i := by
  rw [cls_eq_sum, map_sum]
  apply Finset.sum_congr rfl
  intro i _
  rw [map_mul, map_pow, evalAt, xcls]
  simp

theorem evalAt_int {H : Nat} (hH : 0 < H) (x : List Int) (hx : x.length = 2 * H) :
    forward (2 * H) (x.map fun (c : Int) => (c : ℝ)) =
      some ((List.range H).map fun k => evalAt (Int.castRingHom ℂ) (2 * H) (pt H k) (pt_root hH k) (cls (2 * H) x)) := by
  rw [forward_eval hH _ (by simpa using hx)]
  congr 1
  apply List.map_congr_left
  intro k _
  rw [evalAt_cls, hx]
  apply Finset.sum_congr rfl
  intro j hj
  have := Finset.mem_range.1 hj
  simp [List.getD, List.getElem?_eq_getElem (by omega : j < x.length)]

/-- multiplication in the frequency domain is the negacyclic product of the integer polynomials -/
theorem fft_mul {H : Nat} (hH : 0 < H) (c a b q : List Int) (hc : c.length = 2 * H) (ha : a.length = 2 * H)
    (hb : b.length = 2 * H) (hq : q.length = 2 * H) (he : cls (2 * H) q = cls (2 * H) c + cls (2 * H) a * cls (2 * H) b) :
    ∃ fc fa fb, forward (2 * H) (c.map fun (c : Int) => (c : ℝ)) = some fc ∧ forward (2 * H) (a.map fun (c : Int) => (c : ℝ)) = some fa ∧
      forward (2 * H) (b.map fun (c : Int) => (c : ℝ)) = some fb ∧ fc.length = H ∧ fa.length = H ∧ fb.length = H ∧
      reverse (2 * H) (fftMad fc fa fb) = some q := by
  refine ⟨_, _, _, evalAt_int hH c hc, evalAt_int hH a ha, evalAt_int hH b hb, by simp, by simp, by simp, ?_⟩
  apply reverse_forward hH q hq
  rw [evalAt_int hH q hq]
  congr 1
  apply List.ext_getElem
  · simp [fftMad]
  · intro k h1 h2
    simp only [fftMad, List.getElem_map, List.getElem_range, List.getElem_zipWith, List.getElem_zip, he, map_add, map_mul]

/-- a ring homomorphism on the coefficients -/
theorem cls_hom {R S : Type} [CommRing R] [CommRing S] (f : R →+* S) (N : Nat) :
    ∃ g : Nega R N →+* Nega S N, ∀ l : List R, g (cls N l) = cls N (l.map f) := by
  refine ⟨AdjoinRoot.lift ((AdjoinRoot.of _).comp f) (xcls N) ?_, ?_⟩
  · have : (xcls N : Nega S N) ^ N = -1 := xcls_pow N
    simp [this]
  · intro l
    rw [cls_eq_sum, cls_eq_sum, map_sum, List.length_map]
    apply Finset.sum_congr rfl
    intro i hi
    have hi := Finset.mem_range.1 hi
    rw [map_mul, map_pow]
    conv_lhs => rw [show (xcls N : Nega R N) = AdjoinRoot.root _ from rfl]
    simp [List.getD, hi]

end Spf.Fft
