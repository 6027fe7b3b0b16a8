import Verif.Proof.Fft
import Verif.Spec.Noise
/-! C91, C92: the negacyclic transform in exact arithmetic. -/
namespace Spf.Props
open Spf.Fft Spf.Tfhe Spf.Spec

/-- **C91, reduction onto the torus.** An integer `v` coming out of the inverse transform is stored as `v` modulo `2^W`, unless the
remainder of its truncated division by `2^W` is `-2^(W-1)` (partial: see `C91_half_violated`). -/
theorem C91_reduce_partial {W : Nat} (hW : 0 < W) (v : Int) (h : Int.tmod v (2 ^ W) ≠ -2 ^ (W - 1)) :
    modPow2 W v = BitVec.ofInt W v := by rw [modPow2_spec hW, if_neg h]

example : modPow2 8 1000 = 232#8 := by decide
example : modPow2 8 (-1000) = 24#8 := by decide
example : modPow2 8 128 = 128#8 := by decide

/-- **C91, the error is at most one.** For every integer, what is stored is `v` or `v - 1` modulo `2^W`, and it is `v - 1`
only for the torus point one half. -/
theorem C91_reduce_near {W : Nat} (hW : 0 < W) (v : Int) :
    modPow2 W v = BitVec.ofInt W v ∨ (BitVec.ofInt W v = BitVec.ofNat W (2 ^ (W - 1)) ∧ modPow2 W v = BitVec.ofInt W v - 1) := by
  rw [modPow2_spec hW]
  split
  · rename_i h
    right
    refine ⟨?_, rfl⟩
    have hq : (2 : Int) ^ W = 2 * 2 ^ (W - 1) := by rw [← pow_succ', Nat.sub_add_cancel hW]
    have hv : v = ((2 ^ (W - 1) : Nat) : Int) + ((2 ^ W : Nat) : Int) * (Int.tdiv v (2 ^ W) - 1) := by
      have := Int.mul_tdiv_add_tmod v (2 ^ W)
      rw [h] at this
      push_cast
      linarith
    apply BitVec.eq_of_toInt_eq
    rw [hv, BitVec.toInt_ofInt, Int.add_mul_bmod_self_left, BitVec.toInt_ofNat']
  · left; rfl

/-- **C91, violated at one half.** Whenever the remainder is `-2^(W-1)` the stored value is one less than `v`: `-q/2` is
moved to `q/2`, which the saturating conversion turns into `q/2 - 1`. For instance `-2^63` becomes `2^63 - 1`. -/
theorem C91_half_violated : (∀ (W : Nat) (_ : 0 < W) (v : Int), Int.tmod v (2 ^ W) = -2 ^ (W - 1) →
      modPow2 W v = BitVec.ofInt W v - 1 ∧ modPow2 W v ≠ BitVec.ofInt W v) ∧
    modPow2 64 (-2 ^ 63) = BitVec.ofNat 64 (2 ^ 63 - 1) ∧ modPow2 64 (2 ^ 63) = BitVec.ofNat 64 (2 ^ 63) := by
  refine ⟨?_, by decide, by decide⟩
  intro W hW v h
  have e : modPow2 W v = BitVec.ofInt W v - 1 := by rw [modPow2_spec hW, if_pos h]; rfl
  refine ⟨e, ?_⟩
  rw [e]
  intro h2
  have h3 : (1 : BitVec W) = 0 := by
    have := congrArg (fun x => BitVec.ofInt W v - x) h2
    simpa using this
  have := congrArg BitVec.toNat h3
  have h1 : (1 : BitVec W).toNat = 1 := by
    show (BitVec.ofNat W 1).toNat = 1
    rw [BitVec.toNat_ofNat, Nat.mod_eq_of_lt (Nat.one_lt_two_pow hW.ne')]
  rw [h1] at this
  exact absurd this (by simp)

/-- The torus point one half. -/
def half (W : Nat) : BitVec W := BitVec.ofNat W (2 ^ (W - 1))

/-- Equal, except that one half may come out one unit lower. -/
def UpToHalf {W : Nat} (x y : BitVec W) : Prop := x = y ∨ (y = half W ∧ x = y - 1)

theorem upToHalf_near {W : Nat} {x y : BitVec W} (h : UpToHalf x y) : Near 1 x y := by
  rcases h with rfl | ⟨_, rfl⟩
  · exact ⟨0, by simp, by simp⟩
  · refine ⟨-1, by simp, ?_⟩
    rw [BitVec.ofInt_neg, BitVec.sub_eq_add_neg]; rfl

theorem log2_two_pow (k : Nat) : Nat.log2 (2 ^ k) = k := Nat.log2_two_pow

theorem polyFft_eq {W : Nat} (k : Nat) (hk : 1 ≤ k ∧ k < 13) (x : List (BitVec W)) (hx : x.length = 2 ^ k) :
    polyFft x = forward (2 ^ k) ((x.map BitVec.toInt).map fun (c : Int) => (c : ℝ)) := by
  obtain ⟨j, rfl⟩ : ∃ j, k = j + 1 := ⟨k - 1, by omega⟩
  rw [polyFft, if_pos ⟨by rw [hx]; exact isPow2_iff.mpr ⟨_, rfl⟩, by rw [hx, pow_succ]; simp, by rw [hx, log2_two_pow]; omega⟩, hx]
  simp [Function.comp_def]

theorem polyIfft_eq (W : Nat) (k : Nat) (hk : k < 12) (f : List ℂ) (hf : f.length = 2 ^ k) :
    polyIfft W f = (reverse (2 ^ (k + 1)) f).map fun l => l.map (modPow2 W) := by
  rw [polyIfft, if_pos ⟨by rw [hf]; exact isPow2_iff.mpr ⟨_, rfl⟩, by rw [hf, ← pow_succ, log2_two_pow]; omega⟩, hf, ← pow_succ]

theorem reduce_list {W : Nat} (hW : 0 < W) (q : List Int) :
    List.Forall₂ UpToHalf (q.map (modPow2 W)) (q.map (BitVec.ofInt W)) := by
  induction q with
  | nil => exact .nil
  | cons v q ih => exact .cons (C91_reduce_near hW v) ih

/-- `Int → BitVec W` as a ring homomorphism. -/
theorem intCast_bv (W : Nat) (v : Int) : (Int.castRingHom (BitVec W)) v = BitVec.ofInt W v := by
  apply BitVec.eq_of_toInt_eq
  rw [eq_intCast, BitVec.toInt_ofInt]
  exact BitVec.toInt_intCast v

theorem map_toInt {W : Nat} (x : List (BitVec W)) : (x.map BitVec.toInt).map (Int.castRingHom (BitVec W)) = x := by
  rw [List.map_map]
  conv_rhs => rw [← List.map_id x]
  apply List.map_congr_left
  intro c _
  rw [Function.comp, intCast_bv, BitVec.ofInt_toInt]; rfl

/-- A sum of products accumulated in the frequency domain (`multiply_add` repeatedly), starting from `acc`. -/
noncomputable def fftDot (acc : List ℂ) (l : List (List ℂ × List ℂ)) : List ℂ := l.foldl (fun acc p => fftMad acc p.1 p.2) acc

/-- The integer element whose values at the points of the transform are listed. -/
def Freq {H : Nat} (hH : 0 < H) (v : Nega Int (2 * H)) (f : List ℂ) : Prop :=
  f = (List.range H).map fun k => evalAt (Int.castRingHom ℂ) (2 * H) (pt H k) (pt_root hH k) v

theorem freq_mad {H : Nat} (hH : 0 < H) {u v w : Nega Int (2 * H)} {fu fv fw : List ℂ} (hu : Freq hH u fu) (hv : Freq hH v fv)
    (hw : Freq hH w fw) : Freq hH (u + v * w) (fftMad fu fv fw) := by
  rw [Freq] at *
  subst hu hv hw
  apply List.ext_getElem
  · simp [fftMad]
  · intro k h1 h2
    simp [fftMad]

theorem freq_dot {H : Nat} (hH : 0 < H) {u : Nega Int (2 * H)} {fu : List ℂ} (hu : Freq hH u fu) :
    ∀ (vs : List (Nega Int (2 * H) × Nega Int (2 * H))) (fs : List (List ℂ × List ℂ)),
    List.Forall₂ (fun v f => Freq hH v.1 f.1 ∧ Freq hH v.2 f.2) vs fs →
    Freq hH (u + (vs.map fun v => v.1 * v.2).sum) (fftDot fu fs)
  | [], [], _ => by simpa [fftDot] using hu
  | v :: vs, f :: fs, h => by
    cases h with
    | cons h1 h2 =>
      have := freq_dot hH (freq_mad hH hu h1.1 h1.2) vs fs h2
      simpa [fftDot, add_assoc] using this

/-- **C92, sums of products through the transform (partial: exact arithmetic, degrees 2 to 4096, one half excepted).** Transform the
polynomials, accumulate any number of products pointwise on top of a transformed polynomial, transform back: the result is the
negacyclic sum of products in `(Z/2^W)[X]/(X^N + 1)`, except that a coefficient that should be one half may come out one unit
lower. -/
theorem C92_fft_dot_partial {W : Nat} (hW : 0 < W) (k : Nat) (hk : 1 ≤ k ∧ k < 13) (c : List (BitVec W)) (hc : c.length = 2 ^ k)
    (l : List (List (BitVec W) × List (BitVec W))) (hl : ∀ p ∈ l, p.1.length = 2 ^ k ∧ p.2.length = 2 ^ k) :
    ∃ fc fl out r, polyFft c = some fc ∧ l.mapM (fun p => (polyFft p.1).bind fun a => (polyFft p.2).map fun b => (a, b)) = some fl ∧
      polyIfft W (fftDot fc fl) = some out ∧ List.Forall₂ UpToHalf out r ∧ r.length = 2 ^ k ∧
      cls (2 ^ k) r = cls (2 ^ k) c + (l.map fun p => cls (2 ^ k) p.1 * cls (2 ^ k) p.2).sum := by
  obtain ⟨j, rfl⟩ : ∃ j, k = j + 1 := ⟨k - 1, by omega⟩
  have hH : 0 < 2 ^ j := by positivity
  have hN : 2 ^ (j + 1) = 2 * 2 ^ j := by rw [pow_succ, mul_comm]
  have hpf : ∀ x : List (BitVec W), x.length = 2 ^ (j + 1) → ∃ f, polyFft x = some f ∧
      Freq hH (cls (2 * 2 ^ j) (x.map BitVec.toInt)) f := by
    intro x hx
    rw [polyFft_eq (j + 1) hk x hx, hN, evalAt_int hH _ (by rw [List.length_map, hx, hN])]
    exact ⟨_, rfl, rfl⟩
  obtain ⟨fc, hfc, hFc⟩ := hpf c hc
  have hfl : ∃ fl, l.mapM (fun p => (polyFft p.1).bind fun a => (polyFft p.2).map fun b => (a, b)) = some fl ∧
      List.Forall₂ (fun v f => Freq hH v.1 f.1 ∧ Freq hH v.2 f.2)
        (l.map fun p => (cls (2 * 2 ^ j) (p.1.map BitVec.toInt), cls (2 * 2 ^ j) (p.2.map BitVec.toInt))) fl := by
    clear hfc hFc
    induction l with
    | nil => exact ⟨[], rfl, .nil⟩
    | cons p l ih =>
      obtain ⟨fl, h1, h2⟩ := ih (fun p hp => hl p (List.mem_cons_of_mem _ hp))
      obtain ⟨hp1, hp2⟩ := hl p List.mem_cons_self
      obtain ⟨f1, e1, g1⟩ := hpf p.1 hp1
      obtain ⟨f2, e2, g2⟩ := hpf p.2 hp2
      refine ⟨(f1, f2) :: fl, ?_, .cons ⟨g1, g2⟩ h2⟩
      rw [List.mapM_cons, h1, e1, e2]; rfl
  obtain ⟨fl, hfl, hFl⟩ := hfl
  have hdot := freq_dot hH hFc _ _ hFl
  -- an integer polynomial with that class
  have hex : ∀ (ps : List (List (BitVec W) × List (BitVec W))) (c : List Int), (∀ p ∈ ps, p.1.length = 2 ^ (j + 1) ∧ p.2.length = 2 ^ (j + 1)) →
      c.length = 2 ^ (j + 1) → ∃ q : List Int, q.length = 2 ^ (j + 1) ∧ cls (2 ^ (j + 1)) q = cls (2 ^ (j + 1)) c +
        ((ps.map fun p => (cls (2 ^ (j + 1)) (p.1.map BitVec.toInt), cls (2 ^ (j + 1)) (p.2.map BitVec.toInt))).map fun v => v.1 * v.2).sum := by
    intro ps
    induction ps with
    | nil => intro c _ hc; exact ⟨c, hc, by simp⟩
    | cons p ps ih =>
      intro c hps hc
      obtain ⟨hp1, hp2⟩ := hps p List.mem_cons_self
      obtain ⟨q, _, hq1, hq2⟩ := polyMad_spec c (p.1.map BitVec.toInt) (p.2.map BitVec.toInt) (isPow2_iff.mpr ⟨j + 1, rfl⟩) hc
        (by simpa using hp1) (by simpa using hp2)
      obtain ⟨q', h1, h2⟩ := ih q (fun p hp => hps p (List.mem_cons_of_mem _ hp)) hq1
      exact ⟨q', h1, by rw [h2, hq2]; simp [add_assoc]⟩
  obtain ⟨q, hq1, hq2⟩ := hex l (c.map BitVec.toInt) hl (by simpa using hc)
  have hrev : reverse (2 ^ (j + 1)) (fftDot fc fl) = some q := by
    rw [hN]
    apply reverse_forward hH q (by rw [hq1, hN])
    rw [evalAt_int hH q (by rw [hq1, hN])]
    congr 1
    rw [hN] at hq2
    rw [hq2]
    exact hdot.symm
  have hlen : (fftDot fc fl).length = 2 ^ j := by
    have := congrArg List.length hdot
    simpa using this
  refine ⟨fc, fl, q.map (modPow2 W), q.map (BitVec.ofInt W), hfc, hfl, ?_, reduce_list hW q, by simpa using hq1, ?_⟩
  · rw [polyIfft_eq W j (by omega) _ hlen, hrev]; rfl
  · obtain ⟨g, hg⟩ := cls_hom (Int.castRingHom (BitVec W)) (2 ^ (j + 1))
    have := congrArg g hq2
    rw [map_add, map_list_sum, hg, hg, map_toInt] at this
    rw [show q.map (BitVec.ofInt W) = q.map (Int.castRingHom (BitVec W)) from List.map_congr_left (fun v _ => (intCast_bv W v).symm), this]
    congr 2
    rw [List.map_map, List.map_map]
    apply List.map_congr_left
    intro p _
    simp only [Function.comp, map_mul, hg, map_toInt]

/-- **C92, a product through the transform (partial, as `C92_fft_dot_partial`).** `c += a * b` computed pointwise on the transforms
agrees with `polynomial_mad`. -/
theorem C92_fft_mul_partial {W : Nat} (hW : 0 < W) (k : Nat) (hk : 1 ≤ k ∧ k < 13) (c a b : List (BitVec W))
    (hc : c.length = 2 ^ k) (ha : a.length = 2 ^ k) (hb : b.length = 2 ^ k) :
    ∃ fc fa fb out r, polyFft c = some fc ∧ polyFft a = some fa ∧ polyFft b = some fb ∧
      polyIfft W (fftMad fc fa fb) = some out ∧ polyMad c a b = some r ∧ List.Forall₂ UpToHalf out r := by
  obtain ⟨fc, fl, out, r, h1, h2, h3, h4, h5, h6⟩ := C92_fft_dot_partial hW k hk c hc [(a, b)] (by simp [ha, hb])
  obtain ⟨q, e1, e2, e3⟩ := polyMad_spec c a b (isPow2_iff.mpr ⟨k, rfl⟩) hc ha hb
  have hqr : q = r := cls_inj _ q r e2 h5 (by rw [e3, h6]; simp)
  subst hqr
  cases hfa : polyFft a with
  | none => simp [hfa] at h2
  | some fa =>
    cases hfb : polyFft b with
    | none => simp [hfa, hfb] at h2
    | some fb =>
      simp [hfa, hfb] at h2
      subst h2
      exact ⟨fc, fa, fb, out, q, h1, rfl, rfl, h3, e1, h4⟩

/-- the hypotheses are met: degree 2, 8-bit coefficients -/
example : ∃ fc fa fb out r, polyFft [0#8, 0#8] = some fc ∧ polyFft [1#8, 2#8] = some fa ∧ polyFft [3#8, 4#8] = some fb ∧
    polyIfft 8 (fftMad fc fa fb) = some out ∧ polyMad [0#8, 0#8] [1#8, 2#8] [3#8, 4#8] = some r ∧ List.Forall₂ UpToHalf out r :=
  C92_fft_mul_partial (by decide) 1 (by decide) _ _ _ rfl rfl rfl
example : polyMad [0#8, 0#8] [1#8, 2#8] [3#8, 4#8] = some [-5, 10] := by decide

/-- **C92, there and back.** For every polynomial of degree 2 to 4096, transforming and transforming back gives the polynomial,
with every coefficient equal to one half lowered by one unit. -/
theorem C92_roundtrip_partial {W : Nat} (hW : 0 < W) (k : Nat) (hk : 1 ≤ k ∧ k < 13) (x : List (BitVec W)) (hx : x.length = 2 ^ k) :
    ∃ f, polyFft x = some f ∧ polyIfft W f = some (x.map fun c => if c = half W then c - 1 else c) := by
  obtain ⟨j, rfl⟩ : ∃ j, k = j + 1 := ⟨k - 1, by omega⟩
  have hH : 0 < 2 ^ j := by positivity
  have hN : 2 ^ (j + 1) = 2 * 2 ^ j := by rw [pow_succ, mul_comm]
  have hx' : (x.map BitVec.toInt).length = 2 * 2 ^ j := by rw [List.length_map, hx, hN]
  have hf := evalAt_int hH _ hx'
  refine ⟨_, by rw [polyFft_eq (j + 1) hk x hx, hN]; exact hf, ?_⟩
  rw [polyIfft_eq W j (by omega) _ (by simp), hN, reverse_forward hH _ hx' _ hf, Option.map_some, List.map_map]
  congr 1
  apply List.map_congr_left
  intro c _
  have hq : (2 : Int) ^ W = 2 * 2 ^ (W - 1) := by rw [← pow_succ', Nat.sub_add_cancel hW]
  have hq' : 2 ^ W = 2 * 2 ^ (W - 1) := by rw [← pow_succ', Nat.sub_add_cancel hW]
  have hp : (0 : Int) < 2 ^ (W - 1) := by positivity
  have h1 := BitVec.two_mul_toInt_lt (x := c)
  have h2 := BitVec.le_two_mul_toInt (x := c)
  rw [Function.comp, modPow2_spec hW, BitVec.ofInt_toInt]
  have hm : Int.tmod c.toInt (2 ^ W) = c.toInt := by
    rcases le_or_gt 0 c.toInt with h | h
    · rw [Int.tmod_eq_emod_of_nonneg h, Int.emod_eq_of_lt h (by omega)]
    · have := Int.tmod_eq_emod_of_nonneg (a := -c.toInt) (b := 2 ^ W) (by omega)
      rw [Int.emod_eq_of_lt (by omega) (by omega), Int.neg_tmod] at this
      omega
  rw [hm]
  have hiff : c.toInt = -2 ^ (W - 1) ↔ c = half W := by
    constructor
    · intro h
      apply BitVec.eq_of_toInt_eq
      rw [h, half, BitVec.toInt_ofNat']
      have : ((2 ^ (W - 1) : Nat) : Int) = -2 ^ (W - 1) + ((2 ^ W : Nat) : Int) * 1 := by push_cast; omega
      rw [this, Int.add_mul_bmod_self_left]
      have hb := BitVec.toInt_bmod_cancel c
      rw [← h]; exact hb.symm
    · intro h
      subst h
      rw [half, BitVec.toInt_ofNat']
      have : ((2 ^ (W - 1) : Nat) : Int) = -2 ^ (W - 1) + ((2 ^ W : Nat) : Int) * 1 := by push_cast; omega
      rw [this, Int.add_mul_bmod_self_left]
      apply Int.bmod_eq_of_le
      · push_cast; rw [hq]; omega
      · push_cast; rw [hq]; omega
  by_cases h : c = half W
  · rw [if_pos (hiff.2 h), if_pos h]; rfl
  · rw [if_neg (fun h' => h (hiff.1 h')), if_neg h]

/-- **C92, violated: one half does not survive the round trip.** The constant polynomial one half over `u64` comes back as
`2^63 - 1`. -/
theorem C92_half_violated : ∃ f, polyFft [BitVec.ofNat 64 (2 ^ 63), 0] = some f ∧
    polyIfft 64 f = some [BitVec.ofNat 64 (2 ^ 63 - 1), 0] := by
  obtain ⟨f, h1, h2⟩ := C92_roundtrip_partial (W := 64) (by decide) 1 (by decide) [BitVec.ofNat 64 (2 ^ 63), 0] rfl
  exact ⟨f, h1, h2⟩

/-- **C92, refusals.** A polynomial of degree 1, or of degree 8192 or more, cannot be transformed, although both are valid
parameters (`GlweDimension::assert_valid`). -/
theorem C92_degree_violated {W : Nat} (x : List (BitVec W)) (h : x.length = 1 ∨ 2 ^ 13 ≤ x.length) : polyFft x = none := by
  rw [polyFft, if_neg]
  rintro ⟨_, h2, h3⟩
  rcases h with h | h
  · omega
  · rw [Nat.log2_lt (by omega)] at h3
    omega

end Spf.Props
