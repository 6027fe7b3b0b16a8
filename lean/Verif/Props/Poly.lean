import Verif.Proof.PowK
/-!
C46 monomial rotation, C47 polynomial multiplication, C48 the map `X ↦ X^k`.  `cls N p` is the class of the polynomial
with coefficient list `p` in Mathlib's `R[X]/(X^N + 1)`, `xcls N` the class of `X`.  The theorems hold over every
commutative ring of coefficients, in particular `BitVec 32` and `BitVec 64` (wrapping machine arithmetic).
-/
namespace Spf.Props
open Spf.Spec Spf.Tfhe Polynomial
variable {R : Type} [CommRing R]

/-- The class determines the coefficients, so the equations below determine the outputs completely. -/
theorem cls_determines (N : Nat) (a b : List R) (ha : a.length = N) (hb : b.length = N) : cls N a = cls N b ↔ a = b :=
  ⟨cls_inj N a b ha hb, fun h => by rw [h]⟩

/-- **C46.** Rotating by any integer `d` multiplies by `X^d` (for negative `d`: the result times `X^|d|` is the input). -/
theorem C46_rotation (p : List R) (d : Int) (hp : p ≠ []) :
    ∃ q, mulByMonomial p d = some q ∧ q.length = p.length ∧
      (0 ≤ d → cls p.length q = xcls p.length ^ d.toNat * cls p.length p) ∧
      (d < 0 → xcls p.length ^ (-d).toNat * cls p.length q = cls p.length p) := by
  rw [mulByMonomial]
  split
  · rename_i h
    obtain ⟨q, h1, h2, h3⟩ := mulByNegMonomial_spec p d.natAbs hp
    refine ⟨q, h1, h2, by omega, fun _ => ?_⟩
    rw [show (-d).toNat = d.natAbs by omega]; exact h3
  · rename_i h
    obtain ⟨q, h1, h2, h3⟩ := mulByPosMonomial_spec p d.natAbs hp
    refine ⟨q, h1, h2, fun _ => ?_, by omega⟩
    rw [show d.toNat = d.natAbs by omega]; exact h3

/-- a concrete case: `X^5 * (1 + 2X + 3X² + 4X³) = 4 - X - 2X² - 3X³` for `N = 4`, and rotation by -1 -/
example : mulByMonomial [1#64, 2, 3, 4] 5 = some [4#64, -1, -2, -3] ∧
    mulByMonomial [1#64, 2, 3, 4] (-1) = some [2#64, 3, 4, -1] := by decide

private theorem rot_general (p q : List R) (d : Int) (a b : Nat) (hp : p ≠ []) (hd : d = a - b) (h : mulByMonomial p d = some q) :
    q.length = p.length ∧ xcls p.length ^ b * cls p.length q = xcls p.length ^ a * cls p.length p := by
  obtain ⟨q', h1, h2, h3, h4⟩ := C46_rotation p d hp
  rw [h] at h1
  obtain rfl := Option.some.inj h1
  refine ⟨h2, ?_⟩
  rcases Int.lt_or_le d 0 with hneg | hpos
  · rw [← h4 hneg, ← mul_assoc, ← pow_add]; congr 2; omega
  · rw [h3 hpos, ← mul_assoc, ← pow_add]; congr 2; omega

theorem xpow_cancel {N : Nat} (hN : 0 < N) (m : Nat) (u v : Nega R N) (h : xcls N ^ m * u = xcls N ^ m * v) : u = v := by
  have hunit : (xcls N ^ (2 * N - 1) * xcls N : Nega R N) = 1 := by
    rw [← pow_succ, show 2 * N - 1 + 1 = N * 2 by omega, pow_mul, xcls_pow]; ring
  have : ∀ w : Nega R N, (xcls N ^ (2 * N - 1)) ^ m * (xcls N ^ m * w) = w := by
    intro w; rw [← mul_assoc, ← mul_pow, hunit, one_pow, one_mul]
  rw [← this u, h, this v]

/-- **C46, composition.** Rotating by `d` and then by `e` is rotating by `d + e`. -/
theorem C46_compose (p q : List R) (d e : Int) (hp : p ≠ []) (h : mulByMonomial p d = some q) :
    mulByMonomial q e = mulByMonomial p (d + e) := by
  have hlen : 0 < p.length := List.length_pos_iff.mpr hp
  obtain ⟨a, b, hd⟩ : ∃ a b : Nat, d = a - b := ⟨d.toNat, (-d).toNat, by omega⟩
  obtain ⟨a', b', he⟩ : ∃ a b : Nat, e = a - b := ⟨e.toNat, (-e).toNat, by omega⟩
  obtain ⟨hl1, h1⟩ := rot_general p q d a b hp hd h
  have hq : q ≠ [] := by rw [← List.length_pos_iff]; omega
  obtain ⟨r, hr, -, -⟩ := C46_rotation q e hq
  obtain ⟨s, hs, -, -⟩ := C46_rotation p (d + e) hp
  obtain ⟨hl2, h2⟩ := rot_general q r e a' b' hq he hr
  obtain ⟨hl3, h3⟩ := rot_general p s (d + e) (a + a') (b + b') hp (by push_cast; omega) hs
  rw [hr, hs]
  congr 1
  rw [hl1] at h2
  refine cls_inj p.length r s (by omega) hl3 (xpow_cancel hlen (b + b') _ _ ?_)
  rw [h3, pow_add, mul_assoc, h2, mul_left_comm, h1, ← mul_assoc, ← pow_add, Nat.add_comm a' a]

/-- **C46, inverse.** Rotation by `-d` undoes rotation by `d`. -/
theorem C46_inverse (p q : List R) (d : Int) (hp : p ≠ []) (h : mulByMonomial p d = some q) : mulByMonomial q (-d) = some p := by
  rw [C46_compose p q d (-d) hp h, Int.add_right_neg]
  have hlen : 0 < p.length := List.length_pos_iff.mpr hp
  simp [mulByMonomial, mulByPosMonomial, show p.length ≠ 0 by omega]

/-- **C47.** For every power-of-two length the multiply-accumulate succeeds and computes `c + a * b` in
`R[X]/(X^N + 1)`. -/
theorem C47_mad (k : Nat) (c a b : List R) (hc : c.length = 2 ^ k) (ha : a.length = 2 ^ k) (hb : b.length = 2 ^ k) :
    ∃ q, polyMad c a b = some q ∧ q.length = 2 ^ k ∧ cls (2 ^ k) q = cls (2 ^ k) c + cls (2 ^ k) a * cls (2 ^ k) b :=
  polyMad_spec c a b (isPow2_iff.mpr ⟨k, rfl⟩) hc ha hb

/-- a concrete case: `(1 + 2X)(3 + 4X) = 3 + 10X + 8X² = -5 + 10X` for `N = 2` -/
example : polyMad [0#32, 0] [1, 2] [3, 4] = some [-5, 10] := by decide

/-- **C47, refusals.** Lengths that differ or are not a power of two are refused. -/
theorem C47_refusals (c a b : List R) (h : (¬ ∃ k, a.length = 2 ^ k) ∨ a.length ≠ b.length ∨ a.length ≠ c.length) :
    polyMad c a b = none := by
  rw [polyMad, if_neg]
  rintro ⟨h1, h2, h3⟩
  rcases h with h | h | h
  · exact h (isPow2_iff.mp h1)
  · exact h h2
  · exact h h3

example : ¬ ∃ k, [1#32, 2, 3].length = 2 ^ k := by
  rintro ⟨k, hk⟩
  rcases k with _ | _ | k
  · simp at hk
  · simp at hk
  · simp only [List.length_cons, List.length_nil] at hk; rw [Nat.pow_add] at hk; omega

/-- **C48.** For odd `k` and power-of-two length, whatever the output buffer held before, the result is `P(X^k)` modulo
`X^N + 1`; in particular every coefficient of the buffer is set. -/
theorem C48_pow_k (n : Nat) (pk p : List R) (k : Nat) (hk : k % 2 = 1) (hp : p.length = 2 ^ n) (hpk : pk.length = 2 ^ n) :
    ∃ q, polyPowK pk p k = some q ∧ q.length = 2 ^ n ∧ cls (2 ^ n) q = AdjoinRoot.mk _ ((toPoly p).comp (X ^ k)) := by
  obtain ⟨q, h1, h2, h3⟩ := polyPowK_spec pk p k hk (by omega) (isPow2_iff.mpr ⟨n, hp⟩)
  rw [hp] at h2 h3
  exact ⟨q, h1, h2, h3⟩

/-- a concrete case with a dirty buffer -/
example : polyPowK [77#64, 77, 77, 77] [1, 2, 3, 4] 3 = some [1#64, 4, -3, 2] := by decide

/-- for even `k` stale buffer contents survive (this is why `k` must be odd) -/
theorem C48_even_keeps_stale_contents : ∃ q, polyPowK [77#64, 77, 77, 77] [1, 2, 3, 4] 2 = some q ∧ 77#64 ∈ q :=
  ⟨_, rfl, by decide⟩

private theorem comp_congr (N k : Nat) (hk : k % 2 = 1) (f g : R[X]) (h : AdjoinRoot.mk (X ^ N + 1) f = AdjoinRoot.mk (X ^ N + 1) g) :
    AdjoinRoot.mk (X ^ N + 1) (f.comp (X ^ k)) = AdjoinRoot.mk (X ^ N + 1) (g.comp (X ^ k)) := by
  rw [AdjoinRoot.mk_eq_mk] at h ⊢
  obtain ⟨t, ht⟩ := h
  rw [← sub_comp, ht, mul_comp]
  apply Dvd.dvd.mul_right
  rw [add_comp, pow_comp, X_comp, one_comp, ← pow_mul, Nat.mul_comm, pow_mul]
  have := Odd.add_dvd_pow_add_pow (X ^ N : R[X]) 1 (Nat.odd_iff.mpr hk)
  rwa [one_pow] at this

private theorem zeros_cls (n : Nat) : cls (2 ^ n) (List.replicate (2 ^ n) (0 : R)) = 0 := cls_replicate_zero _ _

/-- **C48, multiplicative.** Applying the map to a product (computed by the code) is the product of the mapped factors. -/
theorem C48_mul (n k : Nat) (hk : k % 2 = 1) (a b c a' b' c' z1 z2 z3 : List R) (ha : a.length = 2 ^ n) (hb : b.length = 2 ^ n)
    (hz1 : z1.length = 2 ^ n) (hz2 : z2.length = 2 ^ n) (hz3 : z3.length = 2 ^ n)
    (hc : polyMad (List.replicate (2 ^ n) 0) a b = some c)
    (ha' : polyPowK z1 a k = some a') (hb' : polyPowK z2 b k = some b') (hc' : polyPowK z3 c k = some c') :
    polyMad (List.replicate (2 ^ n) 0) a' b' = some c' := by
  obtain ⟨c1, e1, l1, m1⟩ := C47_mad n (List.replicate (2 ^ n) 0) a b (by simp) ha hb
  rw [hc] at e1; obtain rfl := Option.some.inj e1
  obtain ⟨_, e2, l2, m2⟩ := C48_pow_k n z1 a k hk ha hz1
  rw [ha'] at e2; obtain rfl := Option.some.inj e2
  obtain ⟨_, e3, l3, m3⟩ := C48_pow_k n z2 b k hk hb hz2
  rw [hb'] at e3; obtain rfl := Option.some.inj e3
  obtain ⟨_, e4, l4, m4⟩ := C48_pow_k n z3 c k hk l1 hz3
  rw [hc'] at e4; obtain rfl := Option.some.inj e4
  obtain ⟨c2, e5, l5, m5⟩ := C47_mad n (List.replicate (2 ^ n) 0) a' b' (by simp) l2 l3
  rw [e5]
  congr 1
  apply cls_inj (2 ^ n) _ _ l5 l4
  rw [m5, m4, m2, m3, zeros_cls, zero_add, ← map_mul, ← mul_comp]
  rw [zeros_cls, zero_add] at m1
  refine (comp_congr _ k hk _ _ ?_)
  rw [map_mul]
  exact m1.symm

/-- **C48, additive.** -/
theorem C48_add (n k : Nat) (hk : k % 2 = 1) (a b c a' b' c' z1 z2 z3 : List R) (ha : a.length = 2 ^ n) (hb : b.length = 2 ^ n)
    (hz1 : z1.length = 2 ^ n) (hz2 : z2.length = 2 ^ n) (hz3 : z3.length = 2 ^ n)
    (hc : polyAdd a b = some c) (ha' : polyPowK z1 a k = some a') (hb' : polyPowK z2 b k = some b')
    (hc' : polyPowK z3 c k = some c') : polyAdd a' b' = some c' := by
  rw [polyAdd, if_pos (by omega)] at hc
  obtain rfl := Option.some.inj hc
  obtain ⟨_, e2, l2, m2⟩ := C48_pow_k n z1 a k hk ha hz1
  rw [ha'] at e2; obtain rfl := Option.some.inj e2
  obtain ⟨_, e3, l3, m3⟩ := C48_pow_k n z2 b k hk hb hz2
  rw [hb'] at e3; obtain rfl := Option.some.inj e3
  obtain ⟨_, e4, l4, m4⟩ := C48_pow_k n z3 (List.zipWith (· + ·) a b) k hk (by simp; omega) hz3
  rw [hc'] at e4; obtain rfl := Option.some.inj e4
  rw [polyAdd, if_pos (by omega)]
  congr 1
  apply cls_inj (2 ^ n) _ _ (by simp; omega) l4
  rw [cls_zipWith_add _ _ _ (by omega), m4, m2, m3, ← map_add, ← add_comp]
  refine (comp_congr _ k hk _ _ ?_)
  rw [map_add]
  exact (cls_zipWith_add (2 ^ n) a b (by omega)).symm

/-- the hypotheses are met together -/
example : polyMad (List.replicate (2 ^ 1) 0) [1#64, 2] [3, 4] = some [-5, 10] ∧ polyPowK [0#64, 0] [1, 2] 3 = some [1, -2] ∧
    polyPowK [0#64, 0] [3, 4] 3 = some [3, -4] ∧ polyPowK [0#64, 0] [-5, 10] 3 = some [-5, -10] ∧
    polyAdd [1#64, 2] [3, 4] = some [4, 6] := by decide

end Spf.Props
