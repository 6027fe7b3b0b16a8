import Verif.Proof.Goldilocks
/-! C57 (Goldilocks field), C62 (exponentiation), C67 (roots of unity and twiddle tables). Elements are `u64` values;
the canonical representative of `x` is `x % p` with `p = 2 ^ 64 - 2 ^ 32 + 1`. -/
namespace Spf.Props
open Spf.Gold

/-- Specification: the field's modulus. -/
abbrev gp : Nat := 2 ^ 64 - 2 ^ 32 + 1

theorem gp_eq : P = gp := by decide
theorem gp_lt : gp < 2 ^ 64 := by decide

/-- Specification: `r` is the canonical representative of the integer `x`. -/
def Canon (x : ℤ) (r : Nat) : Prop := r < gp ∧ (r : ℤ) = x % (gp : ℤ)

/-- The modulus is prime, so the arithmetic below is that of a field. -/
theorem C57_modulus_prime : Nat.Prime gp := gp_eq ▸ prime_P

/-- **C57 (addition, subtraction).** For canonical operands the results are canonical and exact. -/
theorem C57_add_sub_partial (a b : Nat) (ha : a < gp) (hb : b < gp) :
    Canon (a + b) (add a b) ∧ Canon (a - b) (sub a b) := by
  rw [← gp_eq] at ha hb
  have hp : 0 < P := by decide
  rw [add_eq a b ha hb, sub_eq a b ha hb]
  unfold Canon
  rw [← gp_eq]
  refine ⟨⟨Nat.mod_lt _ hp, by push_cast; rfl⟩, Nat.mod_lt _ hp, ?_⟩
  rw [Int.natCast_mod, Nat.cast_add, Nat.cast_sub hb.le]
  rw [show (a : ℤ) + ((P : ℤ) - b) = a - b + P by ring, Int.add_emod_right]

/-- **C57 (multiplication).** Products and multiply-adds are canonical and exact for all 64-bit operands, canonical or
not. -/
theorem C57_mul_mad (a b c : Nat) (ha : a < 2 ^ 64) (hb : b < 2 ^ 64) (hc : c < 2 ^ 64) :
    (∃ r, mul a b = some r ∧ Canon (a * b) r) ∧ (∃ r, mad a b c = some r ∧ Canon (a * b + c) r) := by
  have hp : 0 < P := by decide
  unfold Canon
  rw [← gp_eq]
  exact ⟨⟨_, mul_eq a b ha hb, Nat.mod_lt _ hp, by push_cast; rfl⟩,
    ⟨_, mad_eq a b c ha hb hc, Nat.mod_lt _ hp, by push_cast; rfl⟩⟩

/-- **C57 (reduction).** Reducing the unreduced sum, difference or product of canonical elements gives the canonical
representative; more generally a 96-bit value `hi · 2^64 + lo`. -/
theorem C57_reduce (lo hi : Nat) (hlo : lo < 2 ^ 64) (hhi : hi < 2 ^ 32) :
    ∃ r, (Fg96.mk lo hi).reduce = some r ∧ Canon (hi * 2 ^ 64 + lo) r := by
  have hp : 0 < P := by decide
  unfold Canon
  rw [← gp_eq]
  exact ⟨_, fg96_reduce lo hi hlo hhi, Nat.mod_lt _ hp, by push_cast; rfl⟩

/-- **C57 (wide reduction).** A 159-bit value `lo + mid · 2^64 + hi · 2^96` (`hi` of at most 63 bits, as documented) is
reduced to its canonical representative. -/
theorem C57_reduce_wide (lo mid hi : Nat) (hlo : lo < 2 ^ 64) (hmid : mid < 2 ^ 32) (hhi : hi < 2 ^ 63) :
    ∃ r, (Fg159.mk lo mid hi).reduce = some r ∧ Canon (lo + mid * 2 ^ 64 + hi * 2 ^ 96) r := by
  obtain ⟨r, h1, h2, h3⟩ := fg159_reduce lo mid hi hlo hmid (by unfold P; omega)
  refine ⟨r, h1, gp_eq ▸ h2, ?_⟩
  rw [← gp_eq, ← h3, Int.emod_eq_of_lt (by omega) (by exact_mod_cast h2)]

/-- **C57 (unreduced operations).** The lazily reduced sum and difference of canonical elements reduce to the canonical
representative of the exact result. -/
theorem C57_unreduced (a b : Nat) (ha : a < gp) (hb : b < gp) :
    (∃ r, (unreducedAdd a b).reduce = some r ∧ Canon (a + b) r) ∧
    (∃ u r, unreducedSub a b = some u ∧ u.reduce = some r ∧ Canon (a - b) r) := by
  have hlt := gp_lt
  have key : ∀ x y : Nat, x ≤ gp → y ≤ gp → ∃ r, (unreducedAdd x y).reduce = some r ∧ Canon (x + y) r := by
    intro x y hx hy
    obtain ⟨r, h1, h2⟩ := C57_reduce (wadd x y) (if x + y ≥ W then 1 else 0) (Nat.mod_lt _ (by decide)) (by split <;> omega)
    refine ⟨r, h1, ?_⟩
    have e : (((if x + y ≥ W then 1 else 0 : Nat) : ℤ) * 2 ^ 64 + (wadd x y : ℤ)) = x + y := by
      unfold wadd W
      split <;> omega
    rw [e] at h2
    exact h2
  refine ⟨key a b ha.le hb.le, ?_⟩
  obtain ⟨r, h1, h2, h3⟩ := key a (gp - b) ha.le (by omega)
  refine ⟨_, r, ?_, h1, h2, ?_⟩
  · rw [unreducedSub, gp_eq, if_neg (by omega)]
  · rw [h3, Nat.cast_sub hb.le, show (a : ℤ) + ((gp : ℤ) - b) = a - b + gp by ring, Int.add_emod_right]

/-- **C57 (negation, constructor).** Both are exact and canonical except at one input each: negation for every canonical
element but zero, the constructor for every 64-bit word but `p` itself. -/
theorem C57_neg_new_partial (a : Nat) :
    (a < gp → a ≠ 0 → ∃ r, neg a = some r ∧ Canon (-a) r) ∧ (a < 2 ^ 64 → a ≠ gp → Canon a (new a)) := by
  have hg : gp = 18446744069414584321 := by decide
  constructor
  · intro h h0
    refine ⟨gp - a, by rw [neg, gp_eq, if_neg (by omega)], by omega, ?_⟩
    rw [Nat.cast_sub h.le]
    rw [← Int.add_emod_right, Int.emod_eq_of_lt] <;> omega
  · intro h h0
    unfold new Canon
    rw [gp_eq]
    split
    · refine ⟨by omega, ?_⟩
      rw [Nat.cast_sub (by omega), ← Int.sub_emod_right, Int.emod_eq_of_lt] <;> omega
    · refine ⟨by omega, ?_⟩
      rw [Int.emod_eq_of_lt] <;> omega

/-- **C57 is violated at the two excluded inputs.** `-0` and `Fg::new(p)` are the word `p`: congruent to zero, but not
the canonical zero, so they compare unequal to it (`PartialEq` is derived) and `vartime_is_zero` denies them. -/
theorem C57_violated :
    neg 0 = some gp ∧ ¬ Canon 0 gp ∧ new gp = gp ∧ neg 0 ≠ some (sub 0 0) := by
  refine ⟨by decide, ?_, by decide, by decide⟩
  intro h
  exact absurd h.1 (by decide)

/-- Adding such a non-canonical zero can leave the canonical range: `p + 0` is reduced, but a sum of two is not exact
(`p + p` gives `p`). -/
theorem C57_noncanonical_operands : add gp 0 = 0 ∧ add gp gp = gp := by decide

/-- **C57 (inverse).** Every non-zero canonical element times its inverse is one. -/
theorem C57_inverse (a : Nat) (ha : a < gp) (h0 : a ≠ 0) :
    ∃ b, inverse a = some b ∧ b < gp ∧ mul a b = some 1 := by
  have hlt := gp_lt
  rw [← gp_eq] at ha hlt ⊢
  obtain ⟨b, h1, h2, h3⟩ := inverse_eq a ha h0
  exact ⟨b, h1, h2, by rw [mul_eq a b (by omega) (by omega), h3]⟩

example : ∃ b, inverse 7 = some b ∧ mul 7 b = some 1 ∧ b ≠ 7 := by
  obtain ⟨b, h1, _, h3⟩ := C57_inverse 7 (by decide) (by decide)
  exact ⟨b, h1, h3, by rintro rfl; exact absurd h3 (by decide)⟩

example : Canon (-1) (gp - 1) ∧ sub 0 1 = gp - 1 := ⟨⟨by decide, by decide⟩, by decide⟩

/-- **C62.** For a base in any monoid and every 64-bit exponent, `pow` returns the exact power. -/
theorem C62_pow {M : Type} [Monoid M] (x : M) (e : Nat) (he : e < 2 ^ 64) :
    pow (1 : M) (fun a b => some (a * b)) 64 x e = some (x ^ e) := by
  obtain ⟨c, h1, _, h3⟩ := powLoop_spec (U := M) (M := M) (fun a b => some (a * b)) id (fun _ => True)
    (fun a b _ _ => ⟨_, rfl, trivial, rfl⟩) e x 64 0 1 x trivial trivial (by simp [Nat.mod_one]) (by simp)
  rw [zero_add, Nat.mod_eq_of_lt he] at h3
  rw [pow, if_neg (by decide), h1, ← h3]
  rfl

/-- **C62 (Goldilocks).** In the Goldilocks field the power of a canonical element is canonical and exact. -/
theorem C62_pow_goldilocks (a e : Nat) (ha : a < gp) (he : e < 2 ^ 64) :
    ∃ r, pow 1 mul 64 a e = some r ∧ Canon (a ^ e) r := by
  refine ⟨_, pow_eq a e (gp_eq ▸ ha) he, ?_⟩
  unfold Canon
  rw [← gp_eq]
  exact ⟨Nat.mod_lt _ (by decide), by push_cast; rfl⟩

/-- The loop always shifts the exponent by up to 63: with an exponent type narrower than 64 bits (the trait admits
them) every call panics under overflow checks. -/
theorem C62_narrow_exponent_panics {M : Type} [Monoid M] (w : Nat) (hw : w < 64) (x : M) (e : Nat) :
    pow (1 : M) (fun a b => some (a * b)) w x e = none := by
  rw [pow, if_pos hw]

example : pow (1 : ℤ) (fun a b => some (a * b)) 64 (-3) 5 = some (-243) := C62_pow (-3 : ℤ) 5 (by decide)

/-- The exact power in the field, for the statements below. -/
theorem root_facts (k : Nat) (hk : k ≤ 32) :
    ∃ w, nthRootOfUnity (2 ^ k) = some w ∧ w < gp ∧ (w : ZMod P) = 12037493425763644479 ^ (2 ^ (32 - k)) := by
  refine ⟨_, root_spec k hk, gp_eq ▸ Nat.mod_lt _ (by decide), ?_⟩
  rw [ZMod.natCast_mod]; push_cast; rfl

/-- **C67 (roots of unity).** For every power of two `n = 2^k` up to `2^32`, the returned element `w` is a primitive
`n`-th root of unity: `w ^ n = 1` and, for `n > 1`, `w ^ (n/2) = -1`. -/
theorem C67_root (k : Nat) (hk : k ≤ 32) :
    ∃ w, nthRootOfUnity (2 ^ k) = some w ∧ w < gp ∧ pow 1 mul 64 w (2 ^ k) = some 1 ∧
      (1 ≤ k → pow 1 mul 64 w (2 ^ (k - 1)) = some (gp - 1)) := by
  obtain ⟨w, h1, h2, h3⟩ := root_facts k hk
  have h2' : w < P := gp_eq ▸ h2
  have hb : ∀ j, j ≤ 32 → (2 : Nat) ^ j < 2 ^ 64 := fun j hj =>
    lt_of_le_of_lt (Nat.pow_le_pow_right (by norm_num) hj) (by norm_num : (2 : Nat) ^ 32 < 2 ^ 64)
  have hmod : ∀ x r : Nat, r < P → ((x : Nat) : ZMod P) = ((r : Nat) : ZMod P) → x % P = r := by
    intro x r hr h
    rw [ZMod.natCast_eq_natCast_iff', Nat.mod_eq_of_lt hr] at h
    exact h
  refine ⟨w, h1, h2, ?_, ?_⟩
  · rw [pow_eq w _ h2' (hb k hk)]
    congr 1
    refine hmod _ _ (by decide) ?_
    push_cast
    rw [h3, ← pow_mul, ← pow_add, show 32 - k + k = 31 + 1 by omega, pow_succ, pow_mul, root_half]
    norm_num
  · intro h
    rw [pow_eq w _ h2' (hb _ (by omega)), ← gp_eq]
    congr 1
    refine hmod _ _ (by decide) ?_
    push_cast
    rw [h3, ← pow_mul, ← pow_add, show 32 - k + (k - 1) = 31 by omega, root_half, Nat.cast_sub (by decide)]
    simp

/-- Requests that are not a power of two panic; a power of two above `2^32` silently gets `1`, which is a root of unity
but not a primitive one. -/
theorem C67_other_sizes (n : Nat) :
    ((∀ k, n ≠ 2 ^ k) → nthRootOfUnity n = none) ∧ (∀ k, 32 < k → nthRootOfUnity (2 ^ k) = some 1) := by
  constructor
  · intro h
    rw [nthRootOfUnity, if_neg (h _)]
  · intro k hk
    rw [nthRootOfUnity, if_pos (by rw [Nat.log2_two_pow]), Nat.div_eq_of_lt, pow_eq _ _ (by decide) (by decide)]
    · rfl
    · exact lt_of_lt_of_le (by norm_num : (0x100000000 : Nat) < 2 ^ 33) (Nat.pow_le_pow_right (by norm_num) (by omega))

theorem mapM_some {α β : Type} {f : α → Option β} {g : α → β} : ∀ {l : List α}, (∀ x ∈ l, f x = some (g x)) →
    l.mapM f = some (l.map g)
  | [], _ => rfl
  | a :: l, h => by
    rw [List.mapM_cons, h a (by simp), mapM_some (fun x hx => h x (by simp [hx]))]; rfl

theorem root_ne_zero (k w : Nat) (h2 : w < P) (hb : 2 ^ k < 2 ^ 64) (h3 : pow 1 mul 64 w (2 ^ k) = some 1) : w ≠ 0 := by
  rintro rfl
  rw [pow_eq 0 _ h2 hb, zero_pow (by positivity), Nat.zero_mod] at h3
  exact absurd (Option.some.inj h3) (by decide)

theorem lt_of_le_32 {x : Nat} (h : x ≤ 2 ^ 32) : x < 2 ^ 64 ∧ x < P := by
  rw [show P = 18446744069414584321 by decide]; omega
theorem lt_of_lt_P {x : Nat} (h : x < P) : x < 2 ^ 64 := by
  rw [show P = 18446744069414584321 by decide] at h; omega

theorem bind_some_eq {α β : Type} {x : Option α} {a : α} {f : α → Option β} (h : x = some a) : (x >>= f) = f a := by
  rw [h]; rfl

theorem ntt_new {n r v ni : Nat} {tw itw : List Nat} (h1 : nthRootOfUnity n = some r) (h2 : inverse r = some v)
    (h3 : (List.range n).mapM (fun i => pow 1 mul 64 r i) = some tw)
    (h4 : (List.range n).mapM (fun i => pow 1 mul 64 v i) = some itw) (h5 : inverse (Gold.new n) = some ni) :
    Ntt.new n = some ⟨tw, itw, ni⟩ := by
  unfold Ntt.new
  refine (bind_some_eq h1).trans ((bind_some_eq h2).trans ((bind_some_eq h3).trans ((bind_some_eq h4).trans
    (bind_some_eq h5))))

theorem twiddle_aux (k w : Nat) (hb : 2 ^ k ≤ 2 ^ 32) (h1 : nthRootOfUnity (2 ^ k) = some w) (h2' : w < P)
    (h3 : pow 1 mul 64 w (2 ^ k) = some 1) :
    ∃ t w, Ntt.new (2 ^ k) = some t ∧ nthRootOfUnity (2 ^ k) = some w ∧
      t.twiddle.length = 2 ^ k ∧ t.invTwiddle.length = 2 ^ k ∧ mul (2 ^ k) t.nInv = some 1 ∧
      ∀ i < 2 ^ k, ∃ x y, t.twiddle[i]? = some x ∧ t.invTwiddle[i]? = some y ∧
        pow 1 mul 64 w i = some x ∧ mul x y = some 1 := by
  generalize hN : 2 ^ k = N at *
  have hN0 : N ≠ 0 := by rw [← hN]; positivity
  have hw0 : w ≠ 0 := root_ne_zero k w h2' (hN ▸ (lt_of_le_32 hb).1) (hN ▸ h3)
  obtain ⟨v, hv1, hv2, hv3⟩ := inverse_eq w h2' hw0
  have hn0 : new N = N := by rw [new, if_neg (Nat.not_lt.2 (lt_of_le_32 hb).2.le)]
  obtain ⟨ni, hn1, hn2, hn3⟩ := inverse_eq N (lt_of_le_32 hb).2 hN0
  have m1 := mapM_some (f := fun i => pow 1 mul 64 w i) (g := fun i => w ^ i % P) (l := List.range N)
    (fun x hx => pow_eq w x h2' (lt_trans (List.mem_range.1 hx) (lt_of_le_32 hb).1))
  have m2 := mapM_some (f := fun i => pow 1 mul 64 v i) (g := fun i => v ^ i % P) (l := List.range N)
    (fun x hx => pow_eq v x hv2 (lt_trans (List.mem_range.1 hx) (lt_of_le_32 hb).1))
  refine ⟨⟨(List.range N).map fun i => w ^ i % P, (List.range N).map fun i => v ^ i % P, ni⟩, w, ?_, h1, ?_⟩
  · exact ntt_new h1 hv1 m1 m2 (hn0.symm ▸ hn1)
  · refine ⟨by simp, by simp, ?_, ?_⟩
    · show mul N ni = some 1
      rw [mul_eq _ _ (lt_of_le_32 hb).1 (lt_of_lt_P hn2), hn3]
    · intro i hi
      refine ⟨w ^ i % P, v ^ i % P, by simp [hi], by simp [hi], pow_eq w i h2' (lt_trans hi (lt_of_le_32 hb).1), ?_⟩
      have q1 := Nat.mod_lt (w ^ i) (show 0 < P by decide)
      have q2 := Nat.mod_lt (v ^ i) (show 0 < P by decide)
      rw [mul_eq _ _ (lt_of_lt_P q1) (lt_of_lt_P q2), ← Nat.mul_mod, ← mul_pow, Nat.pow_mod, hv3, one_pow,
        Nat.mod_eq_of_lt (by decide)]

/-- **C67 (twiddle tables).** For `n = 2^k ≤ 2^32` the transform's tables have `n` entries, `twiddle[i] = w^i` for the
root `w` of `C67_root`, `twiddle[i] · inv_twiddle[i] = 1`, and `n · n_inv = 1`. -/
theorem C67_twiddles (k : Nat) (hk : k ≤ 32) :
    ∃ t w, Ntt.new (2 ^ k) = some t ∧ nthRootOfUnity (2 ^ k) = some w ∧
      t.twiddle.length = 2 ^ k ∧ t.invTwiddle.length = 2 ^ k ∧ mul (2 ^ k) t.nInv = some 1 ∧
      ∀ i < 2 ^ k, ∃ x y, t.twiddle[i]? = some x ∧ t.invTwiddle[i]? = some y ∧
        pow 1 mul 64 w i = some x ∧ mul x y = some 1 := by
  have hb : (2 : Nat) ^ k ≤ 2 ^ 32 := Nat.pow_le_pow_right (by norm_num) hk
  obtain ⟨w, h1, h2, h3, _⟩ := C67_root k hk
  exact twiddle_aux k w hb h1 (gp_eq ▸ h2) h3

example : ∃ w, nthRootOfUnity 4 = some w ∧ pow 1 mul 64 w 4 = some 1 ∧ pow 1 mul 64 w 2 = some (gp - 1) := by
  obtain ⟨w, h1, _, h3, h4⟩ := C67_root 2 (by decide)
  exact ⟨w, h1, h3, h4 (by decide)⟩

end Spf.Props
