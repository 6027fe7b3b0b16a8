import Verif.Model.Goldilocks
import Mathlib.NumberTheory.LucasPrimality
import Mathlib.FieldTheory.Finite.Basic
import Mathlib.Tactic.NormNum.Prime
import Mathlib.Tactic.Ring
/-! Proofs about the Goldilocks field model. -/
namespace Spf.Gold

theorem mod_of_lt_two {x : Nat} (h : x < 2 * P) : x % P = if x ≥ P then x - P else x := by
  split
  · rw [Nat.mod_eq_sub_mod (by assumption), Nat.mod_eq_of_lt (by omega)]
  · exact Nat.mod_eq_of_lt (by omega)

theorem fg96_reduce (lo hi : Nat) (hlo : lo < 2 ^ 64) (hhi : hi < 2 ^ 32) :
    (Fg96.mk lo hi).reduce = some ((hi * 2 ^ 64 + lo) % P) := by
  have e : hi * 2 ^ 64 + lo = (hi * 2 ^ 32 - hi + lo) + P * hi := by unfold P; omega
  have hs : (hi * 2 ^ 32) % W = hi * 2 ^ 32 := Nat.mod_eq_of_lt (by unfold W; omega)
  rw [e, Nat.add_mul_mod_self_left, mod_of_lt_two (by unfold P; omega)]
  simp only [Fg96.reduce, hs, wadd, wsub]
  rw [if_neg (by omega)]
  congr 1
  unfold W P
  split <;> split <;> omega

theorem fg159_reduce (lo mid hi : Nat) (hlo : lo < 2 ^ 64) (hmid : mid < 2 ^ 32) (hhi : hi < P) :
    ∃ r, (Fg159.mk lo mid hi).reduce = some r ∧ r < P ∧
      (r : ℤ) ≡ (lo : ℤ) + mid * 2 ^ 64 + hi * 2 ^ 96 [ZMOD P] := by
  have hs : (mid * 2 ^ 32) % W = mid * 2 ^ 32 := Nat.mod_eq_of_lt (by unfold W; omega)
  simp only [Fg159.reduce, hs]
  rw [if_neg (by omega)]
  refine ⟨_, rfl, ?_⟩
  obtain ⟨l, hl, hl1, hl2⟩ : ∃ l, (if hi > lo then wadd (wsub lo hi) P else wsub lo hi) = l ∧ l < 2 ^ 64 ∧
      ((l : ℤ) = lo - hi ∨ (l : ℤ) = lo - hi + P) := by
    refine ⟨_, rfl, ?_⟩
    unfold wadd wsub W
    unfold P at *
    split <;> omega
  rw [hl]
  obtain ⟨m, hm⟩ : ∃ m, m = mid * 2 ^ 32 - mid := ⟨_, rfl⟩
  rw [← hm]
  have hm2 : m ≤ 2 ^ 64 - 2 ^ 33 + 1 := by omega
  obtain ⟨k, hk⟩ : ∃ k : ℤ, k = if (m + l) ≥ P then 1 else 0 := ⟨_, rfl⟩
  have hr : ((if wadd l m < m ∨ wadd l m ≥ P then wsub (wadd l m) P else wadd l m : Nat) : ℤ) = m + l - k * P := by
    rw [hk]; unfold wadd wsub W P
    split <;> split <;> push_cast <;> omega
  refine ⟨?_, ?_⟩
  · have : (if (m + l) ≥ P then (1:ℤ) else 0) * P = if (m + l) ≥ P then (P : ℤ) else 0 := by split <;> simp
    rw [hk, this] at hr
    refine Int.ofNat_lt.1 (hr ▸ ?_)
    unfold P; split <;> push_cast <;> omega
  · rw [hr, Int.modEq_iff_dvd]
    have hm3 : (m : ℤ) = mid * 2 ^ 32 - mid := by omega
    rcases hl2 with h | h
    · refine ⟨k + mid + hi * (2 ^ 32 + 1), ?_⟩
      rw [hm3, h]; unfold P; push_cast; ring
    · refine ⟨k + mid + hi * (2 ^ 32 + 1) - 1, ?_⟩
      rw [hm3, h]; unfold P; push_cast; ring

theorem reduce_ofU128 (x : Nat) (hx : x < 2 ^ 128) : (Fg159.ofU128 x).reduce = some (x % P) := by
  obtain ⟨r, h1, h2, h3⟩ := fg159_reduce (x % 2 ^ 64) (x / 2 ^ 64 % 2 ^ 32) (x / 2 ^ 96 % 2 ^ 64) (by omega) (by omega)
    (by unfold P; omega)
  rw [Fg159.ofU128, h1]
  congr 1
  have e : ((x % 2 ^ 64 : Nat) : ℤ) + (x / 2 ^ 64 % 2 ^ 32 : Nat) * 2 ^ 64 + (x / 2 ^ 96 % 2 ^ 64 : Nat) * 2 ^ 96 = (x : ℤ) := by
    omega
  rw [e] at h3
  have := (Int.natCast_modEq_iff.1 h3)
  rw [Nat.ModEq, Nat.mod_eq_of_lt h2] at this
  exact this

theorem mul_eq (a b : Nat) (ha : a < 2 ^ 64) (hb : b < 2 ^ 64) : mul a b = some (a * b % P) :=
  reduce_ofU128 _ (by
    calc a * b < 2 ^ 64 * 2 ^ 64 := Nat.mul_lt_mul'' ha hb
      _ = 2 ^ 128 := by norm_num)

theorem mad_eq (a b c : Nat) (ha : a < 2 ^ 64) (hb : b < 2 ^ 64) (hc : c < 2 ^ 64) : mad a b c = some ((a * b + c) % P) :=
  reduce_ofU128 _ (by
    have : a * b ≤ (2 ^ 64 - 1) * (2 ^ 64 - 1) := Nat.mul_le_mul (by omega) (by omega)
    omega)

theorem add_eq (a b : Nat) (ha : a < P) (hb : b < P) : add a b = (a + b) % P := by
  rw [mod_of_lt_two (by omega)]
  unfold add wadd W; unfold P at *
  dsimp only
  split <;> split <;> omega

theorem sub_eq (a b : Nat) (ha : a < P) (hb : b < P) : sub a b = (a + (P - b)) % P := by
  rw [mod_of_lt_two (by omega)]
  unfold sub wsub W; unfold P at *
  dsimp only
  split <;> split <;> omega

/-! ### Exponentiation -/

theorem powLoop_spec {U M : Type} [Monoid M] (mul : U → U → Option U) (φ : U → M) (I : U → Prop)
    (hmul : ∀ a b, I a → I b → ∃ c, mul a b = some c ∧ I c ∧ φ c = φ a * φ b) (exp : Nat) (b : M) :
    ∀ (n i : Nat) (r pw : U), I r → I pw → φ r = b ^ (exp % 2 ^ i) → φ pw = b ^ (2 ^ i) →
      ∃ c, powLoop mul exp i n r pw = some c ∧ I c ∧ φ c = b ^ (exp % 2 ^ (i + n))
  | 0, i, r, pw, hr, _, hr2, _ => ⟨r, rfl, hr, by simpa using hr2⟩
  | n + 1, i, r, pw, hr, hp, hr2, hp2 => by
    obtain ⟨p', hp', hip', hp2'⟩ := hmul pw pw hp hp
    have hpp : φ p' = b ^ (2 ^ (i + 1)) := by rw [hp2', hp2, ← pow_add]; congr 1; ring
    have hm : exp % 2 ^ (i + 1) = exp % 2 ^ i + 2 ^ i * (exp / 2 ^ i % 2) := by
      rw [pow_succ, Nat.mod_mul]
    by_cases hb : exp / 2 ^ i % 2 = 1
    · obtain ⟨r', hr', hir', hr2'⟩ := hmul r pw hr hp
      have hrr : φ r' = b ^ (exp % 2 ^ (i + 1)) := by
        rw [hr2', hr2, hp2, ← pow_add, hm, hb, mul_one]
      obtain ⟨c, hc⟩ := powLoop_spec mul φ I hmul exp b n (i + 1) r' p' hir' hip' hrr hpp
      refine ⟨c, ?_, hc.2.1, ?_⟩
      · rw [powLoop, if_pos hb, hr', hp']; exact hc.1
      · rw [hc.2.2]; congr 2; ring
    · have hrr : φ r = b ^ (exp % 2 ^ (i + 1)) := by
        rw [hr2, hm, show exp / 2 ^ i % 2 = 0 by omega, mul_zero, add_zero]
      obtain ⟨c, hc⟩ := powLoop_spec mul φ I hmul exp b n (i + 1) r p' hr hip' hrr hpp
      refine ⟨c, ?_, hc.2.1, ?_⟩
      · rw [powLoop, if_neg hb, hp']; exact hc.1
      · rw [hc.2.2]; congr 2; ring

theorem pow_eq (a e : Nat) (ha : a < P) (he : e < 2 ^ 64) : pow 1 mul 64 a e = some (a ^ e % P) := by
  obtain ⟨c, h1, h2, h3⟩ := powLoop_spec (U := Nat) (M := ZMod P) mul (fun x => (x : ZMod P)) (fun x => x < P)
    (by
      intro x y hx hy
      have hx' : x < 2 ^ 64 := by unfold P at hx; omega
      have hy' : y < 2 ^ 64 := by unfold P at hy; omega
      refine ⟨_, mul_eq x y hx' hy', Nat.mod_lt _ (by unfold P; omega), ?_⟩
      simp) e (a : ZMod P) 64 0 1 a (by unfold P; omega) ha
      (by simp [Nat.mod_one]) (by simp)
  have h4 : pow 1 mul 64 a e = some c := by simpa [pow] using h1
  rw [h4]
  rw [Nat.mod_eq_of_lt (by simpa using he)] at h3
  have h5 : ((c : Nat) : ZMod P) = ((a ^ e : Nat) : ZMod P) := by push_cast; exact h3
  rw [ZMod.natCast_eq_natCast_iff', Nat.mod_eq_of_lt h2] at h5
  rw [h5]

/-! ### Primality -/

/-- Modular exponentiation for the kernel. -/
def powMod (m : Nat) : Nat → Nat → Nat → Nat → Nat
  | 0, _, _, acc => acc
  | f + 1, b, e, acc => powMod m f (b * b % m) (e / 2) (if e % 2 = 1 then acc * b % m else acc)

theorem powMod_eq (m : Nat) : ∀ (f b e acc : Nat), e < 2 ^ f → powMod m f b e acc % m = acc * b ^ e % m
  | 0, b, e, acc, h => by
    have : e = 0 := by simpa using h
    subst this; simp [powMod]
  | f + 1, b, e, acc, h => by
    rw [powMod, powMod_eq m f _ _ _ (by rw [pow_succ] at h; omega)]
    have hb : b ^ e = (b * b) ^ (e / 2) * b ^ (e % 2) := by
      rw [← sq, ← pow_mul, ← pow_add, Nat.div_add_mod]
    rw [Nat.mul_mod, Nat.pow_mod, Nat.mod_mod, ← Nat.pow_mod, ← Nat.mul_mod]
    rcases Nat.mod_two_eq_zero_or_one e with h0 | h1
    · rw [h0, pow_zero, mul_one] at hb
      rw [if_neg (by omega), hb]
    · rw [h1, pow_one] at hb
      rw [if_pos h1, hb, Nat.mul_mod, Nat.mod_mod, ← Nat.mul_mod]
      congr 1; ring

theorem pow_mod_eq (a e r : Nat) (he : e < 2 ^ 64) (h : powMod P 64 a e 1 = r) : (a : ZMod P) ^ e = (r : ZMod P) := by
  have := powMod_eq P 64 a e 1 he
  rw [h, one_mul] at this
  have h2 : ((r : Nat) : ZMod P) = ((a ^ e : Nat) : ZMod P) := (ZMod.natCast_eq_natCast_iff' _ _ _).2 this
  rw [h2]; push_cast; rfl

theorem pow_mod_ne_one (a e r : Nat) (he : e < 2 ^ 64) (h : powMod P 64 a e 1 = r) (hr : r % P ≠ 1) :
    (a : ZMod P) ^ e ≠ 1 := by
  rw [pow_mod_eq a e r he h]
  intro h1
  have : ((r : Nat) : ZMod P) = ((1 : Nat) : ZMod P) := by simpa using h1
  rw [ZMod.natCast_eq_natCast_iff'] at this
  exact hr (by rw [this]; rfl)

theorem prime_P : Nat.Prime P := by
  refine lucas_primality P ((7 : Nat) : ZMod P) ?_ ?_
  · rw [pow_mod_eq 7 (P - 1) 1 (by decide) (by decide +kernel)]; simp
  · intro q hq hd
    have e : P - 1 = 2 ^ 32 * (3 * (5 * (17 * (257 * 65537)))) := by decide +kernel
    have hcase : q = 2 ∨ q = 3 ∨ q = 5 ∨ q = 17 ∨ q = 257 ∨ q = 65537 := by
      rw [e, hq.dvd_mul, hq.dvd_mul, hq.dvd_mul, hq.dvd_mul, hq.dvd_mul] at hd
      have pr : ∀ {r : Nat}, r.Prime → q ∣ r → q = r := fun hr h => (Nat.prime_dvd_prime_iff_eq hq hr).1 h
      rcases hd with h | h | h | h | h | h
      · exact Or.inl (pr Nat.prime_two (hq.dvd_of_dvd_pow h))
      · exact Or.inr (Or.inl (pr (by norm_num) h))
      · exact Or.inr (Or.inr (Or.inl (pr (by norm_num) h)))
      · exact Or.inr (Or.inr (Or.inr (Or.inl (pr (by norm_num) h))))
      · exact Or.inr (Or.inr (Or.inr (Or.inr (Or.inl (pr (by norm_num) h)))))
      · exact Or.inr (Or.inr (Or.inr (Or.inr (Or.inr (pr (by norm_num) h)))))
    rcases hcase with rfl | rfl | rfl | rfl | rfl | rfl
    all_goals exact pow_mod_ne_one 7 _ _ (by decide +kernel) rfl (by decide +kernel)

instance : Fact (Nat.Prime P) := ⟨prime_P⟩

theorem inverse_eq (a : Nat) (ha : a < P) (h0 : a ≠ 0) : ∃ b, inverse a = some b ∧ b < P ∧ a * b % P = 1 := by
  refine ⟨_, pow_eq a (P - 2) ha (by decide), Nat.mod_lt _ (by decide), ?_⟩
  have h : ((a * (a ^ (P - 2) % P) : Nat) : ZMod P) = ((1 : Nat) : ZMod P) := by
    have hne : (a : ZMod P) ≠ 0 := by
      intro h
      rw [ZMod.natCast_eq_zero_iff] at h
      exact h0 (Nat.eq_zero_of_dvd_of_lt h ha)
    push_cast [ZMod.natCast_mod]
    rw [← pow_succ', show P - 2 + 1 = P - 1 by decide, ZMod.pow_card_sub_one_eq_one hne]
  rw [ZMod.natCast_eq_natCast_iff'] at h
  rw [h]; rfl

/-! ### Roots of unity -/

theorem root_spec (k : Nat) (hk : k ≤ 32) :
    nthRootOfUnity (2 ^ k) = some (12037493425763644479 ^ (2 ^ (32 - k)) % P) := by
  rw [nthRootOfUnity, if_pos (by rw [Nat.log2_two_pow])]
  rw [show (0x100000000 : Nat) = 2 ^ 32 by norm_num, Nat.pow_div hk (by norm_num)]
  rw [pow_eq _ _ (by decide)]
  calc 2 ^ (32 - k) ≤ 2 ^ 32 := Nat.pow_le_pow_right (by norm_num) (by omega)
    _ < 2 ^ 64 := by norm_num

theorem root_half : (12037493425763644479 : ZMod P) ^ (2 ^ 31) = -1 := by
  have h := pow_mod_eq 12037493425763644479 (2 ^ 31) (P - 1) (by norm_num) (by decide +kernel)
  have e : ((P - 1 : Nat) : ZMod P) = -1 := by
    rw [Nat.cast_sub (by decide)]; simp
  rw [e] at h
  exact_mod_cast h

end Spf.Gold
