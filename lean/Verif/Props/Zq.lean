import Verif.Proof.Zq
import Mathlib.Data.Nat.Prime.Basic
import Mathlib.Data.Int.GCD
import Mathlib.Tactic.NormNum.Prime
/-! C58 (Barrett reduction) and C68 (arithmetic and conversions of the ring of integers modulo `q`). -/
namespace Spf.Props
open Spf.Zq

/-- **C58.** For every limb count and every admissible modulus (`1 < m ≤ 2^(64N-1)`) the configuration is derived, and
reducing any double-width value `hi · 2^(64N) + lo` gives it modulo `m`. -/
theorem C58_barrett (N m : Nat) (hN : 1 ≤ N) (h1 : 1 < m) (h2 : m ≤ 2 ^ (64 * N - 1)) :
    ∃ c, derive N m = some c ∧ ∀ lo hi, lo < 2 ^ (64 * N) → hi < 2 ^ (64 * N) →
      barrettReduce c lo hi = (hi * 2 ^ (64 * N) + lo) % m := by
  obtain ⟨c, hc⟩ := derive_some hN h1 h2
  exact ⟨c, hc, fun lo hi hlo hhi => barrett_eq hc lo hi hlo hhi⟩

/-- **C58 (admissibility).** Every other modulus is rejected when the configuration is derived, at compile time. -/
theorem C58_inadmissible (N m : Nat) (h : ¬(1 ≤ N ∧ 1 < m ∧ m ≤ 2 ^ (64 * N - 1))) : derive N m = none := by
  unfold derive
  by_cases h1 : N = 0
  · rw [if_pos h1]
  rw [if_neg h1]
  by_cases h2 : m > 2 ^ (64 * N - 1)
  · rw [if_pos h2]
  rw [if_neg h2]
  by_cases h3 : m = 0
  · rw [if_pos h3]
  rw [if_neg h3]
  have : m = 1 := by omega
  subst this
  dsimp only
  rw [if_neg]
  rintro ⟨_, hr, _⟩
  rw [Nat.div_one] at hr
  omega

example : ∃ c, derive 1 (2 ^ 63) = some c ∧ barrettReduce c 5 (2 ^ 64 - 1) = 5 := by
  obtain ⟨c, hc, h⟩ := C58_barrett 1 (2 ^ 63) (by decide) (by decide) (by decide)
  exact ⟨c, hc, (h 5 (2 ^ 64 - 1) (by decide) (by decide)).trans (by decide)⟩

/-- Specification: the residue of an integer. -/
def residue (q : Nat) (x : ℤ) : ℤ := x % (q : ℤ)

theorem residue_unique {q r : Nat} {x : ℤ} (h : r < q) (k : ℤ) (e : (r : ℤ) = x + k * q) : (r : ℤ) = residue q x := by
  unfold residue
  have : x = r + q * (-k) := by rw [e]; ring
  rw [this, Int.add_mul_emod_self_left, Int.emod_eq_of_lt (by omega) (by omega)]

/-- **C68 (arithmetic).** For every derivable modulus and all ring elements (values below `q`), sum, difference,
negation and product are ring elements and are the residues of the integer results. -/
theorem C68_arith {N q : Nat} {c : Config} (hc : derive N q = some c) (a b : Nat) (ha : a < q) (hb : b < q) :
    (addMod c a b < q ∧ (addMod c a b : ℤ) = residue q (a + b)) ∧
    (subMod c a b < q ∧ (subMod c a b : ℤ) = residue q (a - b)) ∧
    (neg c a < q ∧ (neg c a : ℤ) = residue q (-a)) ∧
    (mulMod c a b < q ∧ (mulMod c a b : ℤ) = residue q (a * b)) := by
  obtain ⟨hl, hm, h0, h2, -, -, -⟩ := derive_spec hc
  have hsub : ∀ x y : Nat, x < q → y < q → subMod c x y < q ∧ (subMod c x y : ℤ) = residue q (x - y) := by
    intro x y hx hy
    unfold subMod
    rw [hm]
    split
    · have : x + q - y < q := by omega
      exact ⟨this, residue_unique this 1 (by omega)⟩
    · have : x - y < q := by omega
      exact ⟨this, residue_unique this 0 (by omega)⟩
  refine ⟨?_, hsub a b ha hb, ?_, ?_⟩
  · unfold addMod
    rw [hm]
    split
    · have : a + b - q < q := by omega
      exact ⟨this, residue_unique this (-1) (by omega)⟩
    · have : a + b < q := by omega
      exact ⟨this, residue_unique this 0 (by omega)⟩
  · have := hsub 0 a h0 ha
    simpa [neg] using this
  · have hbp := base_pos N
    have hab : a * b / base N < base N := by
      apply Nat.div_lt_of_lt_mul
      exact Nat.mul_lt_mul'' (by omega) (by omega)
    unfold mulMod
    rw [hl, barrett_eq hc _ _ (Nat.mod_lt _ hbp) hab, Nat.div_add_mod']
    exact ⟨Nat.mod_lt _ h0, by unfold residue; push_cast; rfl⟩

/-- **C68 (conversions).** Checked conversion accepts exactly the values below `q` and keeps them; conversion from
`u64` reduces; conversion from `i64` gives the residue of every value that is at least `-q`. Results are ring
elements. -/
theorem C68_conversions_partial {N q : Nat} {c : Config} (hc : derive N q = some c) :
    (∀ v r, tryFrom c v = some r ↔ v < q ∧ r = v) ∧
    (∀ v, fromU64 c v < q ∧ (fromU64 c v : ℤ) = residue q v) ∧
    (∀ v : ℤ, fromI64 c v < q ∧ (-(q : ℤ) ≤ v → (fromI64 c v : ℤ) = residue q v)) := by
  obtain ⟨hl, hm, h0, h2, -, -, -⟩ := derive_spec hc
  refine ⟨?_, ?_, ?_⟩
  · intro v r
    unfold tryFrom
    rw [hm]
    split
    · simp; omega
    · simp; omega
  · intro v
    unfold fromU64 residue
    rw [hm]
    exact ⟨Nat.mod_lt _ h0, by push_cast; rfl⟩
  · intro v
    unfold fromI64
    rw [hm, hl]
    dsimp only
    refine ⟨Nat.mod_lt _ h0, fun hv => ?_⟩
    by_cases hn : v < 0
    · rw [if_pos hn]
      have e : wsub N q v.natAbs = q - v.natAbs := by
        have := wsub_exact (N := N) (x := q) (y := v.natAbs) (by omega) (by omega)
        rwa [Nat.mod_eq_of_lt (by omega), Nat.mod_eq_of_lt (by omega)] at this
      rw [e]
      unfold residue
      rw [Int.natCast_mod, Nat.cast_sub (by omega), show (v.natAbs : ℤ) = -v by omega]
      rw [show (q : ℤ) - -v = v + q by ring, Int.add_emod_right]
    · rw [if_neg hn]
      unfold residue
      rw [Int.natCast_mod, show (v.natAbs : ℤ) = v by omega]

/-- Below `-q` the conversion from `i64` is wrong in general (the source documents the narrower range `|v| ≤ q/2` as
safe): modulo 7 the value `-8`, whose residue is 6, becomes 1. -/
theorem C68_from_i64_violated : ∃ c, derive 1 7 = some c ∧ fromI64 c (-8) = 1 ∧ residue 7 (-8) = 6 := by
  refine ⟨_, rfl, by decide +kernel, by decide⟩

/-- **C68 (extension).** Extending a number to more limbs keeps its value; shrinking panics. Limbs are little-endian
64-bit digits. -/
def limbValue : List Nat → Nat
  | [] => 0
  | x :: l => x + 2 ^ 64 * limbValue l

theorem limbValue_zeros : ∀ n, limbValue (List.replicate n 0) = 0
  | 0 => rfl
  | n + 1 => by rw [List.replicate_succ, limbValue, limbValue_zeros n, Nat.mul_zero]

theorem limbValue_append_zeros (n : Nat) : ∀ l, limbValue (l ++ List.replicate n 0) = limbValue l
  | [] => by rw [List.nil_append, limbValue_zeros]; rfl
  | x :: l => by rw [List.cons_append, limbValue, limbValue_append_zeros n l, limbValue]

theorem C68_extend (N : Nat) (x : List Nat) :
    (x.length ≤ N → ∃ y, extendLimbs N x = some y ∧ y.length = N ∧ limbValue y = limbValue x) ∧
    (N < x.length → extendLimbs N x = none) := by
  unfold extendLimbs
  constructor
  · intro h
    exact ⟨_, if_pos h, by simp; omega, limbValue_append_zeros _ _⟩
  · intro h
    exact if_neg (by omega)

example : ∃ c, derive 2 (2 ^ 127 - 1) = some c ∧ mulMod c (2 ^ 127 - 2) (2 ^ 127 - 2) = 1 := by
  obtain ⟨c, hc⟩ := derive_some (N := 2) (m := 2 ^ 127 - 1) (by decide) (by decide) (by decide)
  refine ⟨c, hc, ?_⟩
  have := (C68_arith hc (2 ^ 127 - 2) (2 ^ 127 - 2) (by decide) (by decide)).2.2.2.2
  have e : residue (2 ^ 127 - 1) (((2 ^ 127 - 2 : Nat) : ℤ) * ((2 ^ 127 - 2 : Nat) : ℤ)) = 1 := by decide
  rw [e] at this
  exact_mod_cast this

/-- What `crypto_bigint` documents about `inv_odd_mod`: for an odd modulus and a value coprime to it, the inverse
below the modulus. Nothing is said about other arguments. -/
def InvertsOdd (inv : Nat → Nat → Nat) : Prop :=
  ∀ a m, m % 2 = 1 → 1 < m → Nat.Coprime a m → inv a m < m ∧ (a * inv a m) % m = 1

/-- **C68 (inverse).** For every odd prime modulus and every non-zero element, `inverse` gives the only element whose
product with it is one. -/
theorem C68_inverse {N q : Nat} {c : Config} (hc : derive N q = some c) (hq : q.Prime) (h2 : q ≠ 2)
    {inv : Nat → Nat → Nat} (hi : InvertsOdd inv) (a : Nat) (ha : a < q) (h0 : a ≠ 0) :
    inverse c inv a < q ∧ mulMod c a (inverse c inv a) = 1 ∧
      ∀ b, b < q → mulMod c a b = 1 → b = inverse c inv a := by
  have hm := (derive_spec hc).2.1
  have hodd : q % 2 = 1 := by
    rcases hq.eq_two_or_odd with h | h
    · exact absurd h h2
    · exact h
  have hcop : Nat.Coprime a q :=
    (Nat.coprime_comm.1 ((Nat.Prime.coprime_iff_not_dvd hq).2 (fun hd => absurd (Nat.le_of_dvd (by omega) hd) (by omega))))
  obtain ⟨h3, h4⟩ := hi a q hodd hq.one_lt hcop
  have hmul : ∀ b, b < q → mulMod c a b = a * b % q := by
    intro b hb
    have := (C68_arith hc a b ha hb).2.2.2.2
    rw [residue] at this
    exact_mod_cast this
  have hinv : inverse c inv a = inv a q := by rw [inverse, hm]
  rw [hinv]
  refine ⟨h3, by rw [hmul _ h3, h4], fun b hb h => ?_⟩
  rw [hmul b hb] at h
  have e1 : a * b ≡ a * inv a q [MOD q] := by rw [Nat.ModEq, h, h4]
  have e2 := Nat.ModEq.cancel_left_of_coprime (by rwa [Nat.Coprime, Nat.gcd_comm] at hcop) e1
  rwa [Nat.ModEq, Nat.mod_eq_of_lt hb, Nat.mod_eq_of_lt h3] at e2

/-- A modulus declared a field need not be one: the derive macro takes the caller's word. -/
theorem C68_not_a_field_violated : ∃ c, derive 1 9 = some c ∧ ∀ b, b < 9 → mulMod c 3 b ≠ 1 := by
  refine ⟨_, rfl, by decide +kernel⟩

/-- An inverse function of the documented kind (by search). -/
def exInv (a m : Nat) : Nat := ((List.range m).find? (fun b => a * b % m = 1)).getD 0

theorem exInv_inverts : InvertsOdd exInv := by
  intro a m _ h1 hc
  obtain ⟨b, hb⟩ := Nat.exists_mul_mod_eq_one_of_coprime hc h1
  have hex : ((List.range m).find? (fun b => a * b % m = 1)).isSome := by
    rw [List.find?_isSome]
    exact ⟨b % m, List.mem_range.2 (Nat.mod_lt _ (by omega)), by simpa [Nat.mul_mod] using hb.2⟩
  cases h : (List.range m).find? (fun b => a * b % m = 1) with
  | none => rw [h] at hex; cases hex
  | some x =>
    have h1 := List.find?_some h
    have h2 := List.mem_of_find?_eq_some h
    rw [exInv, h]
    exact ⟨List.mem_range.1 h2, by simpa using h1⟩

example : ∃ c, derive 1 19 = some c ∧ mulMod c 7 (inverse c exInv 7) = 1 := by
  refine ⟨_, rfl, ?_⟩
  exact (C68_inverse (N := 1) (q := 19) rfl (by norm_num) (by decide) exInv_inverts 7 (by decide) (by decide)).2.1

/-- **C68 (serialization).** An element that is serialized and read back is the same element, a number that is not
below the modulus is refused, and nothing else is accepted; more than 16 limbs panic. -/
theorem C68_serialization {N q : Nat} {c : Config} (hc : derive N q = some c) :
    (N ≤ 16 → ∀ a, a < q → ∃ v, serialize c a = some v ∧ deserialize c v = some (some a)) ∧
    (N ≤ 16 → ∀ v, q ≤ v → deserialize c v = some none) ∧
    (∀ v a, deserialize c v = some (some a) → a < q ∧ serialize c a = some v) ∧
    (16 < N → ∀ a, serialize c a = none ∧ deserialize c a = none) := by
  obtain ⟨hl, hm, -⟩ := derive_spec hc
  have hN : 1 ≤ N := by
    by_contra h
    rw [C58_inadmissible N q (by omega)] at hc
    cases hc
  have ht := (C68_conversions_partial hc).1
  refine ⟨fun h a ha => ⟨a, ?_, ?_⟩, fun h v hv => ?_, fun v a h => ?_, fun h a => ⟨?_, ?_⟩⟩
  · rw [serialize, if_pos (by omega)]
  · rw [deserialize, if_pos (by omega), (ht a a).2 ⟨ha, rfl⟩]
  · rw [deserialize, if_pos (by omega)]
    cases e : tryFrom c v with
    | none => rfl
    | some r => have := (ht v r).1 e; omega
  · rw [deserialize] at h
    split at h
    · rename_i hh
      simp only [Option.some.injEq] at h
      obtain ⟨h1, h2⟩ := (ht v a).1 h
      subst h2
      exact ⟨h1, by rw [serialize, if_pos hh]⟩
    · cases h
  · rw [serialize, if_neg (by omega)]
  · rw [deserialize, if_neg (by omega)]

example : ∃ c, derive 1 19 = some c ∧ deserialize c 18 = some (some 18) ∧ deserialize c 19 = some none := by
  refine ⟨_, rfl, by decide +kernel, by decide +kernel⟩

end Spf.Props
