import Verif.Proof.Poly
import Mathlib.Algebra.BigOperators.Group.Finset.Basic
import Mathlib.Algebra.BigOperators.Ring.Finset
import Mathlib.Algebra.Polynomial.Eval.Defs
namespace Spf.Tfhe
open Polynomial Spf.Spec
variable {R : Type} [CommRing R]

theorem cls_eq_sum (N : Nat) (l : List R) :
    cls N l = ∑ i ∈ Finset.range l.length, AdjoinRoot.of _ (l.getD i 0) * xcls N ^ i := by
  induction l with
  | nil => simp
  | cons a l ih =>
    rw [cls_cons, ih, List.length_cons, Finset.sum_range_succ', Finset.mul_sum, add_comm]
    congr 1
    · apply Finset.sum_congr rfl
      intro i _
      rw [List.getD_cons_succ]; ring
    · simp

theorem powKLoop_length (N k : Nat) : ∀ (p : List R) (i : Nat) (pk : List R), (powKLoop N k p i pk).length = pk.length
  | [], _, _ => rfl
  | c :: p, i, pk => by simp [powKLoop, powKLoop_length N k p]

/-- the coefficient written last -/
theorem powKLoop_frame (N k : Nat) : ∀ (p : List R) (i : Nat) (pk : List R) (j : Nat),
    (∀ t, t < p.length → (i + t) * k % N ≠ j) → (powKLoop N k p i pk).getD j 0 = pk.getD j 0
  | [], _, _, _, _ => rfl
  | c :: p, i, pk, j, h => by
    rw [powKLoop]
    rw [powKLoop_frame N k p (i + 1) _ j]
    · have := h 0 (by simp)
      simp only [Nat.add_zero] at this
      simp [List.getD, List.getElem?_set, this]
    · intro t ht
      have := h (t + 1) (by simpa using ht)
      rwa [show i + (t + 1) = i + 1 + t by omega] at this

theorem powKLoop_get (N k : Nat) (hN : 0 < N) (hinj : ∀ a b, a < N → b < N → a * k % N = b * k % N → a = b) :
    ∀ (p : List R) (i : Nat) (pk : List R), pk.length = N → i + p.length ≤ N → ∀ t, t < p.length →
    (powKLoop N k p i pk).getD ((i + t) * k % N) 0 = p.getD t 0 * (if ((i + t) * k / N) % 2 = 0 then 1 else -1)
  | [], _, _, _, _, t, ht => by simp at ht
  | c :: p, i, pk, hpk, hle, t, ht => by
    simp only [List.length_cons] at hle ht
    rw [powKLoop]
    cases t with
    | zero =>
      rw [powKLoop_frame N k p (i + 1) _ _]
      · have : i * k % N < pk.length := by rw [hpk]; exact Nat.mod_lt _ hN
        simp [List.getD, List.getElem?_set, this]
      · intro t ht h
        have := hinj _ _ (by omega) (by omega) h
        omega
    | succ t =>
      have := powKLoop_get N k hN hinj p (i + 1) (pk.set (i * k % N) (c * if (i * k / N) % 2 = 0 then 1 else -1))
        (by simp [hpk]) (by omega) t (by omega)
      rw [show i + (t + 1) = i + 1 + t by omega, this, List.getD_cons_succ]

theorem mulmod_inj {n k : Nat} (hk : k % 2 = 1) : ∀ a b, a < 2 ^ n → b < 2 ^ n → a * k % 2 ^ n = b * k % 2 ^ n → a = b := by
  intro a b ha hb h
  have hcop : Nat.Coprime (2 ^ n) k := by
    apply Nat.Coprime.pow_left
    rw [Nat.coprime_two_left]; exact Nat.odd_iff.mpr hk
  have := Nat.ModEq.cancel_right_of_coprime hcop (show a * k ≡ b * k [MOD 2 ^ n] from h)
  exact Nat.ModEq.eq_of_lt_of_lt this ha hb

theorem xcls_sign (N m : Nat) : (xcls N : Nega R N) ^ m = AdjoinRoot.of _ (if m / N % 2 = 0 then (1 : R) else -1) * xcls N ^ (m % N) := by
  conv_lhs => rw [← Nat.div_add_mod m N]
  rw [pow_add, pow_mul, xcls_pow]
  congr 1
  split
  · rename_i h; rw [Even.neg_one_pow (Nat.even_iff.mpr h), map_one]
  · rename_i h; rw [Odd.neg_one_pow (Nat.odd_iff.mpr (by omega)), map_neg, map_one]

theorem mk_comp_sum (N k : Nat) (l : List R) : AdjoinRoot.mk (X ^ N + 1 : R[X]) ((toPoly l).comp (X ^ k)) =
    ∑ i ∈ Finset.range l.length, AdjoinRoot.of _ (l.getD i 0) * xcls N ^ (i * k) := by
  induction l with
  | nil => simp
  | cons a l ih =>
    rw [toPoly_cons, add_comp, mul_comp, C_comp, X_comp, map_add, map_mul, ih, List.length_cons, Finset.sum_range_succ',
      Finset.mul_sum, map_pow, AdjoinRoot.mk_X, AdjoinRoot.mk_C]
    refine (add_comm _ _).trans ?_
    congr 1
    · apply Finset.sum_congr rfl
      intro i _
      rw [List.getD_cons_succ, Nat.add_mul, pow_add, Nat.one_mul]
      show xcls N ^ k * _ = _
      ring
    · simp

theorem polyPowK_spec (pk p : List R) (k : Nat) (hk : k % 2 = 1) (hlen : p.length = pk.length) (hp : isPow2 p.length = true) :
    ∃ q, polyPowK pk p k = some q ∧ q.length = p.length ∧
      cls p.length q = AdjoinRoot.mk _ ((toPoly p).comp (X ^ k)) := by
  refine ⟨powKLoop p.length k p 0 pk, by rw [polyPowK, if_pos ⟨hlen, hp⟩], by rw [powKLoop_length]; exact hlen.symm, ?_⟩
  rw [mk_comp_sum, cls_eq_sum, powKLoop_length, ← hlen]
  obtain ⟨n, hn⟩ := isPow2_iff.mp hp
  have hN : 0 < p.length := by rw [hn]; exact Nat.two_pow_pos n
  have hinj : ∀ a b, a < p.length → b < p.length → a * k % p.length = b * k % p.length → a = b := by
    rw [hn]; exact mulmod_inj hk
  symm
  apply Finset.sum_nbij (fun i => i * k % p.length)
  · intro i _; exact Finset.mem_range.mpr (Nat.mod_lt _ hN)
  · intro a ha b hb h
    exact hinj a b (Finset.mem_range.mp ha) (Finset.mem_range.mp hb) h
  · apply Finset.surjOn_of_injOn_of_card_le
    · intro i _; exact Finset.mem_coe.mpr (Finset.mem_range.mpr (Nat.mod_lt _ hN))
    · intro a ha b hb h
      exact hinj a b (Finset.mem_range.mp ha) (Finset.mem_range.mp hb) h
    · exact le_refl _
  · intro i hi
    have := powKLoop_get p.length k hN hinj p 0 pk hlen.symm (by omega) i (Finset.mem_range.mp hi)
    simp only [Nat.zero_add] at this
    rw [this, map_mul, xcls_sign, mul_assoc]

end Spf.Tfhe
