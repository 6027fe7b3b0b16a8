import Verif.Proof.Mul
import Mathlib.Tactic.Ring
/-! Row-by-row arithmetic of the array multiplier. -/
namespace Spf.Mul
open Spf.Spec BddFn
set_option linter.unusedSimpArgs false

theorem cell_loop (n : Nat) (ands : Nat → BddFn) (prev : List BddFn) (pc : BddFn) (e : Nat → Bool)
    (A B : List Bool)
    (hA : A.length = n) (hB : B.length = n)
    (hAe : ∀ j, j < n → ands j e = A.getD j false)
    (hBe : ∀ j, j < n → (if j < n - 1 then prev.getD (j + 1) mkFalse else pc) e = B.getD j false) :
    ∀ k, k ≤ n →
    let st := (List.range k).foldl (cellStep n ands prev pc) ([], mkFalse)
    st.1.length = k ∧
      valLE (st.1.map (· e)) + bit (st.2 e) * 2 ^ k = valLE (A.take k) + valLE (B.take k) := by
  intro k
  induction k with
  | zero => intro _; simp [mkFalse]
  | succ k ih =>
    intro hk
    obtain ⟨h1, h2⟩ := ih (by omega)
    have e1 := hAe k (by omega)
    have e2 := hBe k (by omega)
    simp only [List.range_succ, List.foldl_append, List.foldl_cons, List.foldl_nil]
    generalize (List.range k).foldl (cellStep n ands prev pc) ([], mkFalse) = st at *
    refine ⟨by simp [cellStep, h1], ?_⟩
    rw [valLE_take_succ _ _ (by omega), valLE_take_succ _ _ (by omega)]
    simp only [cellStep, List.map_append, List.map_cons, List.map_nil, valLE_snoc, List.length_map, h1,
      BddFn.xor, BddFn.and, BddFn.or, e1, e2, Nat.pow_succ]
    cases A.getD k false <;> cases B.getD k false <;> cases h : st.2 e <;> simp [h] at h2 ⊢ <;> omega

/-- value of a row -/
def rowVal (n : Nat) (e : Nat → Bool) (r : List BddFn × BddFn) : Nat :=
  valLE (r.1.map (· e)) + bit (r.2 e) * 2 ^ n

theorem valLE_map_and (y : Bool) (x : List Bool) : valLE (x.map (fun b => b && y)) = valLE x * bit y := by
  induction x with
  | nil => simp
  | cons b x ih => simp only [List.map_cons, valLE_cons, ih]; cases y <;> simp

theorem row_val (n : Nat) (hn : 0 < n) (ands : Nat → BddFn) (prev : List BddFn × BddFn) (e : Nat → Bool)
    (x : List Bool) (y : Bool) (hx : x.length = n) (hp : prev.1.length = n)
    (ha : ∀ j, j < n → ands j e = (x.getD j false && y)) :
    (row n ands prev).1.length = n ∧
    rowVal n e (row n ands prev) = valLE x * bit y + rowVal n e prev / 2 := by
  obtain ⟨ps, pc⟩ := prev
  simp only at hp
  cases ps with
  | nil => simp at hp; omega
  | cons p0 ps =>
    simp only [List.length_cons] at hp
    have L := cell_loop n ands (p0 :: ps) pc e (x.map (fun b => b && y)) (ps.map (· e) ++ [pc e])
      (by simp [hx]) (by simp; omega)
      (by intro j hj; rw [ha j hj]; simp [List.getD, hx, hj])
      (by
        intro j hj
        by_cases h : j < n - 1
        · rw [if_pos h]
          have : j < ps.length := by omega
          simp [List.getD, List.getElem?_append, this]
        · rw [if_neg h]
          have : j = ps.length := by omega
          subst this
          simp [List.getD, List.getElem?_append])
      n (Nat.le_refl n)
    obtain ⟨l1, l2⟩ := L
    refine ⟨l1, ?_⟩
    unfold rowVal row
    rw [l2, List.take_of_length_le (by simp [hx]), List.take_of_length_le (by simp; omega)]
    rw [valLE_map_and, valLE_snoc]
    simp only [List.map_cons, valLE_cons, List.length_map]
    have : (2 : Nat) ^ n = 2 * 2 ^ ps.length := by rw [← hp, Nat.pow_succ]; ring
    rw [this]
    have hb := bit_lt (p0 e)
    generalize valLE (ps.map (· e)) = V
    generalize 2 ^ ps.length = P
    have : bit (p0 e) + 2 * V + bit (pc e) * (2 * P) = bit (p0 e) + 2 * (V + bit (pc e) * P) := by ring
    rw [this]
    omega

theorem rows_length (n ands) : ∀ k, (rows n ands k).length = k + 1
  | 0 => rfl
  | k + 1 => by simp [rows, rows_length n ands k]

theorem rows_head_bit (e : Nat → Bool) (r : List BddFn × BddFn) (n : Nat) (hn : 0 < n) (h : r.1.length = n) :
    bit (r.1.headD mkFalse e) = rowVal n e r % 2 ∧
    valLE ((r.1.tail ++ [r.2]).map (· e)) = rowVal n e r / 2 := by
  obtain ⟨s, c⟩ := r
  cases s with
  | nil => simp at h; omega
  | cons p s =>
    simp only [List.length_cons] at h
    simp only [List.headD_cons, List.tail_cons, rowVal, List.map_cons, valLE_cons, List.map_append, List.map_nil,
      valLE_snoc, List.length_map]
    have : (2 : Nat) ^ n = 2 * 2 ^ s.length := by rw [← h, Nat.pow_succ]; ring
    rw [this]
    have hb := bit_lt (p e)
    generalize valLE (s.map (· e)) = V
    generalize 2 ^ s.length = P
    have : bit (p e) + 2 * V + bit (c e) * (2 * P) = bit (p e) + 2 * (V + bit (c e) * P) := by ring
    rw [this]
    omega

/-- Invariant over rows: the bits already output plus the rest of the last row give `x * (y mod 2^(k+1))`. -/
theorem rows_inv (n : Nat) (hn : 0 < n) (ands : Nat → Nat → BddFn) (e : Nat → Bool) (x y : List Bool)
    (hx : x.length = n) :
    ∀ k, k < y.length → (∀ i j, i ≤ k → j < n → ands i j e = (x.getD j false && y.getD i false)) →
    let rs := rows n ands k
    let last := rs.getLastD ([], mkFalse)
    last.1.length = n ∧
    valLE ((rs.map (fun r => r.1.headD mkFalse)).map (· e)) + 2 ^ (k + 1) * (rowVal n e last / 2) =
      valLE x * valLE (y.take (k + 1)) := by
  intro k
  induction k with
  | zero =>
    intro hk ha
    simp only [rows, List.getLastD_cons, List.getLastD_nil, List.length_map, List.length_range, true_and, List.map_cons, List.map_nil]
    have hl : ((List.range n).map (ands 0)).map (· e) = x.map (fun b => b && y.getD 0 false) := by
      apply List.ext_getElem
      · simp [hx]
      · intro i h1 h2
        have hi : i < n := by simpa using h1
        simp only [List.getElem_map, List.getElem_range]
        rw [ha 0 i (by omega) hi]
        simp [List.getD, hx, hi]
    obtain ⟨r1, _⟩ := rows_head_bit e ((List.range n).map (ands 0), mkFalse) n hn (by simp)
    simp only [valLE_cons, valLE_nil, Nat.mul_zero, Nat.add_zero]
    simp only at r1
    rw [r1]
    have hv : rowVal n e ((List.range n).map (ands 0), mkFalse) = valLE x * bit (y.getD 0 false) := by
      simp only [rowVal, hl, valLE_map_and, mkFalse, bit_false, Nat.zero_mul, Nat.add_zero]
    rw [hv, valLE_take_succ y 0 hk]
    simp
    omega
  | succ k ih =>
    intro hk ha
    obtain ⟨i1, i2⟩ := ih (by omega) (fun i j hi hj => ha i j (by omega) hj)
    have hlen := rows_length n ands k
    simp only [rows]
    generalize rows n ands k = rs at *
    generalize hl : rs.getLastD ([], mkFalse) = last at *
    obtain ⟨w1, w2⟩ := row_val n hn (ands (k + 1)) last e x (y.getD (k + 1) false) hx i1
      (fun j hj => ha (k + 1) j (by omega) hj)
    have hg : (rs ++ [row n (ands (k + 1)) last]).getLastD ([], mkFalse) = row n (ands (k + 1)) last := by
      simp
    rw [hg]
    refine ⟨w1, ?_⟩
    obtain ⟨r1, _⟩ := rows_head_bit e (row n (ands (k + 1)) last) n hn w1
    simp only [List.map_append, List.map_cons, List.map_nil, valLE_snoc, List.length_map, hlen]
    rw [r1, valLE_take_succ y (k + 1) hk, Nat.mul_add, ← i2]
    generalize hR : rowVal n e (row n (ands (k + 1)) last) = R at *
    have hdm := Nat.div_add_mod R 2
    have : 2 ^ (k + 1) * R = 2 ^ (k + 1) * (valLE x * bit (y.getD (k + 1) false)) + 2 ^ (k + 1) * (rowVal n e last / 2) := by
      rw [w2]; ring
    have h3 : R % 2 * 2 ^ (k + 1) + 2 ^ (k + 1 + 1) * (R / 2) = 2 ^ (k + 1) * R := by
      conv => rhs; rw [← hdm]
      rw [Nat.pow_succ 2 (k + 1)]; ring
    have h4 : valLE x * (bit (y.getD (k + 1) false) * 2 ^ (k + 1)) =
        2 ^ (k + 1) * (valLE x * bit (y.getD (k + 1) false)) := by ring
    rw [h4]
    omega

end Spf.Mul
