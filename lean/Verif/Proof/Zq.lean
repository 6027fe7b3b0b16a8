import Verif.Model.Zq
import Mathlib.Tactic.Ring
import Mathlib.Tactic.Linarith
import Mathlib.Data.Int.ModEq
/-! Proofs about Barrett reduction. -/
namespace Spf.Zq

theorem base_pos (N : Nat) : 0 < base N := Nat.pow_pos (by omega)

theorem derive_spec {N m : Nat} {c : Config} (h : derive N m = some c) :
    c.limbs = N ∧ c.modulus = m ∧ 0 < m ∧ 2 * m ≤ base N ∧ c.r = base N / m ∧ c.t = base N % m ∧
      c.s = base N * c.t / m := by
  unfold derive at h
  by_cases h1 : N = 0
  · rw [if_pos h1] at h; cases h
  rw [if_neg h1] at h
  by_cases h2 : m > 2 ^ (64 * N - 1)
  · rw [if_pos h2] at h; cases h
  rw [if_neg h2] at h
  by_cases h3 : m = 0
  · rw [if_pos h3] at h; cases h
  rw [if_neg h3] at h
  dsimp only at h
  split at h
  · cases h
    have hb : base N = 2 * 2 ^ (64 * N - 1) := by
      unfold base; rw [← pow_succ']; congr 1; omega
    refine ⟨rfl, rfl, by omega, by omega, rfl, ?_, ?_⟩
    · dsimp only
      have := Nat.div_add_mod (base N) m
      rw [mul_comm] at this; omega
    · dsimp only
      have hm := Nat.div_add_mod (base N) m
      have e : (2 : Nat) ^ (128 * N) = base N * base N := by unfold base; rw [← pow_add]; congr 1; ring
      have e2 : base N - base N / m * m = base N % m := by rw [mul_comm]; omega
      have e3 : base N * base N = base N * (base N % m) + m * (base N * (base N / m)) := by
        calc base N * base N = base N * (m * (base N / m) + base N % m) := by rw [hm]
          _ = _ := by ring
      rw [e, e2, e3, Nat.add_mul_div_left _ _ (by omega), Nat.add_sub_cancel]
  · cases h

theorem quot_bounds {B m T h : Nat} (hm : 0 < m) (hB : 0 < B) (hh : h < B) :
    h * (B * T / m) / B * m ≤ h * T ∧ h * T < h * (B * T / m) / B * m + 2 * m := by
  generalize hS : B * T / m = S
  generalize hq : h * S / B = q
  have a1 : S * m ≤ B * T := hS ▸ Nat.div_mul_le_self _ _
  have a2 : B * T < (S + 1) * m := by
    rw [← hS]; exact Nat.lt_mul_of_div_lt (Nat.lt_succ_self _) hm |>.trans_eq (by rw [Nat.succ_eq_add_one, mul_comm])
  have a3 : q * B ≤ h * S := hq ▸ Nat.div_mul_le_self _ _
  have a4 : h * S < (q + 1) * B := by
    rw [← hq]; exact Nat.lt_mul_of_div_lt (Nat.lt_succ_self _) hB |>.trans_eq (by rw [Nat.succ_eq_add_one, mul_comm])
  constructor
  · apply Nat.le_of_mul_le_mul_left _ hB
    calc B * (q * m) = (q * B) * m := by ring
      _ ≤ (h * S) * m := Nat.mul_le_mul_right _ a3
      _ = h * (S * m) := by ring
      _ ≤ h * (B * T) := Nat.mul_le_mul_left _ a1
      _ = B * (h * T) := by ring
  · apply Nat.lt_of_mul_lt_mul_left (a := B)
    calc B * (h * T) = h * (B * T) := by ring
      _ ≤ h * ((S + 1) * m) := Nat.mul_le_mul_left _ a2.le
      _ = (h * S + h) * m := by ring
      _ < ((q + 1) * B + B) * m := Nat.mul_lt_mul_of_pos_right (by omega) hm
      _ = B * (q * m + 2 * m) := by ring

/-- A wrapping difference of wrapped products whose true value is small. -/
theorem wsub_exact {N x y : Nat} (h1 : y ≤ x) (h2 : x - y < base N) :
    wsub N (x % base N) (y % base N) = x - y := by
  have hb := base_pos N
  unfold wsub
  rw [Nat.add_mod, Nat.mod_mod, ← Nat.add_mod]
  have e : x + (base N - y % base N) = (x - y) + base N * (y / base N + 1) := by
    have := Nat.div_add_mod y (base N)
    have := Nat.mod_lt y hb
    rw [mul_add]; omega
  rw [e, Nat.add_mul_mod_self_left, Nat.mod_eq_of_lt h2]

theorem condReduce_spec {N m : Nat} {c : Config} (hl : c.limbs = N) (hm : c.modulus = m) (h2 : 2 * m ≤ base N) (h0 : 0 < m)
    {v : Nat} (hv : v < 2 * m) : condReduce c v = v % m := by
  unfold condReduce
  rw [hl, hm]
  dsimp only
  by_cases h : v < m
  · rw [if_pos h, Nat.mod_eq_of_lt h]
  · rw [if_neg h, Nat.mod_eq_sub_mod (by omega), Nat.mod_eq_of_lt (by omega : v - m < m)]
    have := wsub_exact (N := N) (x := v) (y := m) (by omega) (by omega)
    rw [Nat.mod_eq_of_lt (by omega), Nat.mod_eq_of_lt (by omega)] at this
    exact this

theorem barrett_eq {N m : Nat} {c : Config} (h : derive N m = some c) (xlo xhi : Nat) (hlo : xlo < base N)
    (hhi : xhi < base N) : barrettReduce c xlo xhi = (xhi * base N + xlo) % m := by
  obtain ⟨hl, hm, h0, h2, hr, ht, hs⟩ := derive_spec h
  have hb := base_pos N
  obtain ⟨a1, a2⟩ := quot_bounds (T := c.t) h0 hb hhi
  obtain ⟨b1, b2⟩ := quot_bounds (T := 1) h0 hb hlo
  rw [mul_one, mul_one] at b1 b2
  rw [← hs] at a1 a2
  rw [← hr] at b1 b2
  have a3 := Nat.sub_lt_left_of_lt_add a1 a2
  have b3 := Nat.sub_lt_left_of_lt_add b1 b2
  have hH : wsub N (wmul N xhi c.t) (wmul N (mulHi N xhi c.s) m) = xhi * c.t - xhi * c.s / base N * m :=
    wsub_exact a1 (lt_of_lt_of_le a3 h2)
  have hL : wsub N xlo (wmul N (mulHi N xlo c.r) m) = xlo - xlo * c.r / base N * m := by
    have := wsub_exact (N := N) (x := xlo) (y := xlo * c.r / base N * m) b1 (lt_of_lt_of_le b3 h2)
    rw [Nat.mod_eq_of_lt hlo] at this
    exact this
  have cr := @condReduce_spec N m c hl hm h2 h0
  unfold barrettReduce
  dsimp only
  rw [hl, hm, hH, hL, cr a3, cr b3]
  have m1 := Nat.mod_lt (xhi * c.t - xhi * c.s / base N * m) h0
  have m2 := Nat.mod_lt (xlo - xlo * c.r / base N * m) h0
  rw [wadd, Nat.mod_eq_of_lt (a := _ + _) (lt_of_lt_of_le (by omega) h2), cr (by omega), ← Nat.add_mod]
  have k1 : (xhi * c.t - xhi * c.s / base N * m) ≡ xhi * base N [MOD m] := by
    have e1 : xhi * c.t - xhi * c.s / base N * m ≡ xhi * c.t [MOD m] := by
      have : xhi * c.t - xhi * c.s / base N * m + xhi * c.s / base N * m = xhi * c.t := Nat.sub_add_cancel a1
      calc xhi * c.t - xhi * c.s / base N * m ≡ xhi * c.t - xhi * c.s / base N * m + xhi * c.s / base N * m [MOD m] := by
            simp [Nat.ModEq]
        _ = xhi * c.t := this
    refine e1.trans (Nat.ModEq.mul_left _ ?_)
    rw [ht]; exact Nat.mod_modEq _ _
  have k2 : (xlo - xlo * c.r / base N * m) ≡ xlo [MOD m] := by
    have : xlo - xlo * c.r / base N * m + xlo * c.r / base N * m = xlo := Nat.sub_add_cancel b1
    calc xlo - xlo * c.r / base N * m ≡ xlo - xlo * c.r / base N * m + xlo * c.r / base N * m [MOD m] := by
          simp [Nat.ModEq]
      _ = xlo := this
  have := k2.add k1
  rw [Nat.ModEq] at this
  rw [this, add_comm]

theorem derive_some {N m : Nat} (hN : 1 ≤ N) (h1 : 1 < m) (h2 : m ≤ 2 ^ (64 * N - 1)) : ∃ c, derive N m = some c := by
  have hb : base N = 2 * 2 ^ (64 * N - 1) := by
    unfold base; rw [← pow_succ']; congr 1; omega
  have hbp := base_pos N
  unfold derive
  rw [if_neg (by omega), if_neg (by omega), if_neg (by omega)]
  dsimp only
  have hm := Nat.div_add_mod (base N) m
  have e : (2 : Nat) ^ (128 * N) = base N * base N := by unfold base; rw [← pow_add]; congr 1; ring
  have e3 : base N * base N = base N * (base N % m) + m * (base N * (base N / m)) := by
    calc base N * base N = base N * (m * (base N / m) + base N % m) := by rw [hm]
      _ = _ := by ring
  have hml := Nat.mod_lt (base N) (show 0 < m by omega)
  rw [if_pos]
  · exact ⟨_, rfl⟩
  refine ⟨by omega, Nat.div_lt_self hbp h1, ?_, ?_⟩
  · rw [e, e3, Nat.add_mul_div_left _ _ (by omega)]
    have : base N * (base N % m) / m < base N := by
      apply Nat.div_lt_of_lt_mul
      rw [mul_comm]
      exact Nat.mul_lt_mul_of_pos_right hml hbp
    rwa [Nat.add_sub_cancel]
  · have : base N - base N / m * m = base N % m := by rw [mul_comm]; omega
    omega

end Spf.Zq
