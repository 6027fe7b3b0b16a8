import Verif.Proof.Noise
/-! Gadget (radix) products in `Z_{2^W}[X]/(X^N+1)`: the digits of a polynomial against rows that encrypt scaled copies of
one message. -/
namespace Spf.Tfhe
open Spf.Spec

variable {W N : Nat}

/-- `Σ d_t p_t` -/
noncomputable def sumMul {A : Type} [CommRing A] : List A → List A → A
  | d :: ds, p :: ps => d * p + sumMul ds ps
  | _, _ => 0

/-- `Σ base q^t d_t` -/
noncomputable def gsum {A : Type} [CommRing A] (q : A) : A → List A → A
  | _, [] => 0
  | b, d :: ds => b * d + gsum q (b * q) ds

/-- the phases `M base q^t + e_t` with small `e_t` -/
def RowsG (N E : Nat) (M q : Nega (BitVec W) N) : Nega (BitVec W) N → List (Nega (BitVec W) N) → Prop
  | _, [] => True
  | b, p :: ps => (∃ e, Small N E e ∧ p = M * b + e) ∧ RowsG N E M q (b * q) ps

theorem sumMul_rows {D E : Nat} {M q : Nega (BitVec W) N} : ∀ (b : Nega (BitVec W) N) (ds ps : List (Nega (BitVec W) N)),
    RowsG N E M q b ps → ds.length = ps.length → (∀ d ∈ ds, Small N D d) →
    ∃ ν, Small N (ds.length * (N * (D * E))) ν ∧ sumMul ds ps = M * gsum q b ds + ν
  | _, [], [], _, _, _ => ⟨0, by simpa using small_zero, by simp [sumMul, gsum]⟩
  | _, [], _ :: _, _, h, _ => by simp at h
  | _, _ :: _, [], _, h, _ => by simp at h
  | b, d :: ds, p :: ps, ⟨⟨e, he, hp⟩, hr⟩, hl, hd => by
    obtain ⟨ν, h1, h2⟩ := sumMul_rows (b * q) ds ps hr (by simpa using hl) fun x hx => hd x (by simp [hx])
    refine ⟨d * e + ν, ?_, ?_⟩
    · rw [List.length_cons, Nat.add_mul, Nat.one_mul, Nat.add_comm]
      exact ((hd d (by simp)).mul he).add h1
    · rw [sumMul, gsum, h2, hp]; ring

/-- one polynomial of digits with its carries -/
theorem digit_cls {l : Nat} (hl : 0 < l) (hlW : l < W) (cur : List (BitVec W)) :
    cls N (cur.map fun c => (nextDigit c l).1) + AdjoinRoot.of _ (BitVec.ofNat W (2 ^ l)) * cls N (cur.map fun c => (nextDigit c l).2)
      = cls N cur := by
  induction cur with
  | nil => simp
  | cons c cur ih =>
    rw [List.map_cons, List.map_cons, cls_cons, cls_cons, cls_cons, ← ih]
    have h : (nextDigit c l).1 + BitVec.ofNat W (2 ^ l) * (nextDigit c l).2 = c := by
      have h1 := (nextDigit_spec hl hlW c).1
      have h2 := congrArg (BitVec.ofInt W) h1
      rw [BitVec.ofInt_add, BitVec.ofInt_mul, BitVec.ofInt_toInt, ← two_pow_bv, BitVec.ofInt_natCast, BitVec.ofInt_natCast,
        BitVec.ofNat_toNat, BitVec.ofNat_toNat, BitVec.setWidth_eq, BitVec.setWidth_eq] at h2
      exact h2
    conv_rhs => rw [← h]
    rw [map_add, map_mul]
    ring

theorem go_spec {l : Nat} (hl : 0 < l) (hlW : l < W) : ∀ (k : Nat) (cur : List (BitVec W)), cur.length = N →
    (polyDigits.go l k cur).length = k ∧ AllLen N (polyDigits.go l k cur) ∧
    (∀ d ∈ (polyDigits.go l k cur).map (cls N), Small N (2 ^ (l - 1)) d) ∧
    ∃ fin, ∀ b : Nega (BitVec W) N, gsum (AdjoinRoot.of _ (BitVec.ofNat W (2 ^ l))) b ((polyDigits.go l k cur).map (cls N)) =
      b * cls N cur - b * AdjoinRoot.of _ (BitVec.ofNat W (2 ^ (l * k))) * fin
  | 0, cur, _ => ⟨rfl, by simp [polyDigits.go, AllLen], by simp [polyDigits.go], cls N cur, fun b => by
      simp only [polyDigits.go, List.map_nil, gsum, Nat.mul_zero, Nat.pow_zero]
      rw [show BitVec.ofNat W 1 = 1 from rfl, map_one]; ring⟩
  | k + 1, cur, hc => by
    obtain ⟨h1, h2, h3, fin, h4⟩ := go_spec hl hlW k (cur.map fun c => (nextDigit c l).2) (by simpa using hc)
    refine ⟨by simp [polyDigits.go, h1], ?_, ?_, fin, ?_⟩
    · intro p hp
      simp only [polyDigits.go, List.mem_cons] at hp
      rcases hp with rfl | hp
      · simpa using hc
      · exact h2 p hp
    · intro d hd
      simp only [polyDigits.go, List.map_cons, List.mem_cons] at hd
      rcases hd with rfl | hd
      · refine ⟨cur.map fun c => (nextDigit c l).1.toInt, by simpa using hc, ?_, ?_⟩
        · intro e he
          obtain ⟨c, _, rfl⟩ := List.mem_map.1 he
          obtain ⟨_, a, b⟩ := nextDigit_spec hl hlW c
          have : ((2 ^ (l - 1) : Nat) : Int) = 2 ^ (l - 1) := by push_cast; rfl
          rw [← this] at a b
          omega
        · simp [List.map_map, Function.comp_def]
      · exact h3 d hd
    · intro b
      rw [polyDigits.go, List.map_cons, gsum, h4, ← digit_cls hl hlW cur, Nat.mul_succ, Nat.pow_add, BitVec.ofNat_mul, map_mul]
      ring

theorem round_list {r : Radix} (hl : 0 < r.log * r.count) (hlt : r.log * r.count < W) : ∀ p : List (BitVec W),
    ∃ cur, p.mapM (fun x => radixRound x r) = some cur ∧ cur.length = p.length ∧ ∃ es : List Int, es.length = p.length ∧
      (∀ e ∈ es, e.natAbs ≤ 2 ^ (W - r.log * r.count - 1)) ∧
      AdjoinRoot.of _ (BitVec.ofNat W (2 ^ (W - r.log * r.count))) * cls N cur = cls N p - cls N (es.map (BitVec.ofInt W))
  | [] => ⟨[], rfl, rfl, [], rfl, by simp, by simp⟩
  | x :: p => by
    obtain ⟨cur, h1, h2, es, h3, h4, h5⟩ := round_list hl hlt p
    obtain ⟨y, hy, hv⟩ := radixRound_val hl hlt x
    obtain ⟨err, he, hb1, hb2⟩ := round_err x.toNat (W - r.log * r.count - 1)
    rw [show W - r.log * r.count - 1 + 1 = W - r.log * r.count by omega, ← hv] at he
    refine ⟨y :: cur, by simp [List.mapM_cons, hy, h1], by simp [h2], err :: es, by simp [h3], ?_, ?_⟩
    · intro e hm
      simp only [List.mem_cons] at hm
      rcases hm with rfl | hm
      · have : ((2 ^ (W - r.log * r.count - 1) : Nat) : Int) = 2 ^ (W - r.log * r.count - 1) := by push_cast; rfl
        rw [← this] at hb1 hb2
        omega
      · exact h4 e hm
    · have h := congrArg (BitVec.ofInt W) he
      rw [BitVec.ofInt_add, BitVec.ofInt_mul, ← two_pow_bv, BitVec.ofInt_natCast, BitVec.ofInt_natCast,
        BitVec.ofNat_toNat, BitVec.ofNat_toNat, BitVec.setWidth_eq, BitVec.setWidth_eq] at h
      rw [cls_cons, cls_cons, List.map_cons, cls_cons]
      conv_rhs => rw [h]
      rw [map_add, map_mul]
      linear_combination (xcls N) * h5

/-- The digits of a polynomial: how many, how large, and what they recompose to. -/
theorem polyDigits_spec {r : Radix} (hl : 0 < r.log) (hc : 0 < r.count) (hlt : r.log * r.count < W) (p : List (BitVec W)) (hp : p.length = N) :
    ∃ ds, polyDigits p r = some ds ∧ ds.length = r.count ∧ AllLen N ds ∧ (∀ d ∈ ds.map (cls N), Small N (2 ^ (r.log - 1)) d) ∧
      ∃ err, Small N (2 ^ (W - r.log * r.count - 1)) err ∧
      gsum (AdjoinRoot.of _ (BitVec.ofNat W (2 ^ r.log))) (AdjoinRoot.of _ (BitVec.ofNat W (2 ^ (W - r.log * r.count)))) (ds.map (cls N))
        = cls N p - err := by
  have hpos := Nat.mul_pos hl hc
  have hlW : r.log < W := lt_of_le_of_lt (Nat.le_mul_of_pos_right _ hc) hlt
  obtain ⟨cur, h1, h2, es, h3, h4, h5⟩ := round_list (N := N) hpos hlt p
  obtain ⟨g1, g2, g3, fin, g4⟩ := go_spec (N := N) hl hlW r.count cur (by omega)
  refine ⟨_, by rw [polyDigits, if_pos ⟨hlt, by omega⟩, h1], g1, g2, g3, cls N (es.map (BitVec.ofInt W)), ⟨es, by omega, h4, rfl⟩, ?_⟩
  rw [g4, h5, ← map_mul, ← BitVec.ofNat_mul, ← Nat.pow_add, show W - r.log * r.count + r.log * r.count = W by omega,
    show BitVec.ofNat W (2 ^ W) = 0 by apply BitVec.eq_of_toNat_eq; simp [BitVec.toNat_ofNat], map_zero]
  ring

end Spf.Tfhe
