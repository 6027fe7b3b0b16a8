import Verif.Spec.Noise
import Verif.Proof.Glwe
import Verif.Proof.Torus
/-! Noise calculus in `Z_{2^W}[X]/(X^N+1)`: elements with a representative whose coefficients are small integers. -/
namespace Spf.Tfhe
open Spf.Spec

variable {W N : Nat}

/-- `x` has integer coefficients of absolute value at most `B`. -/
def Small (N B : Nat) (x : Nega (BitVec W) N) : Prop :=
  ∃ l : List Int, l.length = N ∧ (∀ e ∈ l, e.natAbs ≤ B) ∧ x = cls N (l.map (BitVec.ofInt W))

theorem Small.mono {A B : Nat} {x : Nega (BitVec W) N} (h : Small N A x) (hAB : A ≤ B) : Small N B x := by
  obtain ⟨l, h1, h2, h3⟩ := h
  exact ⟨l, h1, fun e he => le_trans (h2 e he) hAB, h3⟩

theorem small_zero : Small N 0 (0 : Nega (BitVec W) N) := by
  refine ⟨List.replicate N 0, by simp, fun e he => by rw [List.eq_of_mem_replicate he]; rfl, ?_⟩
  rw [List.map_replicate, show BitVec.ofInt W 0 = 0 from rfl, cls_replicate_zero]

theorem map_zipWith_add (u v : List Int) :
    (List.zipWith (· + ·) u v).map (BitVec.ofInt W) = List.zipWith (· + ·) (u.map (BitVec.ofInt W)) (v.map (BitVec.ofInt W)) := by
  induction u generalizing v with
  | nil => simp
  | cons a u ih => cases v <;> simp [ih, BitVec.ofInt_add]

theorem Small.add {A B : Nat} {x y : Nega (BitVec W) N} (hx : Small N A x) (hy : Small N B y) : Small N (A + B) (x + y) := by
  obtain ⟨u, u1, u2, rfl⟩ := hx
  obtain ⟨v, v1, v2, rfl⟩ := hy
  refine ⟨List.zipWith (· + ·) u v, by simp [u1, v1], ?_, ?_⟩
  · intro e he
    obtain ⟨i, hi, rfl⟩ := List.getElem_of_mem he
    rw [List.getElem_zipWith]
    have := u2 _ (List.getElem_mem (l := u) (n := i) (by simp at hi; omega))
    have := v2 _ (List.getElem_mem (l := v) (n := i) (by simp at hi; omega))
    omega
  · rw [map_zipWith_add, cls_zipWith_add _ _ _ (by simp [u1, v1])]

theorem Small.neg {A : Nat} {x : Nega (BitVec W) N} (hx : Small N A x) : Small N A (-x) := by
  obtain ⟨u, u1, u2, rfl⟩ := hx
  refine ⟨u.map (fun e => -e), by simp [u1], ?_, ?_⟩
  · intro e he
    obtain ⟨a, ha, rfl⟩ := List.mem_map.1 he
    have := u2 a ha; omega
  · rw [← cls_neg]; congr 1
    simp [List.map_map, Function.comp_def, BitVec.ofInt_neg]

theorem Small.sub {A B : Nat} {x y : Nega (BitVec W) N} (hx : Small N A x) (hy : Small N B y) : Small N (A + B) (x - y) := by
  rw [sub_eq_add_neg]; exact hx.add hy.neg

theorem Small.smul {A : Nat} {x : Nega (BitVec W) N} (c : Int) (hx : Small N A x) :
    Small N (c.natAbs * A) (AdjoinRoot.of _ (BitVec.ofInt W c) * x) := by
  obtain ⟨u, u1, u2, rfl⟩ := hx
  refine ⟨u.map (fun e => e * c), by simp [u1], ?_, ?_⟩
  · intro e he
    obtain ⟨a, ha, rfl⟩ := List.mem_map.1 he
    rw [Int.natAbs_mul, Nat.mul_comm]
    exact Nat.mul_le_mul_left _ (u2 a ha)
  · rw [mul_comm, ← cls_smul]; congr 1
    simp [List.map_map, Function.comp_def, BitVec.ofInt_mul]

theorem Small.xmul {A : Nat} {x : Nega (BitVec W) N} (hx : Small N A x) : Small N A (xcls N * x) := by
  obtain ⟨u, u1, u2, rfl⟩ := hx
  rcases List.eq_nil_or_concat u with rfl | ⟨v, z, rfl⟩
  · refine ⟨[], by simpa using u1, by simp, ?_⟩
    simp [cls, toPoly]
  · simp only [List.concat_eq_append] at *
    refine ⟨(-z) :: v, by simp at u1 ⊢; exact u1, ?_, ?_⟩
    · intro e he
      simp only [List.mem_cons] at he
      rcases he with rfl | he
      · have := u2 z (by simp); omega
      · exact u2 e (by simp [he])
    · have hN : v.length + 1 = N := by simpa using u1
      rw [List.map_cons, cls_cons, List.map_append, cls_append, List.length_map, List.map_cons, List.map_nil, cls_cons,
        BitVec.ofInt_neg, map_neg]
      have hx := xcls_pow (R := BitVec W) N
      rw [← hN, pow_succ] at hx
      have h0 : cls N ([] : List (BitVec W)) = 0 := by simp [cls, toPoly]
      rw [h0, mul_zero, add_zero]
      subst hN
      calc xcls (v.length + 1) * (cls _ (v.map (BitVec.ofInt W)) + xcls (v.length + 1) ^ v.length * AdjoinRoot.of _ (BitVec.ofInt W z))
          = xcls (v.length + 1) * cls _ (v.map (BitVec.ofInt W)) + (xcls (v.length + 1) ^ v.length * xcls (v.length + 1)) * AdjoinRoot.of _ (BitVec.ofInt W z) := by ring
        _ = _ := by rw [hx]; ring

theorem Small.mul_list {A B : Nat} {y : Nega (BitVec W) N} (hy : Small N B y) :
    ∀ l : List Int, (∀ e ∈ l, e.natAbs ≤ A) → Small N (l.length * (A * B)) (cls N (l.map (BitVec.ofInt W)) * y)
  | [], _ => by simpa [cls, toPoly] using small_zero
  | z :: l, h => by
    rw [List.map_cons, cls_cons, add_mul, mul_assoc, List.length_cons, Nat.add_mul, Nat.one_mul, Nat.add_comm]
    refine Small.add ((hy.smul z).mono ?_) (Small.xmul (Small.mul_list hy l fun e he => h e (by simp [he])))
    exact Nat.mul_le_mul_right _ (h z (by simp))

theorem Small.mul {A B : Nat} {x y : Nega (BitVec W) N} (hx : Small N A x) (hy : Small N B y) : Small N (N * (A * B)) (x * y) := by
  obtain ⟨u, u1, u2, rfl⟩ := hx
  have := Small.mul_list hy u u2
  rwa [u1] at this

theorem nearPoly_of_small {B : Nat} {p q : List (BitVec W)} (hp : p.length = N) (hq : q.length = N)
    (h : Small N B (cls N p - cls N q)) : NearPoly B p q := by
  obtain ⟨l, l1, l2, l3⟩ := h
  have : p = List.zipWith (· + ·) q (l.map (BitVec.ofInt W)) := by
    apply cls_inj N _ _ hp (by simp [hq, l1])
    rw [cls_zipWith_add _ _ _ (by simp [hq, l1]), ← l3]; ring
  rw [NearPoly, List.forall₂_iff_get]
  refine ⟨by omega, fun i h1 h2 => ?_⟩
  refine ⟨l[i]'(by omega), l2 _ (List.getElem_mem _), ?_⟩
  simp only [List.get_eq_getElem]
  conv_lhs => rw [List.getElem_of_eq this]
  simp

theorem small_of_nearPoly {B : Nat} {p q : List (BitVec W)} (hp : p.length = N) (h : NearPoly B p q) :
    Small N B (cls N p - cls N q) := by
  have key : ∀ (p q : List (BitVec W)), NearPoly B p q → ∃ l : List Int, l.length = q.length ∧ (∀ e ∈ l, e.natAbs ≤ B) ∧
      p = List.zipWith (· + ·) q (l.map (BitVec.ofInt W)) := by
    intro p q h
    induction h with
    | nil => exact ⟨[], rfl, by simp, rfl⟩
    | cons h1 _ ih =>
      obtain ⟨e, he, rfl⟩ := h1
      obtain ⟨l, l1, l2, rfl⟩ := ih
      exact ⟨e :: l, by simp [l1], by simpa using ⟨he, l2⟩, by simp⟩
  obtain ⟨l, l1, l2, l3⟩ := key p q h
  have hlen : q.length = N := by rw [← hp]; exact (List.Forall₂.length_eq h).symm
  refine ⟨l, by omega, l2, ?_⟩
  rw [l3, cls_zipWith_add _ _ _ (by simp [l1])]; ring

/-- Near elements of the torus compose. -/
theorem Near.refl {W : Nat} (x : BitVec W) : Near 0 x x := ⟨0, by simp, by simp⟩

theorem Near.trans {A B : Nat} {x y z : BitVec W} (h : Near A x y) (h' : Near B y z) : Near (A + B) x z := by
  obtain ⟨e, he, rfl⟩ := h
  obtain ⟨f, hf, rfl⟩ := h'
  exact ⟨f + e, by omega, by rw [BitVec.ofInt_add]; ring⟩

theorem Near.mono {A B : Nat} {x y : BitVec W} (h : Near A x y) (hAB : A ≤ B) : Near B x y := by
  obtain ⟨e, he, rfl⟩ := h
  exact ⟨e, by omega, rfl⟩

end Spf.Tfhe
