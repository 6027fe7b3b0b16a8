import Verif.Model.Poly
import Verif.Spec.Poly
import Mathlib.Data.BitVec
import Mathlib.Tactic.Ring
import Mathlib.Tactic.LinearCombination
import Mathlib.Tactic.Linarith
namespace Spf.Tfhe
open Polynomial Spf.Spec
variable {R : Type} [CommRing R]

@[simp] theorem toPoly_nil : toPoly ([] : List R) = 0 := rfl
@[simp] theorem toPoly_cons (a : R) (l : List R) : toPoly (a :: l) = C a + X * toPoly l := rfl

theorem toPoly_append (u v : List R) : toPoly (u ++ v) = toPoly u + X ^ u.length * toPoly v := by
  induction u with
  | nil => simp
  | cons a u ih => rw [List.cons_append, toPoly_cons, ih, toPoly_cons, List.length_cons]; ring

theorem toPoly_neg (u : List R) : toPoly (u.map fun x => -x) = - toPoly u := by
  induction u with
  | nil => simp
  | cons a u ih => rw [List.map_cons, toPoly_cons, ih, toPoly_cons, C_neg]; ring

theorem toPoly_coeff (l : List R) : ∀ i, (toPoly l).coeff i = l.getD i 0 := by
  induction l with
  | nil => intro i; simp
  | cons a l ih =>
    intro i
    cases i with
    | zero => simp
    | succ i => rw [toPoly_cons, coeff_add, coeff_X_mul, coeff_C_succ, ih]; simp

theorem toPoly_modify (l : List R) : ∀ (k : Nat) (f : R → R) (v : R), k < l.length → (∀ x, f x = x + v) →
    toPoly (l.modify k f) = toPoly l + C v * X ^ k := by
  induction l with
  | nil => intro k f v hk; simp at hk
  | cons a l ih =>
    intro k f v hk hf
    cases k with
    | zero => rw [List.modify_zero_cons, toPoly_cons, toPoly_cons, hf, C_add]; ring
    | succ k => rw [List.modify_succ_cons, toPoly_cons, toPoly_cons, ih k f v (by simpa using hk) hf]; ring

section
variable (N : Nat)

theorem xcls_pow : (xcls N : Nega R N) ^ N = -1 := by
  have : AdjoinRoot.mk (X ^ N + 1 : R[X]) (X ^ N + 1) = 0 := AdjoinRoot.mk_self
  rw [map_add, map_pow, map_one, AdjoinRoot.mk_X] at this
  exact eq_neg_of_add_eq_zero_left this

@[simp] theorem cls_nil : cls N ([] : List R) = 0 := by simp [cls]

theorem cls_cons (a : R) (l : List R) : cls N (a :: l) = AdjoinRoot.of _ a + xcls N * cls N l := by
  simp only [cls, toPoly_cons, map_add, map_mul, AdjoinRoot.mk_X, AdjoinRoot.mk_C]; rfl

theorem cls_append (u v : List R) : cls N (u ++ v) = cls N u + xcls N ^ u.length * cls N v := by
  simp only [cls, toPoly_append, map_add, map_mul, map_pow, AdjoinRoot.mk_X]; rfl

theorem cls_neg (u : List R) : cls N (u.map fun x => -x) = - cls N u := by
  simp only [cls, toPoly_neg, map_neg]

theorem cls_modify (l : List R) (k : Nat) (f : R → R) (v : R) (hk : k < l.length) (hf : ∀ x, f x = x + v) :
    cls N (l.modify k f) = cls N l + AdjoinRoot.of _ v * xcls N ^ k := by
  simp only [cls, toPoly_modify l k f v hk hf, map_add, map_mul, map_pow, AdjoinRoot.mk_X, AdjoinRoot.mk_C]; rfl

theorem cls_zipWith_add (a b : List R) (h : a.length = b.length) : cls N (List.zipWith (· + ·) a b) = cls N a + cls N b := by
  induction a generalizing b with
  | nil => cases b <;> simp_all
  | cons x a ih =>
    cases b with
    | nil => simp at h
    | cons y b => rw [List.zipWith_cons_cons, cls_cons, cls_cons, cls_cons, ih b (by simpa using h), map_add]; ring

theorem cls_zipWith_sub (a b : List R) (h : a.length = b.length) : cls N (List.zipWith (· - ·) a b) = cls N a - cls N b := by
  induction a generalizing b with
  | nil => cases b <;> simp_all
  | cons x a ih =>
    cases b with
    | nil => simp at h
    | cons y b => rw [List.zipWith_cons_cons, cls_cons, cls_cons, cls_cons, ih b (by simpa using h), map_sub]; ring

theorem cls_smul (a : List R) (s : R) : cls N (a.map fun x => x * s) = cls N a * AdjoinRoot.of _ s := by
  induction a with
  | nil => simp
  | cons x a ih => rw [List.map_cons, cls_cons, cls_cons, ih, map_mul]; ring

theorem zipAssign_eq {α β : Type} (f : α → β → α) (a : List α) (b : List β) (h : a.length = b.length) : zipAssign f a b = List.zipWith f a b := by
  induction a generalizing b with
  | nil => cases b <;> simp_all [zipAssign]
  | cons x a ih =>
    cases b with
    | nil => simp at h
    | cons y b => simp [zipAssign, ih b (by simpa using h)]

theorem zipAssign_length {α β : Type} (f : α → β → α) (a : List α) (b : List β) : (zipAssign f a b).length = a.length := by
  induction a generalizing b with
  | nil => cases b <;> simp [zipAssign]
  | cons x a ih => cases b <;> simp [zipAssign, ih]

theorem cls_scalarMad (c a : List R) (s : R) (h : c.length = a.length) :
    cls N (polyScalarMad c a s) = cls N c + cls N a * AdjoinRoot.of _ s := by
  rw [polyScalarMad, zipAssign_eq _ _ _ h]
  induction c generalizing a with
  | nil => cases a <;> simp_all
  | cons x c ih =>
    cases a with
    | nil => simp at h
    | cons y a => rw [List.zipWith_cons_cons, cls_cons, cls_cons, cls_cons, ih a (by simpa using h), map_add, map_mul]; ring

theorem cls_replicate_zero (n : Nat) : cls N (List.replicate n (0 : R)) = 0 := by
  induction n with
  | zero => simp
  | succ n ih => rw [List.replicate_succ, cls_cons, ih]; simp

/-- a list of `N` coefficients is determined by its class -/
theorem cls_inj (a b : List R) (ha : a.length = N) (hb : b.length = N) (h : cls N a = cls N b) : a = b := by
  cases subsingleton_or_nontrivial R with
  | inl hs => exact List.ext_getElem (by omega) fun i _ _ => Subsingleton.elim _ _
  | inr hn =>
    rcases Nat.eq_zero_or_pos N with rfl | hN
    · rw [List.length_eq_zero_iff] at ha hb; rw [ha, hb]
    rw [cls, cls, AdjoinRoot.mk_eq_mk] at h
    have hmon : (X ^ N + 1 : R[X]).Monic := by
      have := monic_X_pow_add_C (R := R) (a := 1) (n := N) (by omega)
      simpa using this
    have hdeg : (X ^ N + 1 : R[X]).degree = N := by
      have := degree_X_pow_add_C (R := R) (n := N) hN 1
      simpa using this
    have hz : toPoly a - toPoly b = 0 := by
      by_contra hne
      refine hmon.not_dvd_of_degree_lt hne ?_ h
      rw [hdeg, degree_lt_iff_coeff_zero]
      intro i hi
      rw [coeff_sub, toPoly_coeff, toPoly_coeff]
      simp [List.getD, List.getElem?_eq_none (show a.length ≤ i by omega), List.getElem?_eq_none (show b.length ≤ i by omega)]
    apply List.ext_getElem (by omega)
    intro i h1 h2
    have := congrArg (fun p => coeff p i) hz
    simp only [coeff_sub, toPoly_coeff, coeff_zero] at this
    simpa [List.getD, h1, h2, sub_eq_zero] using this
end

/-! ### monomial rotation -/

theorem negateRange_tail (v u : List R) : negateRange (v ++ u) v.length (v.length + u.length) = v ++ u.map fun x => -x := by
  apply List.ext_getElem
  · simp [negateRange]
  · intro i h1 h2
    have hi : i < v.length + u.length := by simpa using h2
    simp only [negateRange, List.getElem_mapIdx, List.getElem_append, List.getElem_map]
    by_cases h : i < v.length
    · rw [dif_pos h, dif_pos h, if_neg (by omega)]
    · rw [dif_neg h, dif_neg h, if_pos (by omega)]

theorem negateRange_head (v u : List R) : negateRange (v ++ u) 0 v.length = (v.map fun x => -x) ++ u := by
  apply List.ext_getElem
  · simp [negateRange]
  · intro i h1 h2
    have hi : i < v.length + u.length := by simpa using h2
    simp only [negateRange, List.getElem_mapIdx, List.getElem_append, List.getElem_map, List.length_map]
    by_cases h : i < v.length
    · rw [dif_pos h, dif_pos h, if_pos (by omega)]
    · rw [dif_neg h, dif_neg h, if_neg (by omega)]

theorem xcls_pow_mod (N d : Nat) : (xcls N : Nega R N) ^ (d % (2 * N)) = xcls N ^ d := by
  conv_rhs => rw [← Nat.div_add_mod d (2 * N)]
  rw [pow_add, pow_mul, mul_comm 2 N, pow_mul, xcls_pow]
  simp

theorem mulByNegMonomial_spec (p : List R) (d : Nat) (hp : p ≠ []) :
    ∃ q, mulByNegMonomial p d = some q ∧ q.length = p.length ∧ xcls p.length ^ d * cls p.length q = cls p.length p := by
  have hlen : 0 < p.length := List.length_pos_iff.mpr hp
  rw [← xcls_pow_mod p.length d]
  have hdlt : d % (2 * p.length) < 2 * p.length := Nat.mod_lt _ (by omega)
  simp only [mulByNegMonomial]
  rw [if_neg (by omega)]
  generalize d % (2 * p.length) = e at hdlt
  have hX := xcls_pow (R := R) p.length
  generalize hN : p.length = N at *
  by_cases h0 : e = 0
  · rw [if_pos h0]; exact ⟨p, rfl, hN, by rw [h0]; simp⟩
  rw [if_neg h0]
  by_cases h1 : e = N
  · rw [if_pos h1]; refine ⟨_, rfl, by simp [hN], ?_⟩
    rw [h1, hX, cls_neg]; ring
  rw [if_neg h1]
  have hs : e % N < N := Nat.mod_lt _ hlen
  have hsplit : p = p.take (e % N) ++ p.drop (e % N) := (List.take_append_drop _ _).symm
  have hu : (p.take (e % N)).length = e % N := by rw [List.length_take]; omega
  have hv : (p.drop (e % N)).length = N - e % N := by rw [List.length_drop]; omega
  have hcls : cls N p = cls N (p.take (e % N)) + xcls N ^ (e % N) * cls N (p.drop (e % N)) := by
    conv_lhs => rw [hsplit]
    rw [cls_append, hu]
  rw [hcls, rotL]
  generalize p.take (e % N) = u at *
  generalize p.drop (e % N) = v at *
  by_cases h2 : e < N
  · have hes : e % N = e := Nat.mod_eq_of_lt h2
    rw [if_pos h2]
    have : negateRange (v ++ u) (N - e % N) N = v ++ u.map fun x => -x := by
      rw [← negateRange_tail]; congr 1 <;> omega
    refine ⟨_, rfl, by rw [this]; simp; omega, ?_⟩
    rw [this, cls_append, cls_neg, hv, hes]
    have : (xcls N : Nega R N) ^ e * xcls N ^ (N - e) = -1 := by rw [← pow_add, show e + (N - e) = N by omega, hX]
    linear_combination (-cls N u) * this
  · have hes : e = N + e % N := by
      have := Nat.mod_eq_sub_mod (show e ≥ N by omega)
      rw [Nat.mod_eq_of_lt (show e - N < N by omega)] at this; omega
    rw [if_neg h2]
    have : negateRange (v ++ u) 0 (N - e % N) = (v.map fun x => -x) ++ u := by
      rw [← negateRange_head]; congr 1; omega
    refine ⟨_, rfl, by rw [this]; simp; omega, ?_⟩
    rw [this, cls_append, cls_neg, List.length_map, hv]
    generalize hg : e % N = g at *
    have h3 : (xcls N : Nega R N) ^ g * xcls N ^ (N - g) = -1 := by rw [← pow_add, show g + (N - g) = N by omega, hX]
    have h4 : (xcls N : Nega R N) ^ e = - xcls N ^ g := by rw [hes, pow_add, hX]; ring
    rw [h4]
    linear_combination (-cls N u) * h3

theorem mulByPosMonomial_spec (p : List R) (d : Nat) (hp : p ≠ []) :
    ∃ q, mulByPosMonomial p d = some q ∧ q.length = p.length ∧ cls p.length q = xcls p.length ^ d * cls p.length p := by
  have hlen : 0 < p.length := List.length_pos_iff.mpr hp
  rw [← xcls_pow_mod p.length d]
  have hdlt : d % (2 * p.length) < 2 * p.length := Nat.mod_lt _ (by omega)
  simp only [mulByPosMonomial]
  rw [if_neg (by omega)]
  generalize d % (2 * p.length) = e at hdlt
  have hX := xcls_pow (R := R) p.length
  have hlen' := rfl (a := p.length)
  rw [rotR]
  generalize hN : p.length = N at *
  by_cases h0 : e = 0
  · rw [if_pos h0]; exact ⟨p, rfl, hN, by rw [h0]; simp⟩
  rw [if_neg h0]
  by_cases h1 : e = N
  · rw [if_pos h1]; refine ⟨_, rfl, by simp [hN], ?_⟩
    rw [h1, hX, cls_neg]; ring
  rw [if_neg h1]
  have hs : e % N < N := Nat.mod_lt _ hlen
  have hsplit : p = p.take (N - e % N) ++ p.drop (N - e % N) := (List.take_append_drop _ _).symm
  have hu : (p.take (N - e % N)).length = N - e % N := by rw [List.length_take]; omega
  have hv : (p.drop (N - e % N)).length = e % N := by rw [List.length_drop]; omega
  have hcls : cls N p = cls N (p.take (N - e % N)) + xcls N ^ (N - e % N) * cls N (p.drop (N - e % N)) := by
    conv_lhs => rw [hsplit]
    rw [cls_append, hu]
  rw [hcls]
  generalize p.take (N - e % N) = u at *
  generalize p.drop (N - e % N) = v at *
  by_cases h2 : e < N
  · have hes : e % N = e := Nat.mod_eq_of_lt h2
    rw [if_pos h2]
    have : negateRange (v ++ u) 0 e = (v.map fun x => -x) ++ u := by
      rw [← negateRange_head]; congr 1; omega
    refine ⟨_, rfl, by rw [this]; simp; omega, ?_⟩
    rw [this, cls_append, cls_neg, List.length_map, hv, hes]
    have : (xcls N : Nega R N) ^ e * xcls N ^ (N - e) = -1 := by rw [← pow_add, show e + (N - e) = N by omega, hX]
    linear_combination (-cls N v) * this
  · have hes : e = N + e % N := by
      have := Nat.mod_eq_sub_mod (show e ≥ N by omega)
      rw [Nat.mod_eq_of_lt (show e - N < N by omega)] at this; omega
    rw [if_neg h2]
    have : negateRange (v ++ u) (e % N) N = v ++ u.map fun x => -x := by
      rw [← negateRange_tail]; congr 1 <;> omega
    refine ⟨_, rfl, by rw [this]; simp; omega, ?_⟩
    rw [this, cls_append, cls_neg, hv]
    generalize hg : e % N = g at *
    have h3 : (xcls N : Nega R N) ^ g * xcls N ^ (N - g) = -1 := by rw [← pow_add, show g + (N - g) = N by omega, hX]
    have h4 : (xcls N : Nega R N) ^ e = - xcls N ^ g := by rw [hes, pow_add, hX]; ring
    rw [h4]
    linear_combination (cls N v) * h3

/-! ### multiplication -/

theorem isPow2_iff {n : Nat} : isPow2 n = true ↔ ∃ k, n = 2 ^ k := by
  constructor
  · intro h
    simp only [isPow2, Bool.and_eq_true, decide_eq_true_eq] at h
    obtain ⟨h0, h1⟩ := h
    refine ⟨Nat.log2 n, ?_⟩
    by_contra hne
    have hlo := Nat.log2_self_le h0
    have hhi := Nat.lt_log2_self (n := n)
    have hlt : 2 ^ n.log2 < n := by omega
    have t1 : n.testBit n.log2 = true := by
      obtain ⟨r, hr⟩ : ∃ r, n = 2 ^ n.log2 + r := ⟨n - 2 ^ n.log2, by omega⟩
      have hr2 : r < 2 ^ n.log2 := by rw [Nat.pow_succ] at hhi; omega
      rw [Nat.testBit_eq_decide_div_mod_eq]
      have : n / 2 ^ n.log2 = 1 := by
        apply Nat.div_eq_of_lt_le
        · omega
        · rw [Nat.pow_succ] at hhi; omega
      rw [this]; rfl
    have t2 : (n - 1).testBit n.log2 = true := by
      rw [Nat.testBit_eq_decide_div_mod_eq]
      have : (n - 1) / 2 ^ n.log2 = 1 := by
        apply Nat.div_eq_of_lt_le
        · omega
        · rw [Nat.pow_succ] at hhi; omega
      rw [this]; rfl
    have := congrArg (fun m => Nat.testBit m n.log2) h1
    simp [Nat.testBit_and, t1, t2] at this
  · rintro ⟨k, rfl⟩
    have hp := Nat.two_pow_pos k
    simp only [isPow2, Bool.and_eq_true, decide_eq_true_eq]
    refine ⟨by omega, ?_⟩
    rw [Nat.and_two_pow_sub_one_eq_mod]; simp

theorem and_len_mask {n m : Nat} (h : isPow2 n = true) : m &&& (n - 1) = m % n := by
  obtain ⟨k, rfl⟩ := isPow2_iff.mp h
  exact Nat.and_two_pow_sub_one_eq_mod _ _

theorem madStep_spec {N i j : Nat} (l r : R) (c : List R) (hN : isPow2 N = true) (hi : i < N) (hj : j < N) (hc : c.length = N) :
    (madStep N i l c j r).length = N ∧
    cls N (madStep N i l c j r) = cls N c + AdjoinRoot.of _ l * AdjoinRoot.of _ r * xcls N ^ (i + j) := by
  rw [madStep]
  split
  · rename_i h
    rw [and_len_mask hN]
    have hm : (i + j) % N = i + j - N := by rw [Nat.mod_eq_sub_mod h, Nat.mod_eq_of_lt (by omega)]
    refine ⟨by simp [hc], ?_⟩
    rw [cls_modify N c _ _ (-(l * r)) (by omega) (fun x => sub_eq_add_neg _ _), hm]
    have : (xcls N : Nega R N) ^ (i + j) = - xcls N ^ (i + j - N) := by
      conv_lhs => rw [show i + j = N + (i + j - N) by omega]
      rw [pow_add, xcls_pow]; ring
    rw [this, map_neg, map_mul]; ring
  · refine ⟨by simp [hc], ?_⟩
    rw [cls_modify N c _ _ (l * r) (by omega) (fun x => rfl), map_mul]

theorem madInner_spec {N i : Nat} (l : R) (hN : isPow2 N = true) (hi : i < N) : ∀ (b : List R) (j : Nat) (c : List R),
    j + b.length ≤ N → c.length = N → (madInner N i l b j c).length = N ∧
    cls N (madInner N i l b j c) = cls N c + AdjoinRoot.of _ l * xcls N ^ i * (xcls N ^ j * cls N b)
  | [], j, c, _, hc => ⟨hc, by simp [madInner]⟩
  | r :: b, j, c, hj, hc => by
    simp only [List.length_cons] at hj
    obtain ⟨h1, h2⟩ := madStep_spec l r c hN hi (show j < N by omega) hc
    obtain ⟨h3, h4⟩ := madInner_spec l hN hi b (j + 1) (madStep N i l c j r) (by omega) h1
    refine ⟨h3, ?_⟩
    rw [madInner, h4, h2, cls_cons]
    ring

theorem madOuter_spec {N : Nat} (b : List R) (hN : isPow2 N = true) (hb : b.length = N) : ∀ (a : List R) (i : Nat) (c : List R),
    i + a.length ≤ N → c.length = N → (madOuter N b a i c).length = N ∧
    cls N (madOuter N b a i c) = cls N c + xcls N ^ i * cls N a * cls N b
  | [], i, c, _, hc => ⟨hc, by simp [madOuter]⟩
  | l :: a, i, c, hi, hc => by
    simp only [List.length_cons] at hi
    obtain ⟨h1, h2⟩ := madInner_spec l hN (show i < N by omega) b 0 c (by omega) hc
    obtain ⟨h3, h4⟩ := madOuter_spec b hN hb a (i + 1) (madInner N i l b 0 c) (by omega) h1
    refine ⟨h3, ?_⟩
    rw [madOuter, h4, h2, cls_cons]
    ring

theorem polyMad_spec {N : Nat} (c a b : List R) (hN : isPow2 N = true) (hc : c.length = N) (ha : a.length = N) (hb : b.length = N) :
    ∃ q, polyMad c a b = some q ∧ q.length = N ∧ cls N q = cls N c + cls N a * cls N b := by
  obtain ⟨h1, h2⟩ := madOuter_spec b hN hb a 0 c (by omega) hc
  refine ⟨madOuter N b a 0 c, ?_, h1, by rw [h2]; simp⟩
  rw [polyMad, ha, if_pos ⟨hN, by omega, by omega⟩]

end Spf.Tfhe
