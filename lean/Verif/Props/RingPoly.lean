import Verif.Model.RingPoly
import Verif.Spec.Poly
import Verif.Proof.Poly
import Mathlib.Algebra.Polynomial.Div
import Mathlib.Data.ZMod.Basic
/-! C95: the polynomials of `sunscreen_math` are the polynomials over the coefficient ring. -/
namespace Spf.Props
open Spf.RingPoly Spf.Spec Polynomial
open Spf.Tfhe (toPoly_coeff toPoly_append toPoly_neg toPoly_cons toPoly_nil)
variable {R : Type} [CommRing R] [DecidableEq R]

/-! ### Zero and degree -/

/-- C95: a coefficient vector counts as zero exactly when it is the zero polynomial. -/
theorem C95_is_zero (l : List R) : isZero l = true ↔ toPoly l = 0 := by
  constructor
  · intro h
    ext i
    rw [toPoly_coeff, coeff_zero]
    rw [isZero, List.all_eq_true] at h
    by_cases hi : i < l.length
    · have := h _ (List.getElem_mem hi)
      simp only [decide_eq_true_eq] at this
      simp [List.getD, hi, this]
    · simp [List.getD, Nat.le_of_not_lt hi]
  · intro h
    rw [isZero, List.all_eq_true]
    intro c hc
    obtain ⟨i, hi, rfl⟩ := List.getElem_of_mem hc
    have := congrArg (fun p => p.coeff i) h
    simp only [toPoly_coeff, coeff_zero] at this
    simpa [List.getD, hi] using this

theorem degreeLoop_spec (l : List R) : ∀ (t : List R), degreeLoop (l.length + t.length) l.reverse t.length =
    if toPoly l = 0 then none else some (toPoly l).natDegree := by
  induction l using List.reverseRecOn with
  | nil => intro t; simp [degreeLoop]
  | append_singleton l c ih =>
    intro t
    rw [List.reverse_append, List.reverse_singleton, List.singleton_append, degreeLoop]
    have happ := toPoly_append l [c]
    simp only [toPoly_cons, toPoly_nil, mul_zero, add_zero] at happ
    by_cases hc : c = 0
    · subst hc
      rw [if_neg (by simp)]
      have := ih (0 :: t)
      simp only [List.length_cons] at this
      rw [show (l ++ [(0 : R)]).length + t.length = l.length + (t.length + 1) by simp; omega, this, happ]
      simp
    · rw [if_pos hc]
      have hne : toPoly (l ++ [c]) ≠ 0 := by
        intro h
        have := congrArg (fun p => p.coeff l.length) h
        simp only [toPoly_coeff, coeff_zero] at this
        simp at this
        exact hc this
      have hdeg : (toPoly (l ++ [c])).natDegree = l.length := by
        apply le_antisymm
        · apply natDegree_le_iff_coeff_eq_zero.2
          intro i hi
          rw [toPoly_coeff]
          have : (l ++ [c]).length ≤ i := by simp; omega
          rw [List.getD, List.getElem?_eq_none this]; rfl
        · apply le_natDegree_of_ne_zero
          rw [toPoly_coeff]
          simpa using hc
      rw [if_neg hne, hdeg]
      simp

/-- C95: the reported degree is the degree of the polynomial; only the zero polynomial panics, however it is padded. -/
theorem C95_degree (l : List R) :
    RingPoly.degree l = if toPoly l = 0 then none else some (toPoly l).natDegree := by
  simpa [RingPoly.degree] using degreeLoop_spec l []

/-! ### Ring operations -/

omit [DecidableEq R] in
theorem evaluate_fold (x : R) (l : List R) : ∀ s p : R,
    (l.foldl (fun (s : R × R) i => (s.1 + i * s.2, s.2 * x)) (s, p)).1 = s + p * (toPoly l).eval x := by
  induction l with
  | nil => intro s p; simp
  | cons a l ih => intro s p; rw [List.foldl_cons, ih]; simp; ring

omit [DecidableEq R] in
/-- C95: `evaluate` is evaluation. -/
theorem C95_evaluate (l : List R) (x : R) : evaluate l x = (toPoly l).eval x := by
  rw [evaluate, evaluate_fold]; ring

omit [DecidableEq R] in
theorem toPoly_range (n : Nat) (f : Nat → R) (i : Nat) :
    (toPoly ((List.range n).map f)).coeff i = if i < n then f i else 0 := by
  rw [toPoly_coeff]
  by_cases h : i < n
  · simp [List.getD, h]
  · simp [List.getD, h, Nat.le_of_not_lt h]

omit [DecidableEq R] in
/-- C95: `+`, whatever the lengths of the vectors. -/
theorem C95_add (a b : List R) : toPoly (RingPoly.add a b) = toPoly a + toPoly b := by
  ext i
  rw [RingPoly.add, toPoly_range, coeff_add, toPoly_coeff, toPoly_coeff]
  split
  · rfl
  · rename_i h
    have h1 : a.length ≤ i := by omega
    have h2 : b.length ≤ i := by omega
    simp [List.getD, h1, h2]

omit [DecidableEq R] in
/-- C95: `-`, whatever the lengths of the vectors. -/
theorem C95_sub (a b : List R) : toPoly (RingPoly.sub a b) = toPoly a - toPoly b := by
  ext i
  rw [RingPoly.sub, toPoly_range, coeff_sub, toPoly_coeff, toPoly_coeff]
  split
  · rfl
  · rename_i h
    have h1 : a.length ≤ i := by omega
    have h2 : b.length ≤ i := by omega
    simp [List.getD, h1, h2]

omit [DecidableEq R] in
/-- C95: negation and multiplication by a scalar. -/
theorem C95_neg_smul (a : List R) (c : R) :
    toPoly (RingPoly.neg a) = - toPoly a ∧ toPoly (RingPoly.smul a c) = C c * toPoly a := by
  refine ⟨toPoly_neg a, ?_⟩
  induction a with
  | nil => simp [RingPoly.smul]
  | cons x a ih =>
    rw [RingPoly.smul] at *
    rw [List.map_cons, toPoly_cons, ih, toPoly_cons, C_mul]; ring

omit [DecidableEq R] in
theorem toPoly_set (l : List R) (k : Nat) (v : R) (h : k < l.length) :
    toPoly (l.set k v) = toPoly l + C (v - l.getD k 0) * X ^ k := by
  ext i
  simp only [toPoly_coeff, coeff_add, coeff_C_mul, coeff_X_pow]
  by_cases hi : i = k
  · subst hi; simp [List.getD, h]
  · have : ¬ k = i := fun e => hi e.symm
    simp [List.getD, List.getElem?_set, this, hi]

omit [DecidableEq R] in
theorem mulLoop_spec (a b : List R) : ∀ (ps : List (Nat × Nat)) (out : List R),
    (∀ p ∈ ps, p.1 + p.2 < out.length) →
    ∃ o, mulLoop a b ps out = some o ∧ toPoly o = toPoly out +
      (ps.map fun p => C (a.getD p.1 0 * b.getD p.2 0) * X ^ (p.1 + p.2)).sum
  | [], out, _ => ⟨out, rfl, by simp⟩
  | (i, j) :: ps, out, h => by
    have hi : i + j < out.length := h (i, j) (by simp)
    obtain ⟨o, ho, hp⟩ := mulLoop_spec a b ps (out.set (i + j) (a.getD i 0 * b.getD j 0 + out[i + j]))
      (by intro p hp; rw [List.length_set]; exact h p (by simp [hp]))
    refine ⟨o, ?_, ?_⟩
    · rw [mulLoop, List.getElem?_eq_getElem hi]; exact ho
    · rw [hp, toPoly_set _ _ _ hi]
      have : out.getD (i + j) 0 = out[i + j] := by simp [List.getD, hi]
      rw [this, add_sub_cancel_right]
      simp only [List.map_cons, List.sum_cons]
      ring

omit [DecidableEq R] in
theorem toPoly_sum (l : List R) : toPoly l = ((List.range l.length).map fun i => C (l.getD i 0) * X ^ i).sum := by
  induction l with
  | nil => simp
  | cons a l ih =>
    rw [List.length_cons, List.range_succ_eq_map, List.map_cons, List.map_map, List.sum_cons, toPoly_cons, ih]
    simp only [List.getD_cons_zero, pow_zero, mul_one]
    rw [← List.sum_map_mul_left]
    congr 1
    congr 1
    apply List.map_congr_left
    intro i _
    simp only [Function.comp, List.getD_cons_succ, Nat.succ_eq_add_one, pow_succ]
    ring

omit [DecidableEq R] in
theorem pairs_sum (f g : Nat → R[X]) (n m : Nat) :
    ((pairs n m).map fun p => f p.1 * g p.2).sum =
      ((List.range n).map f).sum * ((List.range m).map g).sum := by
  rw [pairs]
  generalize List.range n = l
  induction l with
  | nil => simp
  | cons i l ih =>
    rw [List.flatMap_cons, List.map_append, List.sum_append, ih, List.map_cons, List.sum_cons, add_mul]
    congr 1
    rw [← List.sum_map_mul_left, List.map_map]
    rfl

omit [DecidableEq R] in
/-- C95: `*` succeeds for all operands and is multiplication. -/
theorem C95_mul (a b : List R) : ∃ c, RingPoly.mul a b = some c ∧ toPoly c = toPoly a * toPoly b := by
  by_cases h : (a.isEmpty || b.isEmpty) = true
  · refine ⟨[], by rw [RingPoly.mul, if_pos h], ?_⟩
    rw [Bool.or_eq_true, List.isEmpty_iff, List.isEmpty_iff] at h
    rcases h with rfl | rfl <;> simp
  · have ha : 0 < a.length := by
      cases a with
      | nil => simp at h
      | cons => simp
    have hb : 0 < b.length := by
      cases b with
      | nil => simp at h
      | cons => simp
    obtain ⟨o, ho, hp⟩ := mulLoop_spec a b (pairs a.length b.length)
      (List.replicate ((a.length - 1) + (b.length - 1) + 1) (0 : R)) (by
        intro p hp
        rw [pairs, List.mem_flatMap] at hp
        obtain ⟨i, hi, hp⟩ := hp
        rw [List.mem_map] at hp
        obtain ⟨j, hj, rfl⟩ := hp
        rw [List.mem_range] at hi hj
        rw [List.length_replicate]
        simp only
        omega)
    refine ⟨o, by rw [RingPoly.mul, if_neg h]; exact ho, ?_⟩
    rw [hp]
    have hz : toPoly (List.replicate ((a.length - 1) + (b.length - 1) + 1) (0 : R)) = 0 := by
      ext i
      rw [toPoly_coeff, coeff_zero, List.getD, List.getElem?_replicate]
      split <;> rfl
    rw [hz, zero_add, toPoly_sum a, toPoly_sum b, ← pairs_sum]
    congr 1
    apply List.map_congr_left
    intro p _
    rw [C_mul, pow_add]; ring

omit [DecidableEq R] in
/-- C95: the zero and the unit polynomial. -/
theorem C95_zero_one : toPoly ([] : List R) = 0 ∧ toPoly [(1 : R)] = 1 := by
  constructor
  · rfl
  · simp

/-- The operations on operands of different lengths, modulo 5. -/
example : RingPoly.mul [(1 : ZMod 5), 2, 3] [4, 1] = some [4, 4, 4, 3] ∧ evaluate [(1 : ZMod 5), 2, 3] 2 = 2 ∧
    RingPoly.add [(1 : ZMod 5), 2, 3] [4, 1] = [0, 3, 3] ∧ RingPoly.sub [(4 : ZMod 5), 1] [1, 2, 3] = [3, 4, 2] := by
  decide +kernel

/-! ### Division -/

omit [DecidableEq R] in
theorem divInner_spec (b : List R) (scale : R) (top rdeg : Nat) (hb : rdeg < b.length) (hle : rdeg ≤ top) :
    ∀ (js : List Nat) (rem : List R), (∀ j ∈ js, j ≤ rdeg) → top < rem.length →
    ∃ rem', divInner b scale top rdeg js rem = some rem' ∧ rem'.length = rem.length ∧
      toPoly rem' = toPoly rem - (js.map fun j => C (b.getD (rdeg - j) 0 * scale) * X ^ (top - j)).sum
  | [], rem, _, _ => ⟨rem, rfl, rfl, by simp⟩
  | j :: js, rem, hj, ht => by
    have hj0 : j ≤ rdeg := hj j (by simp)
    have h1 : top - j < rem.length := by omega
    have h2 : rdeg - j < b.length := by omega
    obtain ⟨rem', hr, hl, hp⟩ := divInner_spec b scale top rdeg hb hle js
      (rem.set (top - j) (rem[top - j] - b[rdeg - j] * scale)) (fun x hx => hj x (by simp [hx]))
      (by rw [List.length_set]; exact ht)
    refine ⟨rem', ?_, by rw [hl, List.length_set], ?_⟩
    · rw [divInner, if_neg (by omega), List.getElem?_eq_getElem h1, List.getElem?_eq_getElem h2]
      exact hr
    · rw [hp, toPoly_set _ _ _ h1]
      have e1 : rem.getD (top - j) 0 = rem[top - j] := by simp [List.getD, h1]
      have e2 : b.getD (rdeg - j) 0 = b[rdeg - j] := by simp [List.getD, h2]
      rw [e1, List.map_cons, List.sum_cons, e2]
      simp only [C_sub, C_mul]
      ring

omit [DecidableEq R] in
theorem div_step_sum (b : List R) (scale : R) (top : Nat) (h : (toPoly b).natDegree ≤ top) :
    ((List.range ((toPoly b).natDegree + 1)).map fun j =>
      C (b.getD ((toPoly b).natDegree - j) 0 * scale) * X ^ (top - j)).sum =
      C scale * X ^ (top - (toPoly b).natDegree) * toPoly b := by
  have hs : ∀ (n : Nat) (f : Nat → R[X]), ((List.range n).map f).sum = ∑ i ∈ Finset.range n, f i := by
    intro n f
    induction n with
    | zero => simp
    | succ n ih => rw [List.range_succ, List.map_append, List.sum_append, ih, Finset.sum_range_succ]; simp
  rw [hs]
  have hb : C scale * X ^ (top - (toPoly b).natDegree) * toPoly b = C scale * X ^ (top - (toPoly b).natDegree) *
      ∑ i ∈ Finset.range ((toPoly b).natDegree + 1), C ((toPoly b).coeff i) * X ^ i :=
    congrArg _ (as_sum_range_C_mul_X_pow (toPoly b))
  rw [hb, ← Finset.sum_range_reflect, Finset.mul_sum]
  apply Finset.sum_congr rfl
  intro j hj
  rw [Finset.mem_range] at hj
  rw [← toPoly_coeff]
  have e1 : (toPoly b).natDegree - ((toPoly b).natDegree + 1 - 1 - j) = j := by omega
  have e2 : top - ((toPoly b).natDegree + 1 - 1 - j) = top - (toPoly b).natDegree + j := by omega
  rw [e1, e2, C_mul, pow_add]
  ring

omit [DecidableEq R] in
theorem natDegree_lt_length (b : List R) (h : toPoly b ≠ 0) : (toPoly b).natDegree < b.length := by
  by_contra hc
  apply h
  have : (toPoly b).leadingCoeff = 0 := by
    rw [leadingCoeff, toPoly_coeff]
    simp [List.getD, Nat.le_of_not_lt hc]
  exact leadingCoeff_eq_zero.1 this

omit [DecidableEq R] in
theorem divLoop_spec (b : List R) (ldeg iters : Nat) (hb : (toPoly b).natDegree < b.length)
    (hle : (toPoly b).natDegree ≤ ldeg) (hit : iters = ldeg - (toPoly b).natDegree + 1) (P : R[X]) :
    ∀ (n i : Nat) (q rem : List R), i + n = iters → q.length = iters → ldeg < rem.length →
      (∀ m, m + i < iters → q.getD m 0 = 0) → P = toPoly q * toPoly b + toPoly rem →
      ((toPoly b).Monic → ∀ m, ldeg + 1 ≤ m + i → (toPoly rem).coeff m = 0) →
      ∃ q' rem', divLoop b ldeg (toPoly b).natDegree iters (List.range' i n) q rem = some (q', rem') ∧
        P = toPoly q' * toPoly b + toPoly rem' ∧
        ((toPoly b).Monic → ∀ m, (toPoly b).natDegree ≤ m → (toPoly rem').coeff m = 0)
  | 0, i, q, rem, hi, hq, hr, hz, hP, hm => by
    refine ⟨q, rem, rfl, hP, fun hmon m hm' => hm hmon m (by omega)⟩
  | n + 1, i, q, rem, hi, hq, hr, hz, hP, hm => by
    have ht : ldeg - i < rem.length := by omega
    obtain ⟨rem1, h1, hl1, hp1⟩ := divInner_spec b rem[ldeg - i] (ldeg - i) (toPoly b).natDegree hb (by omega)
      (List.range ((toPoly b).natDegree + 1)) rem
      (by intro j hj; rw [List.mem_range] at hj; omega) ht
    rw [div_step_sum b _ _ (by omega)] at hp1
    have hpos : iters - i - 1 < q.length := by omega
    have hqz : q.getD (iters - i - 1) 0 = 0 := hz _ (by omega)
    have hq' : toPoly (q.set (iters - i - 1) rem[ldeg - i]) = toPoly q + C rem[ldeg - i] * X ^ (iters - i - 1) := by
      rw [toPoly_set _ _ _ hpos, hqz, sub_zero]
    have hexp : ldeg - i - (toPoly b).natDegree = iters - i - 1 := by omega
    obtain ⟨q', rem', hd, hP', hm'⟩ := divLoop_spec b ldeg iters hb hle hit P n (i + 1)
      (q.set (iters - i - 1) rem[ldeg - i]) rem1 (by omega) (by rw [List.length_set]; exact hq) (by omega)
      (by
        intro m hmi
        have hne : ¬ (iters - i - 1 = m) := by omega
        have := hz m (by omega)
        simpa [List.getD, List.getElem?_set, hne] using this)
      (by rw [hP, hq', hp1, hexp]; ring)
      (by
        intro hmon m hmi
        rw [hp1, coeff_sub]
        by_cases hmt : m = ldeg - i
        · have hX : (C rem[ldeg - i] * X ^ (ldeg - i - (toPoly b).natDegree) * toPoly b).coeff m = rem[ldeg - i] := by
            rw [mul_assoc, coeff_C_mul]
            have : m = (toPoly b).natDegree + (ldeg - i - (toPoly b).natDegree) := by omega
            rw [this, coeff_X_pow_mul]
            rw [show (toPoly b).coeff (toPoly b).natDegree = 1 from hmon, mul_one]
          rw [hX, toPoly_coeff, hmt]
          simp [List.getD, ht]
        · have h0 := hm hmon m (by omega)
          have hX : (C rem[ldeg - i] * X ^ (ldeg - i - (toPoly b).natDegree) * toPoly b).coeff m = 0 := by
            rw [mul_assoc, coeff_C_mul]
            have : m = (m - (ldeg - i - (toPoly b).natDegree)) + (ldeg - i - (toPoly b).natDegree) := by omega
            rw [this, coeff_X_pow_mul, coeff_eq_zero_of_natDegree_lt (by omega), mul_zero]
          rw [h0, hX, sub_zero])
    refine ⟨q', rem', ?_, hP', hm'⟩
    rw [List.range'_succ, divLoop, if_neg (by omega), List.getElem?_eq_getElem ht]
    simp only [Option.bind_eq_bind, Option.bind_some, h1]
    rw [if_pos hpos]
    exact hd

/-- C95: division by a non-zero polynomial always returns a quotient and a remainder with `a = q b + r`. If the
divisor is monic these are the quotient and the remainder of the division of polynomials; in particular the remainder
has a smaller degree. -/
theorem C95_div_rem_partial (a b : List R) (hb : toPoly b ≠ 0) :
    ∃ q r, divRem a b = some (q, r) ∧ toPoly a = toPoly q * toPoly b + toPoly r ∧
      ((toPoly b).Monic → toPoly q = toPoly a /ₘ toPoly b ∧ toPoly r = toPoly a %ₘ toPoly b ∧
        (toPoly r).degree < (toPoly b).degree) := by
  have hnt : Nontrivial R := by
    by_contra h
    rw [not_nontrivial_iff_subsingleton] at h
    exact hb (Subsingleton.elim _ _)
  have finish : ∀ q r : R[X], toPoly a = q * toPoly b + r →
      ((toPoly b).Monic → r.degree < (toPoly b).degree) →
      ((toPoly b).Monic → q = toPoly a /ₘ toPoly b ∧ r = toPoly a %ₘ toPoly b ∧ r.degree < (toPoly b).degree) := by
    intro q r h hd hm
    have := div_modByMonic_unique (f := toPoly a) q r hm ⟨by rw [h]; ring, hd hm⟩
    exact ⟨this.1.symm, this.2.symm, hd hm⟩
  by_cases ha : isZero a = true
  · refine ⟨[], [], by rw [divRem, if_pos ha], ?_, ?_⟩
    · rw [(C95_is_zero a).1 ha]; simp
    · apply finish
      · rw [(C95_is_zero a).1 ha]; simp
      · intro _
        rw [toPoly_nil, degree_zero]
        exact bot_lt_iff_ne_bot.2 (degree_ne_bot.2 hb)
  · have ha0 : toPoly a ≠ 0 := fun h => ha ((C95_is_zero a).2 h)
    have hda := C95_degree a
    have hdb := C95_degree b
    rw [if_neg ha0] at hda
    rw [if_neg hb] at hdb
    by_cases hlt : (toPoly a).natDegree < (toPoly b).natDegree
    · refine ⟨[], a, ?_, by simp, ?_⟩
      · rw [divRem, if_neg ha, hda, hdb]
        simp only [Option.bind_eq_bind, Option.bind_some]
        rw [if_pos hlt]
      · apply finish
        · simp
        · intro _
          exact degree_lt_degree hlt
    · obtain ⟨q, r, h1, h2, h3⟩ := divLoop_spec b (toPoly a).natDegree
        ((toPoly a).natDegree - (toPoly b).natDegree + 1) (natDegree_lt_length b hb) (by omega) rfl (toPoly a)
        ((toPoly a).natDegree - (toPoly b).natDegree + 1) 0
        (List.replicate ((toPoly a).natDegree - (toPoly b).natDegree + 1) 0) a (by omega) (by simp)
        (natDegree_lt_length a ha0)
        (by
          intro m _
          rw [List.getD, List.getElem?_replicate]
          split <;> rfl)
        (by
          have hz : toPoly (List.replicate ((toPoly a).natDegree - (toPoly b).natDegree + 1) (0 : R)) = 0 := by
            ext i
            rw [toPoly_coeff, coeff_zero, List.getD, List.getElem?_replicate]
            split <;> rfl
          rw [hz]; ring)
        (by
          intro _ m hm
          exact coeff_eq_zero_of_natDegree_lt (by omega))
      refine ⟨q, r, ?_, h2, ?_⟩
      · rw [divRem, if_neg ha, hda, hdb]
        simp only [Option.bind_eq_bind, Option.bind_some]
        rw [if_neg hlt, List.range_eq_range']
        exact h1
      · apply finish _ _ h2
        intro hm
        rw [degree_eq_natDegree hb]
        exact (degree_lt_iff_coeff_zero _ _).2 (h3 hm)

/-- C95: a non-zero polynomial divided by zero panics. -/
theorem C95_div_by_zero (a b : List R) (ha : toPoly a ≠ 0) (hb : toPoly b = 0) : divRem a b = none := by
  have hz : ¬ isZero a = true := fun h => ha ((C95_is_zero a).1 h)
  have hda := C95_degree a
  have hdb := C95_degree b
  rw [if_neg ha] at hda
  rw [if_pos hb] at hdb
  rw [divRem, if_neg hz, hda, hdb]
  rfl

/-- C95 violated: a divisor whose leading coefficient is not one is documented to panic; the division returns, and the
remainder is not reduced: here `1 + 2 x` divided by `2 x` modulo 5 has a remainder of degree 1. Nor does division by
zero panic when the dividend is zero. -/
theorem C95_div_rem_violated :
    divRem [(1 : ZMod 5), 2] [0, 2] = some ([2], [1, 3]) ∧ RingPoly.degree [(1 : ZMod 5), 3] = RingPoly.degree [(0 : ZMod 5), 2] ∧
      divRem ([0] : List (ZMod 5)) [0] = some ([], []) := by
  decide +kernel

/-- A non-trivial division: `(x^3 + 2 x + 4) / (x^2 + 3)` modulo 5, with padded operands. -/
example : divRem [(4 : ZMod 5), 2, 0, 1, 0] [3, 0, 1, 0] = some ([0, 1], [4, 4, 0, 0, 0]) := by decide +kernel
example : toPoly [(3 : ZMod 5), 0, 1, 0] ≠ 0 :=
  fun h => absurd ((C95_is_zero _).2 h) (by decide +kernel)

/-! ### Equality -/

theorem eqLoop_spec (a b : List R) : ∀ is : List Nat, (∀ i ∈ is, i < a.length ∧ i < b.length) →
    ∃ v, eqLoop a b is = some v ∧ (v = true ↔ ∀ i ∈ is, a.getD i 0 = b.getD i 0)
  | [], _ => ⟨true, rfl, by simp⟩
  | i :: is, h => by
    obtain ⟨h1, h2⟩ := h i (by simp)
    obtain ⟨v, hv, he⟩ := eqLoop_spec a b is (fun j hj => h j (by simp [hj]))
    have e1 : a.getD i 0 = a[i] := by simp [List.getD, h1]
    have e2 : b.getD i 0 = b[i] := by simp [List.getD, h2]
    by_cases hx : a[i] = b[i]
    · refine ⟨v, ?_, ?_⟩
      · rw [eqLoop, List.getElem?_eq_getElem h1, List.getElem?_eq_getElem h2]
        simp only [Option.bind_eq_bind, Option.bind_some]
        rw [if_neg (by simpa using hx)]
        exact hv
      · rw [he]
        constructor
        · intro hh j hj
          rcases List.mem_cons.1 hj with rfl | hj
          · rw [e1, e2, hx]
          · exact hh j hj
        · intro hh j hj
          exact hh j (by simp [hj])
    · refine ⟨false, ?_, ?_⟩
      · rw [eqLoop, List.getElem?_eq_getElem h1, List.getElem?_eq_getElem h2]
        simp only [Option.bind_eq_bind, Option.bind_some]
        rw [if_pos hx]
      · constructor
        · intro hh; cases hh
        · intro hh
          exact absurd (by rw [← e1, ← e2]; exact hh i (by simp)) hx

/-- C95, what `==` decides: it never panics, and two non-zero polynomials are "equal" when they have the same degree
and the same coefficients below the leading one. -/
theorem C95_eq_partial (a b : List R) : ∃ v, polyEq a b = some v ∧
    (v = true ↔ (toPoly a = 0 ∧ toPoly b = 0) ∨
      (toPoly a ≠ 0 ∧ toPoly b ≠ 0 ∧ (toPoly a).natDegree = (toPoly b).natDegree ∧
        ∀ i < (toPoly a).natDegree, (toPoly a).coeff i = (toPoly b).coeff i)) := by
  by_cases hz : (isZero a || isZero b) = true
  · refine ⟨isZero a && isZero b, by rw [polyEq, if_pos hz], ?_⟩
    rw [Bool.and_eq_true, C95_is_zero, C95_is_zero]
    rw [Bool.or_eq_true, C95_is_zero, C95_is_zero] at hz
    constructor
    · exact Or.inl
    · rintro (h | ⟨h1, h2, _⟩)
      · exact h
      · exact absurd hz (by simp [h1, h2])
  · have hz' := hz
    rw [Bool.or_eq_true, C95_is_zero, C95_is_zero, not_or] at hz'
    obtain ⟨ha, hb⟩ := hz'
    have hda := C95_degree a
    have hdb := C95_degree b
    rw [if_neg ha] at hda
    rw [if_neg hb] at hdb
    by_cases hd : (toPoly a).natDegree = (toPoly b).natDegree
    · obtain ⟨v, hv, he⟩ := eqLoop_spec a b (List.range (toPoly a).natDegree) (by
        intro i hi
        rw [List.mem_range] at hi
        have h1 := natDegree_lt_length a ha
        have h2 := natDegree_lt_length b hb
        omega)
      refine ⟨v, ?_, ?_⟩
      · rw [polyEq, if_neg hz, hda, hdb]
        simp only [Option.bind_eq_bind, Option.bind_some]
        rw [if_neg (by simpa using hd)]
        exact hv
      · rw [he]
        constructor
        · intro h
          refine Or.inr ⟨ha, hb, hd, fun i hi => ?_⟩
          rw [toPoly_coeff, toPoly_coeff]
          exact h i (List.mem_range.2 hi)
        · rintro (⟨h, _⟩ | ⟨_, _, _, h⟩) i hi
          · exact absurd h ha
          · rw [← toPoly_coeff, ← toPoly_coeff]
            exact h i (List.mem_range.1 hi)
    · refine ⟨false, ?_, ?_⟩
      · rw [polyEq, if_neg hz, hda, hdb]
        simp only [Option.bind_eq_bind, Option.bind_some]
        rw [if_pos hd]
      · constructor
        · intro h; cases h
        · rintro (⟨h, _⟩ | ⟨_, _, h, _⟩)
          · exact absurd h ha
          · exact absurd h hd

/-- C95: equal polynomials always compare equal, whatever their padding. -/
theorem C95_eq_complete (a b : List R) (h : toPoly a = toPoly b) : polyEq a b = some true := by
  obtain ⟨v, hv, he⟩ := C95_eq_partial a b
  rw [hv]
  congr 1
  rw [he, h]
  by_cases hb : toPoly b = 0
  · exact Or.inl ⟨hb, hb⟩
  · exact Or.inr ⟨hb, hb, rfl, fun _ _ => rfl⟩

/-- C95: `==` decides equality between polynomials that are monic (or, more generally, have the same leading
coefficient). -/
theorem C95_eq_monic (a b : List R) (h : (toPoly a).leadingCoeff = (toPoly b).leadingCoeff) :
    ∃ v, polyEq a b = some v ∧ (v = true ↔ toPoly a = toPoly b) := by
  obtain ⟨v, hv, he⟩ := C95_eq_partial a b
  refine ⟨v, hv, ?_⟩
  constructor
  · intro hvt
    rcases he.1 hvt with ⟨h1, h2⟩ | ⟨h1, h2, hd, hc⟩
    · rw [h1, h2]
    · ext i
      rcases lt_trichotomy i (toPoly a).natDegree with hi | hi | hi
      · exact hc i hi
      · rw [hi]
        show (toPoly a).leadingCoeff = _
        rw [h, hd]; rfl
      · rw [coeff_eq_zero_of_natDegree_lt hi, coeff_eq_zero_of_natDegree_lt (by omega)]
  · intro hab
    have := C95_eq_complete a b hab
    rw [hv] at this
    exact Option.some.inj this

/-- C95 violated: `==` ignores the leading coefficient, so all non-zero constants are equal, and so are `1 + x` and
`1 + 3 x`. -/
theorem C95_eq_violated : polyEq [(1 : ZMod 5)] [2] = some true ∧ polyEq [(1 : ZMod 5), 1] [1, 3, 0] = some true ∧
    toPoly [(1 : ZMod 5)] ≠ toPoly [2] := by
  refine ⟨by decide +kernel, by decide +kernel, ?_⟩
  intro h
  have := congrArg (fun p => p.coeff 0) h
  simp only [toPoly_coeff] at this
  exact absurd this (by decide +kernel)

end Spf.Props
