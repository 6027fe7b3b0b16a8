import Verif.Proof.Bits
import Verif.Model.Arith
/-! Loop invariants of the arithmetic circuit generators. -/
namespace Spf.Arith
set_option linter.unusedSimpArgs false
open Spf.Spec BddFn

/-- evaluate all outputs -/
abbrev ev (e : Nat → Bool) (l : List BddFn) : List Bool := l.map (· e)

theorem add_loop (e : Nat → Bool) (off : Nat) (c : BddFn) (a b : List Bool) :
    ∀ k, k ≤ a.length → k ≤ b.length →
    (∀ i, i < k → e (off + 2 * i) = a.getD i false ∧ e (off + 2 * i + 1) = b.getD i false) →
    let st := (List.range k).foldl (addStep off) ([], c)
    st.1.length = k ∧
      valLE (ev e st.1) + bit (st.2 e) * 2 ^ k = valLE (a.take k) + valLE (b.take k) + bit (c e) := by
  intro k
  induction k with
  | zero => intro _ _ _; simp
  | succ k ih =>
    intro ha hb he
    obtain ⟨h1, h2⟩ := ih (by omega) (by omega) (fun i hi => he i (by omega))
    obtain ⟨e1, e2⟩ := he k (by omega)
    simp only [List.range_succ, List.foldl_append, List.foldl_cons, List.foldl_nil]
    generalize (List.range k).foldl (addStep off) ([], c) = st at *
    refine ⟨by simp [addStep, h1], ?_⟩
    rw [valLE_take_succ _ _ ha, valLE_take_succ _ _ hb]
    simp only [addStep, ev, List.map_append, List.map_cons, List.map_nil, valLE_snoc, List.length_map, h1,
      BddFn.xor, BddFn.and, BddFn.or, BddFn.var, e1, e2, Nat.pow_succ]
    simp only [ev] at h2
    cases a.getD k false <;> cases b.getD k false <;> cases h : st.2 e <;> simp [h] at h2 ⊢ <;> omega

theorem addTail_loop (e : Nat → Bool) (off minLen : Nat) (st0 : List BddFn × BddFn) (l : List Bool) (v : Nat) :
    ∀ k, minLen + k ≤ l.length →
    (∀ i, i < k → e (2 * minLen + i + off) = l.getD (minLen + i) false) →
    st0.1.length = minLen →
    valLE (ev e st0.1) + bit (st0.2 e) * 2 ^ minLen = valLE (l.take minLen) + v →
    let st := (List.range k).foldl (addTailStep off minLen) st0
    st.1.length = minLen + k ∧
      valLE (ev e st.1) + bit (st.2 e) * 2 ^ (minLen + k) = valLE (l.take (minLen + k)) + v := by
  intro k
  induction k with
  | zero => intro _ _ h0 h1; simp [h0]; simpa using h1
  | succ k ih =>
    intro hl he h0 hv
    obtain ⟨h1, h2⟩ := ih (by omega) (fun i hi => he i (by omega)) h0 hv
    have e1 := he k (by omega)
    simp only [List.range_succ, List.foldl_append, List.foldl_cons, List.foldl_nil]
    generalize (List.range k).foldl (addTailStep off minLen) st0 = st at *
    refine ⟨by simp [addTailStep, h1]; omega, ?_⟩
    rw [← Nat.add_assoc, valLE_take_succ _ _ (by omega)]
    simp only [addTailStep, ev, List.map_append, List.map_cons, List.map_nil, valLE_snoc, List.length_map, h1,
      BddFn.xor, BddFn.and, BddFn.or, BddFn.var, e1, Nat.pow_succ]
    simp only [ev] at h2
    cases l.getD (minLen + k) false <;> cases h : st.2 e <;> simp [h] at h2 ⊢ <;> omega

theorem sub_loop (e : Nat → Bool) (off : Nat) (c : BddFn) (a b : List Bool) :
    ∀ k, k ≤ a.length → k ≤ b.length →
    (∀ i, i < k → e (off + 2 * i) = a.getD i false ∧ e (off + 2 * i + 1) = b.getD i false) →
    let st := (List.range k).foldl (subStep off) ([], c)
    st.1.length = k ∧
      valLE (ev e st.1) + valLE (b.take k) + bit (c e) = valLE (a.take k) + bit (st.2 e) * 2 ^ k := by
  intro k
  induction k with
  | zero => intro _ _ _; simp
  | succ k ih =>
    intro ha hb he
    obtain ⟨h1, h2⟩ := ih (by omega) (by omega) (fun i hi => he i (by omega))
    obtain ⟨e1, e2⟩ := he k (by omega)
    simp only [List.range_succ, List.foldl_append, List.foldl_cons, List.foldl_nil]
    generalize (List.range k).foldl (subStep off) ([], c) = st at *
    refine ⟨by simp [subStep, h1], ?_⟩
    rw [valLE_take_succ _ _ ha, valLE_take_succ _ _ hb]
    simp only [subStep, ev, List.map_append, List.map_cons, List.map_nil, valLE_snoc, List.length_map, h1,
      BddFn.xor, BddFn.and, BddFn.or, BddFn.andNot, BddFn.var, e1, e2, Nat.pow_succ]
    simp only [ev] at h2
    cases a.getD k false <;> cases b.getD k false <;> cases h : st.2 e <;> simp [h] at h2 ⊢ <;> omega

theorem neg_loop (e : Nat → Bool) (a : List Bool) :
    ∀ k, k ≤ a.length → (∀ i, i < k → e i = a.getD i false) →
    let st := (List.range k).foldl negStep ([], mkFalse)
    st.1.length = k ∧ valLE (ev e st.1) + valLE (a.take k) = bit (st.2 e) * 2 ^ k ∧
      (st.2 e = false → valLE (a.take k) = 0) := by
  intro k
  induction k with
  | zero => intro _ _; simp [mkFalse]
  | succ k ih =>
    intro ha he
    obtain ⟨h1, h2, h3⟩ := ih (by omega) (fun i hi => he i (by omega))
    have e1 := he k (by omega)
    simp only [List.range_succ, List.foldl_append, List.foldl_cons, List.foldl_nil]
    generalize (List.range k).foldl negStep ([], mkFalse) = st at *
    refine ⟨by simp [negStep, h1], ?_⟩
    rw [valLE_take_succ _ _ ha]
    simp only [negStep, ev, List.map_append, List.map_cons, List.map_nil, valLE_snoc, List.length_map, h1,
      BddFn.xor, BddFn.and, BddFn.or, BddFn.andNot, BddFn.var, e1, Nat.pow_succ]
    simp only [ev] at h2
    cases a.getD k false <;> cases h : st.2 e <;> simp [h] at h2 h3 ⊢ <;> omega

theorem equal_loop (e : Nat → Bool) (a b : List Bool) :
    ∀ k, k ≤ a.length → k ≤ b.length →
    (∀ i, i < k → e (2 * i) = a.getD i false ∧ e (2 * i + 1) = b.getD i false) →
    (equalLoop k e = true ↔ a.take k = b.take k) := by
  intro k
  induction k with
  | zero => intros; simp [equalLoop, mkTrue]
  | succ k ih =>
    intro ha hb he
    have h := ih (by omega) (by omega) (fun i hi => he i (by omega))
    obtain ⟨e1, e2⟩ := he k (by omega)
    simp only [equalLoop, List.range_succ, List.foldl_append, List.foldl_cons, List.foldl_nil] at h ⊢
    rw [List.take_succ_eq_append_getElem ha, List.take_succ_eq_append_getElem hb]
    rw [getD_eq_getElem _ _ _ ha] at e1
    rw [getD_eq_getElem _ _ _ hb] at e2
    have hl : (a.take k).length = (b.take k).length := by simp; omega
    rw [List.append_eq_append_iff_of_size_eq_left' hl]
    rw [← h]
    simp only [BddFn.and, Bool.and_eq_true]
    have : (equal (var (2 * k)) (var (2 * k + 1)) e = true) ↔ a[k] = b[k] := by
      simp [equal, BddFn.not, BddFn.xor, BddFn.var, e1, e2]
    rw [this]
where
  List.append_eq_append_iff_of_size_eq_left' {l l' : List Bool} (h : l.length = l'.length) {x y : Bool} :
      (l ++ [x] = l' ++ [y]) ↔ (l = l' ∧ x = y) := by
    constructor
    · intro hh; have := List.append_inj hh h; simpa using this
    · rintro ⟨rfl, rfl⟩; rfl

/-- The comparison loop, run over indices `k..n` downwards. -/
theorem cmp_loop (e : Nat → Bool) (g : Bool) (a b : List Bool) (n : Nat) (ha : a.length = n) (hb : b.length = n)
    (he : ∀ i, i < n → e (2 * i) = a.getD i false ∧ e (2 * i + 1) = b.getD i false) :
    let st := (List.range n).reverse.foldl (cmpStep g) (mkFalse, mkTrue)
    (st.2 e = true ↔ valLE a = valLE b) ∧
    (st.1 e = true ↔ if g then valLE b < valLE a else valLE a < valLE b) := by
  -- generalise: foldr over a range shape
  have key : ∀ k, k ≤ n →
      ∀ st0 : BddFn × BddFn, 
      let st := (List.range k).reverse.foldl (cmpStep g) st0
      (st.2 e = true ↔ st0.2 e = true ∧ valLE (a.take k) = valLE (b.take k)) ∧
      (st.1 e = true ↔ st0.1 e = true ∨ (st0.2 e = true ∧ 
        if g then valLE (b.take k) < valLE (a.take k) else valLE (a.take k) < valLE (b.take k))) := by
    intro k
    induction k with
    | zero => intro _ st0; cases g <;> simp
    | succ k ih =>
      intro hk st0
      simp only [List.range_succ, List.reverse_append, List.reverse_cons, List.reverse_nil, List.nil_append,
        List.cons_append, List.foldl_cons]
      obtain ⟨h1, h2⟩ := ih (by omega) (cmpStep g st0 k)
      rw [h1, h2]
      obtain ⟨e1, e2⟩ := he k (by omega)
      rw [valLE_take_succ a k (by omega), valLE_take_succ b k (by omega)]
      have la : valLE (a.take k) < 2 ^ k := by
        have := valLE_lt (a.take k); rwa [List.length_take, Nat.min_eq_left (by omega)] at this
      have lb : valLE (b.take k) < 2 ^ k := by
        have := valLE_lt (b.take k); rwa [List.length_take, Nat.min_eq_left (by omega)] at this
      cases g <;>
      simp only [cmpStep, BddFn.or, BddFn.and, BddFn.andNot, BddFn.not, BddFn.xor, equal, greaterThan, lessThan, 
        BddFn.var, e1, e2, if_true, if_false, Bool.false_eq_true] <;>
      cases a.getD k false <;> cases b.getD k false <;> cases st0.1 e <;> cases st0.2 e <;> simp <;> omega
  have := key n (Nat.le_refl n) (mkFalse, mkTrue)
  simp only [List.take_of_length_le (Nat.le_of_eq ha), List.take_of_length_le (Nat.le_of_eq hb)] at this
  simpa [mkFalse, mkTrue] using this

end Spf.Arith
