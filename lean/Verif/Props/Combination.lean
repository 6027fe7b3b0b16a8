import Verif.Proof.Combination
/-! C60: enumeration, counting, ranking and unranking of combinations. -/
namespace Spf.Props
open Spf.Comb

/-- Specification: a `t`-combination of `{0,…,n-1}` written in increasing order. -/
def IsCombination (n t : Nat) (c : List Nat) : Prop :=
  c.length = t ∧ c.Pairwise (· < ·) ∧ ∀ x ∈ c, x < n

theorem inc_iff (hi : Nat) : ∀ (lo : Nat) (c : List Nat), Inc lo hi c ↔ c.Pairwise (· < ·) ∧ ∀ x ∈ c, lo ≤ x ∧ x < hi
  | _, [] => by simp [Inc]
  | lo, a :: c => by
    rw [Inc, inc_iff hi (a + 1) c, List.pairwise_cons]
    constructor
    · rintro ⟨h1, h2, h3, h4⟩
      refine ⟨⟨fun x hx => (h4 x hx).1, h3⟩, fun x hx => ?_⟩
      rcases List.mem_cons.1 hx with rfl | hx
      · exact ⟨h1, h2⟩
      · have := h4 x hx; omega
    · rintro ⟨⟨h1, h2⟩, h3⟩
      have := h3 a (by simp)
      exact ⟨this.1, this.2, h2, fun x hx => ⟨h1 x hx, (h3 x (by simp [hx])).2⟩⟩

theorem mem_combs_iff (n t : Nat) (c : List Nat) : c ∈ combs n 0 t ↔ IsCombination n t c := by
  rw [mem_combs, inc_iff]; simp [IsCombination]

theorem lexLt_lt : ∀ {c d : List Nat}, lexLt c d → c < d
  | [], _, h => by simp [lexLt] at h
  | _ :: _, [], h => by simp [lexLt] at h
  | a :: c, b :: d, h => by
    rcases h with h | ⟨rfl, h⟩
    · exact List.Lex.rel h
    · exact List.Lex.cons (lexLt_lt h)

/-- **C60 (enumeration).** For `1 ≤ n`, `t ≤ n`: construction succeeds, and iterating to exhaustion (any number `k`
of `next` calls above the count) yields exactly the `t`-combinations of `{0,…,n-1}`, in strictly increasing
lexicographic order (hence each once), and `number_combinations` of them. -/
theorem C60_enumeration (n t k : Nat) (hn : 1 ≤ n) (ht : t ≤ n) (hk : numberCombinations n t < k) :
    ∃ it, Combinations.new n t = .ok it ∧
      (∀ c, c ∈ it.collect k ↔ IsCombination n t c) ∧
      (it.collect k).Pairwise (· < ·) ∧
      (it.collect k).length = numberCombinations n t ∧
      numberCombinations n t = Nat.choose n t := by
  refine ⟨⟨n, t, none⟩, ?_, ?_, ?_, ?_, numberCombinations_eq n t⟩
  · unfold Combinations.new; rw [if_neg (by omega), if_neg (by omega)]
  all_goals rw [numberCombinations_eq] at *; rw [collect_combs n t k ht hk]
  · exact fun c => mem_combs_iff n t c
  · exact (combs_sorted n 0 t).imp lexLt_lt
  · exact combs_length n 0 t

/-- `number_combinations` is the binomial coefficient for every argument. -/
theorem C60_count (n k : Nat) : numberCombinations n k = Nat.choose n k := numberCombinations_eq n k

/-- **C60 (construction errors).** -/
theorem C60_new_errors (n t : Nat) :
    (n = 0 → Combinations.new n t = .error .zeroOptions) ∧
    (n ≠ 0 → t > n → Combinations.new n t = .error (.combinationTooLarge n t)) := by
  constructor <;> intros <;> simp_all [Combinations.new]

/-- Once exhausted, the iterator stays exhausted (its state no longer changes). -/
theorem C60_fused (s : Combinations) (h : s.next.2 = none) : s.next.1.next.2 = none := by
  rw [next_fused s h, h]

/-- **C60 (ranking).** The index reported for the `i`-th enumerated combination is `i`. -/
theorem C60_rank (n t k i : Nat) (cur) (hn : 1 ≤ n) (ht : t ≤ n) (hk : numberCombinations n t < k)
    (h : i < (Combinations.collect k ⟨n, t, none⟩).length) :
    (Combinations.mk n t cur).getIndex ((Combinations.collect k ⟨n, t, none⟩)[i]) = .ok i := by
  rw [numberCombinations_eq] at hk
  have e := collect_combs n t k ht hk
  simp only [e] at h ⊢
  have hm := (mem_combs n 0 t _).1 (List.getElem_mem h)
  have hr := rank_getElem n n 0 t i h (by omega)
  unfold Combinations.getIndex
  rw [if_neg (by simp [hm.1]), getIndexLoop_eq n _ (by omega) _ 0 0 0 (by simpa using hm.2) (by simp), hr]
  simp

/-- **C60 (unranking).** `at_index` never panics; it is `None` exactly past the end and otherwise returns the `i`-th
enumerated combination. -/
theorem C60_unrank (n t k i : Nat) (cur) (hn : 1 ≤ n) (ht : t ≤ n) (hk : numberCombinations n t < k) :
    (Combinations.mk n t cur).atIndex i = some ((Combinations.collect k ⟨n, t, none⟩)[i]?) := by
  rw [numberCombinations_eq] at hk
  rw [collect_combs n t k ht hk]
  unfold Combinations.atIndex
  simp only [numberCombinations_eq]
  split
  · rename_i h
    rw [List.getElem?_eq_none]; rw [combs_length]; exact h
  · rename_i h
    have hi : i < (combs n 0 t).length := by rw [combs_length]; omega
    rw [List.getElem?_eq_getElem hi]
    have hm := (mem_combs n 0 t _).1 (List.getElem_mem hi)
    have hr := rank_getElem n n 0 t i hi (by omega)
    have hd := rank_dual n ((combs n 0 t)[i]) 0 (by simpa using hm.2)
    rw [hr, hm.1] at hd
    have := atIndexLoop_eq n ((combs n 0 t)[i]) 0 n (by simpa using hm.2) (by simp)
    rw [hm.1, show dual n ((combs n 0 t)[i]) = Nat.choose n t - 1 - i by simp at hd; omega] at this
    rw [this]; rfl

/-- **C60 (inverse).** Unranking then ranking is the identity, and ranking then unranking is the identity, on every
combination of the set. -/
theorem C60_inverse (n t : Nat) (cur) (hn : 1 ≤ n) (ht : t ≤ n) :
    (∀ i, i < numberCombinations n t →
      ∃ c, IsCombination n t c ∧ (Combinations.mk n t cur).atIndex i = some (some c) ∧
        (Combinations.mk n t cur).getIndex c = .ok i) ∧
    (∀ c, IsCombination n t c →
      ∃ i, i < numberCombinations n t ∧ (Combinations.mk n t cur).getIndex c = .ok i ∧
        (Combinations.mk n t cur).atIndex i = some (some c)) := by
  have hk : numberCombinations n t < numberCombinations n t + 1 := by omega
  have hk' := hk
  rw [numberCombinations_eq] at hk'
  obtain ⟨it, hnew, hmem, _, hlen, _⟩ := C60_enumeration n t _ hn ht hk
  have hit : it = ⟨n, t, none⟩ := by
    unfold Combinations.new at hnew
    rw [if_neg (by omega), if_neg (by omega)] at hnew
    exact (Except.ok.inj hnew).symm
  subst hit
  constructor
  · intro i hi
    have hi' : i < (Combinations.collect (numberCombinations n t + 1) ⟨n, t, none⟩).length := by rw [hlen]; exact hi
    refine ⟨_, (hmem _).1 (List.getElem_mem hi'), ?_, C60_rank n t _ i cur hn ht hk hi'⟩
    rw [C60_unrank n t _ i cur hn ht hk, List.getElem?_eq_getElem hi']
  · intro c hc
    obtain ⟨i, hi, rfl⟩ := List.getElem_of_mem ((hmem c).2 hc)
    refine ⟨i, by rw [← hlen]; exact hi, C60_rank n t _ i cur hn ht hk hi, ?_⟩
    rw [C60_unrank n t _ i cur hn ht hk, List.getElem?_eq_getElem hi]

example : Combinations.collect 11 ⟨5, 3, none⟩ =
    [[0,1,2],[0,1,3],[0,1,4],[0,2,3],[0,2,4],[0,3,4],[1,2,3],[1,2,4],[1,3,4],[2,3,4]] := by decide
example : (Combinations.mk 5 3 none).atIndex 6 = some (some [1,2,3]) := by decide
example : (Combinations.mk 5 3 none).getIndex [1,2,3] = .ok 6 := by decide

end Spf.Props
