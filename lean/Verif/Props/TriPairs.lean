import Verif.Model.TriPairs
import Mathlib.Data.List.Nodup
/-! C59: iteration over triangular pairs. -/
namespace Spf.Props
open Spf.Tri

/-- Specification: `(i, j)` comes before `(i', j')` lexicographically. -/
def pairLt (x y : Nat × Nat) : Prop := x.1 < y.1 ∨ (x.1 = y.1 ∧ x.2 < y.2)

/-- Specification: `idx` lists every pair `i ≤ j < n` exactly once, in lexicographic order (strictly increasing). -/
def TriIndices (n : Nat) (idx : List (Nat × Nat)) : Prop :=
  (∀ i j, (i, j) ∈ idx ↔ i ≤ j ∧ j < n) ∧ idx.Pairwise pairLt

/-- There is only one such list. -/
theorem TriIndices.unique {n : Nat} {a b : List (Nat × Nat)} (ha : TriIndices n a) (hb : TriIndices n b) : a = b := by
  have irr : ∀ x y, pairLt x y → x ≠ y := by rintro x y h rfl; unfold pairLt at h; omega
  have na : a.Nodup := ha.2.imp (fun {x y} h => irr x y h)
  have nb : b.Nodup := hb.2.imp (fun {x y} h => irr x y h)
  have hp : a.Perm b := (List.perm_ext_iff_of_nodup na nb).2 fun ⟨i, j⟩ => (ha.1 i j).trans (hb.1 i j).symm
  refine hp.eq_of_pairwise ?_ ha.2 hb.2
  rintro ⟨i, j⟩ ⟨i', j'⟩ _ _ h1 h2
  unfold pairLt at h1 h2
  simp only at h1 h2
  exact absurd h1 (by omega)

/-- The index pairs from row `i`, column `j` on. -/
def triFrom (n : Nat) (i j : Nat) : List (Nat × Nat) :=
  if _h : i < n then
    if _h2 : j + 1 < n then (i, j) :: triFrom n i (j + 1) else (i, j) :: triFrom n (i + 1) (i + 1)
  else []
termination_by (n - i, n - j)

theorem mem_triFrom (n : Nat) : ∀ i j : Nat, i ≤ j → (j < n ∨ i = n) → i ≤ n → ∀ a b,
    (a, b) ∈ triFrom n i j ↔ a ≤ b ∧ b < n ∧ (i < a ∨ (i = a ∧ j ≤ b)) := by
  intro i j
  induction i, j using triFrom.induct n with
  | case1 i j h h2 ih =>
    intro hij hj hi a b
    rw [triFrom, dif_pos h, dif_pos h2, List.mem_cons, ih (by omega) (by omega) (by omega), Prod.mk.injEq]
    omega
  | case2 i j h h2 ih =>
    intro hij hj hi a b
    rw [triFrom, dif_pos h, dif_neg h2, List.mem_cons, ih (by omega) (by omega) (by omega), Prod.mk.injEq]
    omega
  | case3 i j h =>
    intro hij hj hi a b
    rw [triFrom, dif_neg h]
    simp; omega

theorem sorted_triFrom (n : Nat) : ∀ i j : Nat, i ≤ j → (j < n ∨ i = n) → i ≤ n → (triFrom n i j).Pairwise pairLt := by
  intro i j
  induction i, j using triFrom.induct n with
  | case1 i j h h2 ih =>
    intro hij hj hi
    rw [triFrom, dif_pos h, dif_pos h2, List.pairwise_cons]
    refine ⟨?_, ih (by omega) (by omega) (by omega)⟩
    rintro ⟨a, b⟩ hab
    rw [mem_triFrom n i (j + 1) (by omega) (by omega) (by omega)] at hab
    unfold pairLt; simp only; omega
  | case2 i j h h2 ih =>
    intro hij hj hi
    rw [triFrom, dif_pos h, dif_neg h2, List.pairwise_cons]
    refine ⟨?_, ih (by omega) (by omega) (by omega)⟩
    rintro ⟨a, b⟩ hab
    rw [mem_triFrom n (i + 1) (i + 1) (by omega) (by omega) (by omega)] at hab
    unfold pairLt; simp only; omega
  | case3 i j h =>
    intro _ _ _
    rw [triFrom, dif_neg h]; exact List.Pairwise.nil

theorem triFrom_spec (n : Nat) : TriIndices n (triFrom n 0 0) := by
  refine ⟨fun i j => ?_, sorted_triFrom n 0 0 (by omega) (by omega) (by omega)⟩
  rw [mem_triFrom n 0 0 (by omega) (by omega) (by omega)]; omega

/-- The pair of items at an index pair. -/
def at? {α : Type} (items : List α) (p : Nat × Nat) : Option (α × α) :=
  match items[p.1]?, items[p.2]? with
  | some a, some b => some (a, b)
  | _, _ => none

theorem calls_done {α : Type} (items : List α) (i j : Nat) (h : ¬ i < items.length) :
    ∀ k, Pairs.calls k ⟨items, i, j⟩ = some (List.replicate k none)
  | 0 => rfl
  | k + 1 => by
    rw [Pairs.calls, Pairs.next, if_pos (by exact Nat.not_lt.1 h)]
    simp only [calls_done items i j h k, List.replicate_succ]

theorem calls_triFrom {α : Type} (items : List α) : ∀ i j : Nat, i ≤ j → (j < items.length ∨ i = items.length) →
    i ≤ items.length → ∀ k, Pairs.calls ((triFrom items.length i j).length + k) ⟨items, i, j⟩ =
      some ((triFrom items.length i j).map (at? items) ++ List.replicate k none) := by
  intro i j
  induction i, j using triFrom.induct items.length with
  | case1 i j h h2 ih =>
    intro hij hj hi k
    rw [triFrom, dif_pos h, dif_pos h2, List.length_cons, Nat.add_right_comm, Pairs.calls, Pairs.next, if_neg (by simpa using h)]
    have e1 : items[i]? = some items[i] := List.getElem?_eq_getElem h
    have e2 : items[j]? = some (items[j]'(by omega)) := List.getElem?_eq_getElem (by omega)
    have ih' := ih (by omega) (by omega) (by omega) k
    simp only [e1, e2]
    rw [if_neg (by omega)]
    simp only [ih', List.map_cons, at?, e1, e2, List.cons_append]
  | case2 i j h h2 ih =>
    intro hij hj hi k
    rw [triFrom, dif_pos h, dif_neg h2, List.length_cons, Nat.add_right_comm, Pairs.calls, Pairs.next, if_neg (by simpa using h)]
    have e1 : items[i]? = some items[i] := List.getElem?_eq_getElem h
    have e2 : items[j]? = some (items[j]'(by omega)) := List.getElem?_eq_getElem (by omega)
    have ih' := ih (by omega) (by omega) (by omega) k
    simp only [e1, e2]
    rw [if_pos (by omega)]
    simp only [ih', List.map_cons, at?, e1, e2, List.cons_append]
  | case3 i j h =>
    intro _ _ _ k
    rw [triFrom, dif_neg h]
    simpa using calls_done items i j h k

/-- **C59.** For every sequence there is the list `idx` of all index pairs `i ≤ j` in lexicographic order, each once, such
that calling `next` any number of times beyond `idx.length` yields exactly the item pairs at those indices, in that
order, then `None` forever; no call panics. -/
theorem C59_pairs {α : Type} (items : List α) :
    ∃ idx, TriIndices items.length idx ∧ (∀ p ∈ idx, (at? items p).isSome) ∧
      ∀ k, Pairs.calls (idx.length + k) (Pairs.new items) = some (idx.map (at? items) ++ List.replicate k none) := by
  refine ⟨triFrom items.length 0 0, triFrom_spec _, ?_, ?_⟩
  · rintro ⟨i, j⟩ hp
    obtain ⟨h1, h2⟩ := ((triFrom_spec items.length).1 i j).1 hp
    simp [at?, List.getElem?_eq_getElem h2, List.getElem?_eq_getElem (show i < items.length by omega)]
  · exact calls_triFrom items 0 0 (by omega) (by omega) (by omega)

/-- The number of pairs is `n (n + 1) / 2`. -/
theorem triFrom_length (n : Nat) : ∀ i j : Nat, i ≤ j → (j < n ∨ (i = n ∧ j = n)) → i ≤ n →
    2 * (triFrom n i j).length + 2 * j = (n - i) * (n - i + 1) + 2 * i := by
  intro i j
  induction i, j using triFrom.induct n with
  | case1 i j h h2 ih =>
    intro hij hj hi
    have := ih (by omega) (by omega) (by omega)
    rw [triFrom, dif_pos h, dif_pos h2, List.length_cons]
    omega
  | case2 i j h h2 ih =>
    intro hij hj hi
    have := ih (by omega) (by omega) (by omega)
    rw [triFrom, dif_pos h, dif_neg h2, List.length_cons]
    obtain ⟨d, hd⟩ : ∃ d, n - i = d + 1 := ⟨n - i - 1, by omega⟩
    have hd2 : n - (i + 1) = d := by omega
    rw [hd2] at this
    rw [hd]
    have e : (d + 1) * (d + 1 + 1) = d * (d + 1) + 2 * (d + 1) := by
      rw [Nat.mul_add, Nat.mul_one, Nat.mul_comm (d + 1) (d + 1), Nat.add_mul, Nat.mul_add]; omega
    rw [e]; omega
  | case3 i j h =>
    intro hij hj hi
    rw [triFrom, dif_neg h]
    have : n - i = 0 := by omega
    rw [this]; simp; omega

theorem C59_count {n : Nat} {idx : List (Nat × Nat)} (h : TriIndices n idx) : 2 * idx.length = n * (n + 1) := by
  rw [h.unique (triFrom_spec n)]
  simpa using triFrom_length n 0 0 (by omega) (by omega) (by omega)

/-- The index pairs the parallel version visits. -/
def parIdx (n : Nat) : List (Nat × Nat) := (List.range n).flatMap fun i => (List.range' i (n - i)).map fun j => (i, j)

theorem parIdx_spec (n : Nat) : TriIndices n (parIdx n) := by
  unfold parIdx
  refine ⟨fun i j => ?_, ?_⟩
  · simp only [List.mem_flatMap, List.mem_range, List.mem_map, List.mem_range'_1, Prod.mk.injEq]
    constructor
    · rintro ⟨a, ha, b, hb, rfl, rfl⟩; omega
    · intro h; exact ⟨i, by omega, j, by omega, rfl, rfl⟩
  · rw [List.pairwise_flatMap]
    constructor
    · intro i _
      rw [List.pairwise_map]
      refine (List.pairwise_lt_range' (s := i) (n := n - i)).imp ?_
      intro a b h
      exact Or.inr ⟨rfl, h⟩
    · refine List.pairwise_lt_range.imp ?_
      intro a b h x hx y hy
      simp only [List.mem_map] at hx hy
      obtain ⟨_, _, rfl⟩ := hx
      obtain ⟨_, _, rfl⟩ := hy
      unfold pairLt; simp only; omega

theorem par_eq {α : Type} (items : List α) : (parPairs items).map some = (parIdx items.length).map (at? items) := by
  unfold parPairs parIdx
  rw [List.map_flatMap, List.map_flatMap, List.zipIdx_eq_zip_range', List.range_eq_range']
  have key : ∀ (l : List α) (s : Nat), items.drop s = l →
      ((l.zip (List.range' s l.length)).flatMap fun x => ((items.drop x.2).map fun inner => (x.1, inner)).map some) =
      (List.range' s l.length).flatMap fun i => ((List.range' i (items.length - i)).map fun j => (i, j)).map (at? items) := by
    intro l
    induction l with
    | nil => intro s _; rfl
    | cons a l ih =>
      intro s hs
      have hlt : s < items.length := by
        apply Nat.lt_of_not_le; intro h; rw [List.drop_eq_nil_of_le h] at hs; cases hs
      have ha : items[s]? = some a := by
        have := congrArg (fun t => t[0]?) hs
        simpa using this
      have hs' : items.drop (s + 1) = l := by
        have := congrArg List.tail hs
        simpa using this
      rw [List.length_cons, List.range'_succ, List.zip_cons_cons, List.flatMap_cons, List.flatMap_cons, ih (s + 1) hs']
      congr 1
      apply List.ext_getElem?
      intro k
      simp only [List.map_map, List.getElem?_map, List.getElem?_drop]
      by_cases hk : s + k < items.length
      · rw [List.getElem?_eq_getElem hk, List.getElem?_range' (by omega)]
        simp [at?, ha, List.getElem?_eq_getElem hk]
      · rw [List.getElem?_eq_none (Nat.not_lt.1 hk), List.getElem?_eq_none (by simp; omega)]
        rfl
  have := key items 0 rfl
  simpa using this

/-- **C59 (parallel version).** The parallel iterator, collected in order, yields the same pairs in the same order as the
sequential one. -/
theorem C59_parallel {α : Type} (items : List α) (k : Nat) :
    Pairs.calls ((parPairs items).length + k) (Pairs.new items) =
      some ((parPairs items).map some ++ List.replicate k none) := by
  obtain ⟨idx, h1, _, h3⟩ := C59_pairs items
  have e := par_eq items
  rw [(parIdx_spec items.length).unique h1] at e
  have hl : (parPairs items).length = idx.length := by simpa using congrArg List.length e
  rw [hl, e]
  exact h3 k

example : Pairs.calls 8 (Pairs.new ["a", "b", "c"]) = some [some ("a", "a"), some ("a", "b"), some ("a", "c"),
    some ("b", "b"), some ("b", "c"), some ("c", "c"), none, none] := by decide

end Spf.Props
