import Verif.Model.Gradeschool
import Verif.Props.Combination
import Verif.Proof.Bits
import Mathlib.Data.List.Nodup
import Mathlib.Data.List.Perm.Basic
/-! `n_bits_are_true` means "exactly n of the bits are true". -/
namespace Spf.Mul
open BddFn Spf.Comb Spf.Spec Spf.Props

theorem clause_aux (e : Nat → Bool) (c : List Nat) : ∀ (bits : List BddFn) (k : Nat) (cl : BddFn),
    ((bits.zipIdx k).foldl (fun cl xi => if c.contains xi.2 then BddFn.and cl xi.1 else BddFn.and cl (BddFn.not xi.1)) cl) e = true ↔
      cl e = true ∧ ∀ i (h : i < bits.length), bits[i] e = c.contains (k + i)
  | [], k, cl => by simp
  | b :: bits, k, cl => by
    rw [List.zipIdx_cons, List.foldl_cons, clause_aux e c bits (k + 1)]
    constructor
    · rintro ⟨h1, h2⟩
      cases hc : c.contains k
      · simp only [hc, Bool.false_eq_true, if_false, BddFn.and, BddFn.not, Bool.and_eq_true, Bool.not_eq_true'] at h1
        refine ⟨h1.1, fun i h => ?_⟩
        cases i with
        | zero => simp only [List.getElem_cons_zero, Nat.add_zero, hc]; exact h1.2
        | succ i => simpa [Nat.add_assoc, Nat.add_comm 1] using h2 i (by simpa using h)
      · simp only [hc, if_true, BddFn.and, Bool.and_eq_true] at h1
        refine ⟨h1.1, fun i h => ?_⟩
        cases i with
        | zero => simp only [List.getElem_cons_zero, Nat.add_zero, hc]; exact h1.2
        | succ i => simpa [Nat.add_assoc, Nat.add_comm 1] using h2 i (by simpa using h)
    · rintro ⟨h1, h2⟩
      refine ⟨?_, fun i h => ?_⟩
      · have := h2 0 (by simp)
        simp only [List.getElem_cons_zero, Nat.add_zero] at this
        cases hc : c.contains k
        · rw [hc] at this; simp [BddFn.and, BddFn.not, h1, this]
        · rw [hc] at this; simp [BddFn.and, h1, this]
      · have := h2 (i + 1) (by simpa using h)
        simpa [Nat.add_assoc, Nat.add_comm 1] using this

theorem clause_iff (e : Nat → Bool) (bits : List BddFn) (c : List Nat) :
    clause bits c e = true ↔ ∀ i (h : i < bits.length), bits[i] e = c.contains i := by
  unfold clause
  rw [clause_aux]; simp [mkTrue]

theorem foldl_or (e : Nat → Bool) (f : List Nat → BddFn) : ∀ (l : List (List Nat)) (r : BddFn),
    (l.foldl (fun r c => BddFn.or r (f c)) r) e = true ↔ r e = true ∨ ∃ c ∈ l, f c e = true
  | [], r => by simp
  | c :: l, r => by
    rw [List.foldl_cons, foldl_or e f l]
    simp only [BddFn.or, Bool.or_eq_true, List.mem_cons, exists_eq_or_imp]
    exact or_assoc

theorem filter_range_count : ∀ l : List Bool,
    ((List.range l.length).filter (fun i => l.getD i false)).length = l.count true
  | [] => by simp
  | b :: l => by
    have ih := filter_range_count l
    rw [List.length_cons, List.range_succ_eq_map, List.filter_cons]
    simp only [List.filter_map, List.getD_cons_zero]
    have : ((fun i => (b :: l).getD i false) ∘ Nat.succ) = fun i => l.getD i false := by
      funext i; simp
    rw [this]
    cases b <;> simpa using ih

theorem nBits_count (e : Nat → Bool) (bits : List BddFn) (n : Nat) (hb : 1 ≤ bits.length) (hn : n ≤ bits.length) :
    nBitsAreTrue bits n e = decide ((bits.map (· e)).count true = n) := by
  obtain ⟨it, h1, h2, _, _, _⟩ := C60_enumeration bits.length n (numberCombinations bits.length n + 1) hb hn (by omega)
  unfold nBitsAreTrue
  rw [h1]
  simp only
  rw [Bool.eq_iff_iff, foldl_or, decide_eq_true_iff]
  simp only [mkFalse, Bool.false_eq_true, false_or]
  rw [← filter_range_count]
  simp only [List.length_map]
  have hget : ∀ i (h : i < bits.length), (bits.map (· e)).getD i false = bits[i] e := by
    intro i h; simp [List.getD, h]
  constructor
  · rintro ⟨c, hc, hcl⟩
    rw [h2] at hc
    rw [clause_iff] at hcl
    rw [← hc.1]
    apply List.Perm.length_eq
    rw [List.perm_ext_iff_of_nodup (List.nodup_range.filter _) (hc.2.1.imp Nat.ne_of_lt)]
    intro i
    simp only [List.mem_filter, List.mem_range]
    constructor
    · rintro ⟨hi, hv⟩
      rw [hget i hi, hcl i hi] at hv
      simpa using hv
    · intro hi
      have hlt := hc.2.2 i hi
      refine ⟨hlt, ?_⟩
      rw [hget i hlt, hcl i hlt]; simpa using hi
  · intro hcnt
    refine ⟨(List.range bits.length).filter (fun i => (bits.map (· e)).getD i false), ?_, ?_⟩
    · rw [h2]
      exact ⟨hcnt, List.pairwise_lt_range.filter _, fun x hx => by
        simp only [List.mem_filter, List.mem_range] at hx; exact hx.1⟩
    · rw [clause_iff]
      intro i hi
      rw [Bool.eq_iff_iff]
      simp [hget i hi, hi]

end Spf.Mul
