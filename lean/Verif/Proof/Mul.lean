import Verif.Proof.Bits
import Verif.Model.Mul
import Mathlib.Data.List.Nodup
import Mathlib.Data.List.Perm.Subperm
import Mathlib.Data.List.ProdSigma
/-! Array multiplier proofs. -/
namespace Spf.Mul
open Spf.Spec BddFn
set_option linter.unusedSimpArgs false

theorem decodeStarts_zero (c : Nat) :
    decodeStarts 0 c = (List.range (c + 1)).reverse.map fun k => (0, k) := by
  induction c with
  | zero => rfl
  | succ c ih => rw [decodeStarts, decodeCols, ← decodeStarts, ih, List.range_succ (n := c + 1)]; simp

theorem decodeStarts_eq (r c : Nat) :
    decodeStarts r c = (List.range (r + c + 1)).reverse.map fun k => if k > c then (k - c, c) else (0, k) := by
  induction r with
  | zero =>
    rw [decodeStarts_zero, Nat.zero_add]
    apply List.map_congr_left
    intro k hk
    simp at hk
    rw [if_neg (by omega)]
  | succ r ih =>
    rw [decodeStarts, ih, show r + 1 + c + 1 = (r + c + 1) + 1 by omega, List.range_succ (n := r + c + 1)]
    simp only [List.reverse_append, List.reverse_cons, List.reverse_nil, List.nil_append, List.cons_append,
      List.map_cons]
    rw [if_pos (by omega)]
    congr 2
    omega

theorem diag_eq (n m k : Nat) (hn : 0 < n) :
    decodeDiag n m (if k > n - 1 then (k - (n - 1), n - 1) else (0, k)) = encodeDiag n m (k + 1) := by
  unfold decodeDiag encodeDiag
  by_cases h : k > n - 1
  · rw [if_pos h, if_pos (by omega), if_pos (by omega)]
    simp only
    have : (fun j => !(decide (j > n - 1) || decide (k - (n - 1) + j ≥ m))) =
        (fun i => !(decide (k + 1 - n + i ≥ m) || decide (0 + i ≥ n))) := by
      funext j
      rw [Bool.or_comm, show k - (n - 1) = k + 1 - n by omega]
      congr 2
      simp; omega
    rw [this]
    apply List.map_congr_left
    intro j _
    simp only [Prod.mk.injEq]; omega
  · rw [if_neg h, if_neg (by omega), if_neg (by omega)]
    simp only
    have : (fun j => !(decide (j > k) || decide (0 + j ≥ m))) =
        (fun i => !(decide (0 + i ≥ m) || decide (n - (k + 1) + i ≥ n))) := by
      funext j
      rw [Bool.or_comm]
      congr 2
      simp; omega
    rw [this]
    apply List.map_congr_left
    intro j _
    refine Prod.ext rfl ?_
    show k - j = n - (n - (k + 1) + j) - 1
    omega

/-- the cells in visiting order -/
def cells (n m : Nat) : List (Nat × Nat) := (decodeStarts (m - 1) (n - 1)).flatMap (decodeDiag n m)

theorem cells_eq (n m : Nat) (hn : 0 < n) (hm : 0 < m) :
    cells n m = (List.range (n + m - 1)).reverse.flatMap fun d => encodeDiag n m (d + 1) := by
  unfold cells
  rw [decodeStarts_eq, List.flatMap_map, show m - 1 + (n - 1) + 1 = n + m - 1 by omega]
  congr 1
  funext k
  exact diag_eq n m k hn

theorem takeWhile_all {α} (p : α → Bool) : ∀ l : List α, (∀ x ∈ l, p x = true) → l.takeWhile p = l
  | [], _ => rfl
  | x :: l, h => by
    rw [List.takeWhile_cons, h x (by simp), takeWhile_all p l (fun y hy => h y (by simp [hy]))]; rfl

theorem takeWhile_range (p : Nat → Bool) (N b : Nat) (hb : b ≤ N) (hp : ∀ i, p i = true ↔ i < b) :
    (List.range N).takeWhile p = List.range b := by
  induction N generalizing b with
  | zero => have : b = 0 := by omega
            subst this; rfl
  | succ N ih =>
    by_cases h : b = N + 1
    · subst h
      apply takeWhile_all
      intro x hx; exact (hp x).2 (by simpa using hx)
    · rw [List.range_succ, List.takeWhile_append, ih b (by omega) hp]
      split
      · rename_i hl
        simp at hl
        have : p N = false := by
          cases hh : p N
          · rfl
          · exact absurd ((hp N).1 hh) (by omega)
        rw [show [N] = N :: [] from rfl, List.takeWhile_cons, this]; simp [hl]
      · rfl

theorem decodeDiag_range (n m : Nat) (s : Nat × Nat) (hc : s.2 < n) :
    decodeDiag n m s = (List.range (min (s.2 + 1) (m - s.1))).map fun j => (s.1 + j, s.2 - j) := by
  unfold decodeDiag
  rw [takeWhile_range _ (m + n) (min (s.2 + 1) (m - s.1)) (by omega)]
  intro i; simp; omega

theorem mem_decodeStarts (r c : Nat) (s : Nat × Nat) :
    s ∈ decodeStarts r c ↔ (s.1 ≤ r ∧ s.2 = c ∧ 0 < s.1) ∨ (s.1 = 0 ∧ s.2 ≤ c) := by
  rw [decodeStarts_eq]
  simp only [List.mem_map, List.mem_reverse, List.mem_range]
  constructor
  · rintro ⟨k, hk, rfl⟩
    split <;> simp <;> omega
  · rintro (⟨h1, h2, h3⟩ | ⟨h1, h2⟩)
    · refine ⟨s.1 + c, by omega, ?_⟩
      rw [if_pos (by omega)]
      ext <;> simp; omega
    · refine ⟨s.2, by omega, ?_⟩
      rw [if_neg (by omega)]
      ext <;> simp; omega

theorem mem_cells (n m : Nat) (hn : 0 < n) (hm : 0 < m) (r c : Nat) :
    (r, c) ∈ cells n m ↔ r < m ∧ c < n := by
  unfold cells
  rw [List.mem_flatMap]
  constructor
  · rintro ⟨s, hs, h⟩
    rw [mem_decodeStarts] at hs
    rw [decodeDiag_range n m s (by omega)] at h
    simp only [List.mem_map, List.mem_range, Prod.mk.injEq] at h
    obtain ⟨j, hj, h1, h2⟩ := h
    omega
  · rintro ⟨h1, h2⟩
    by_cases h : n - 1 - c ≤ r
    · refine ⟨(r - (n - 1 - c), n - 1), ?_, ?_⟩
      · rw [mem_decodeStarts]; simp; omega
      · rw [decodeDiag_range n m _ (by simp; omega)]
        simp only [List.mem_map, List.mem_range, Prod.mk.injEq]
        exact ⟨n - 1 - c, by omega, by omega, by omega⟩
    · refine ⟨(0, c + r), ?_, ?_⟩
      · rw [mem_decodeStarts]; simp; omega
      · rw [decodeDiag_range n m _ (by simp; omega)]
        simp only [List.mem_map, List.mem_range, Prod.mk.injEq]
        exact ⟨r, by omega, by omega, by omega⟩

theorem cells_nodup (n m : Nat) (hn : 0 < n) : (cells n m).Nodup := by
  unfold cells
  rw [List.nodup_flatMap]
  constructor
  · intro s hs
    rw [mem_decodeStarts] at hs
    rw [decodeDiag_range n m s (by omega)]
    apply List.Nodup.map
    · intro a b h; simp at h; exact h.1
    · exact List.nodup_range
  · rw [decodeStarts_eq, List.pairwise_map, List.pairwise_reverse]
    apply List.Pairwise.imp_of_mem (R := (· < ·)) _ List.pairwise_lt_range
    intro a b ha hb hab
    simp only [List.mem_range] at ha hb
    simp only [Function.onFun, List.disjoint_left]
    intro p hp hq
    rw [decodeDiag_range n m _ (by split <;> simp <;> omega)] at hp hq
    simp only [List.mem_map, List.mem_range] at hp hq
    obtain ⟨i, hi, rfl⟩ := hp
    obtain ⟨j, hj, h⟩ := hq
    simp only [Prod.mk.injEq] at h
    split at hi <;> split at hj <;> simp_all <;> omega

theorem cells_length (n m : Nat) (hn : 0 < n) (hm : 0 < m) : (cells n m).length = m * n := by
  have hN := cells_nodup n m hn
  have hP : (List.range m ×ˢ List.range n).Nodup := List.nodup_range.product List.nodup_range
  have hmem : ∀ p, p ∈ cells n m ↔ p ∈ List.range m ×ˢ List.range n := by
    rintro ⟨r, c⟩
    rw [mem_cells n m hn hm, List.mem_product]; simp
  have h1 := (hN.subperm (fun p hp => (hmem p).1 hp)).length_le
  have h2 := (hP.subperm (fun p hp => (hmem p).2 hp)).length_le
  rw [List.length_product, List.length_range, List.length_range] at h1 h2
  omega

theorem decodeFill_map {α β} (g : α → β) : ∀ (cs : List (Nat × Nat)) (l : List α) (xy : (Nat → Nat → α) × (Nat → Nat → α)),
    decodeFill cs (l.map g) (fun r c => g (xy.1 r c), fun r c => g (xy.2 r c)) =
      (fun r c => g ((decodeFill cs l xy).1 r c), fun r c => g ((decodeFill cs l xy).2 r c))
  | [], _, _ => by simp [decodeFill]
  | _ :: _, [], _ => by simp [decodeFill]
  | _ :: _, [_], _ => by simp [decodeFill]
  | rc :: cs, a :: b :: l, (x, y) => by
    simp only [List.map_cons, decodeFill]
    rw [← decodeFill_map g cs l]
    congr 1
    ext r c
    · simp only; split <;> rfl
    · simp only; split <;> rfl

theorem decodeFill_flatMap {α} (X Y : Nat → α) : ∀ (cs : List (Nat × Nat)) (xy : (Nat → Nat → α) × (Nat → Nat → α)) (r c),
    let out := decodeFill cs (cs.flatMap fun rc => [X rc.2, Y rc.1]) xy
    out.1 r c = (if (r, c) ∈ cs then X c else xy.1 r c) ∧ out.2 r c = (if (r, c) ∈ cs then Y r else xy.2 r c)
  | [], xy, r, c => by simp [decodeFill]
  | rc :: cs, (x, y), r, c => by
    simp only [List.flatMap_cons, List.cons_append, List.nil_append, decodeFill]
    obtain ⟨h1, h2⟩ := decodeFill_flatMap X Y cs
      (fun r c => if r = rc.1 ∧ c = rc.2 then X rc.2 else x r c, fun r c => if r = rc.1 ∧ c = rc.2 then Y rc.1 else y r c) r c
    rw [h1, h2]
    by_cases hm : (r, c) ∈ cs
    · simp [hm]
    · by_cases he : r = rc.1 ∧ c = rc.2
      · obtain ⟨rfl, rfl⟩ := he; simp [hm]
      · have : (r, c) ≠ rc := by rintro rfl; exact he ⟨rfl, rfl⟩
        simp [hm, he, this]

/-- Encoding then decoding puts `x[c]` and `y[r]` at cell `(r, c)`. -/
theorem decode_encode_cells {α} (x y : List α) (dflt : α) (hn : 0 < x.length) (hm : 0 < y.length) :
    ∃ enc X Y, mulBddEncode x y dflt = some enc ∧ enc.length = 2 * y.length * x.length ∧
      mulBddDecode enc x.length y.length dflt = some (X, Y) ∧
      ∀ r c, r < y.length → c < x.length → X r c = x.getD c dflt ∧ Y r c = y.getD r dflt := by
  have hflat : ((List.range (x.length + y.length - 1)).reverse.flatMap fun d =>
      (encodeDiag x.length y.length (d + 1)).flatMap fun rc => [x.getD rc.2 dflt, y.getD rc.1 dflt]) =
      (cells x.length y.length).flatMap fun rc => [x.getD rc.2 dflt, y.getD rc.1 dflt] := by
    rw [cells_eq _ _ hn hm, List.flatMap_assoc]
  have hlen : ((cells x.length y.length).flatMap fun rc => [x.getD rc.2 dflt, y.getD rc.1 dflt]).length
      = 2 * y.length * x.length := by
    rw [List.length_flatMap]
    simp only [List.length_cons, List.length_nil]
    rw [List.map_const', List.sum_replicate_nat, cells_length _ _ hn hm]
    rw [Nat.mul_comm, Nat.mul_assoc]
  generalize he : ((cells x.length y.length).flatMap fun rc => [x.getD rc.2 dflt, y.getD rc.1 dflt]) = enc at *
  refine ⟨enc, (decodeFill (cells x.length y.length) enc (fun _ _ => enc.headD dflt, fun _ _ => enc.headD dflt)).1,
    (decodeFill (cells x.length y.length) enc (fun _ _ => enc.headD dflt, fun _ _ => enc.headD dflt)).2, ?_, hlen, ?_, ?_⟩
  · unfold mulBddEncode; rw [if_neg (by omega), if_neg (by omega)]; simp only [hflat]
  · unfold mulBddDecode
    rw [if_neg (by simp [hlen]), if_neg (by omega)]
    rfl
  · intro r c hr hc
    obtain ⟨h1, h2⟩ := decodeFill_flatMap (fun c => x.getD c dflt) (fun r => y.getD r dflt) (cells x.length y.length)
      (fun _ _ => enc.headD dflt, fun _ _ => enc.headD dflt) r c
    rw [if_pos ((mem_cells _ _ hn hm r c).2 ⟨hr, hc⟩), he] at h1 h2
    exact ⟨h1, h2⟩

end Spf.Mul
