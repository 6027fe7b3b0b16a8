import Verif.Model.Combination
import Mathlib.Data.Nat.Choose.Basic
import Mathlib.Tactic.Ring
import Mathlib.Tactic.Linarith
/-! Proofs about combinations. -/
namespace Spf.Comb

theorem prodLoop_eq (m : Nat) : ∀ i, prodLoop m i = Nat.choose (m + i) i
  | 0 => by simp [prodLoop]
  | i + 1 => by
    rw [prodLoop, prodLoop_eq m i]
    have h := Nat.add_one_mul_choose_eq (m + i) i
    rw [Nat.mul_comm, show m + (i + 1) = (m + i) + 1 by omega, h]
    exact Nat.mul_div_cancel _ (by omega)

theorem numberCombinations_eq (n k : Nat) : numberCombinations n k = Nat.choose n k := by
  unfold numberCombinations
  split
  · rw [Nat.choose_eq_zero_of_lt]; assumption
  · split
    · subst k; simp
    · split
      · subst k; simp
      · simp only
        split
        · rw [prodLoop_eq, show n - (n - k) + (n - k) = n by omega, Nat.choose_symm (by omega)]
        · rw [prodLoop_eq, show n - k + k = n by omega]

/-- Recursive form of the successor. -/
def nextR (n : Nat) : List Nat → Option (List Nat)
  | [] => none
  | a :: c =>
    match nextR n c with
    | some c' => some (a :: c')
    | none => if a = n - (c.length + 1) then none else some (List.range' (a + 1) (c.length + 1))

theorem nextR_none (n : Nat) : ∀ c : List Nat, c.length ≤ n →
    (nextR n c = none ↔ ∀ j, j < c.length → c.getD j 0 = n - c.length + j)
  | [], _ => by simp [nextR]
  | a :: c, h => by
    simp only [List.length_cons] at h
    have ih := nextR_none n c (by omega)
    unfold nextR
    cases hc : nextR n c with
    | some c' =>
      simp only [reduceCtorEq, false_iff]
      intro hall
      have : nextR n c = none := ih.2 (fun j hj => by
        have := hall (j + 1) (by simp; omega)
        simp only [List.getD_cons_succ, List.length_cons] at this
        rw [this]; omega)
      rw [hc] at this; exact absurd this (by simp)
    | none =>
      have hall := ih.1 hc
      simp only
      split
      · rename_i ha
        simp only [true_iff]
        intro j hj
        cases j with
        | zero => simpa using ha
        | succ j =>
          simp only [List.length_cons] at hj
          have := hall j (by omega)
          simp only [List.getD_cons_succ, List.length_cons]
          rw [this]; omega
      · rename_i ha
        simp only [reduceCtorEq, false_iff]
        intro hall'
        have := hall' 0 (by simp)
        simp at this; exact ha this

theorem findI_spec (n t : Nat) (cur : List Nat) : ∀ k,
    (findI n t cur k < k ∧ cur.getD (findI n t cur k) 0 ≠ n - t + findI n t cur k ∧
      ∀ j, findI n t cur k < j → j < k → cur.getD j 0 = n - t + j) ∨
    (findI n t cur k = 0 ∧ ∀ j, j < k → cur.getD j 0 = n - t + j)
  | 0 => by right; simp [findI]
  | k + 1 => by
    unfold findI
    split
    · rename_i h
      left; exact ⟨by omega, h, fun j h1 h2 => by omega⟩
    · rename_i h
      have h' : cur.getD k 0 = n - t + k := Classical.not_not.1 h
      rcases findI_spec n t cur k with ⟨h1, h2, h3⟩ | ⟨h1, h2⟩
      · left; refine ⟨by omega, h2, fun j hj1 hj2 => ?_⟩
        by_cases hjk : j = k
        · subst hjk; exact h'
        · exact h3 j hj1 (by omega)
      · right; refine ⟨h1, fun j hj => ?_⟩
        by_cases hjk : j = k
        · subst hjk; exact h'
        · exact h2 j (by omega)

theorem nextR_at (n : Nat) : ∀ (c : List Nat) (i : Nat), c.length ≤ n → i < c.length →
    c.getD i 0 ≠ n - c.length + i → (∀ j, i < j → j < c.length → c.getD j 0 = n - c.length + j) →
    nextR n c = some (c.take i ++ List.range' (c.getD i 0 + 1) (c.length - i))
  | [], i, _, h, _, _ => by simp at h
  | a :: c, 0, hn, _, ha, hall => by
    simp only [List.length_cons] at hn hall ha
    have hnone : nextR n c = none := by
      rw [nextR_none n c (by omega)]
      intro j hj
      have := hall (j + 1) (by omega) (by omega)
      simp only [List.getD_cons_succ] at this
      rw [this]; omega
    simp only [nextR, hnone]
    rw [if_neg (by simpa using ha)]
    simp
  | a :: c, i + 1, hn, hi, ha, hall => by
    simp only [List.length_cons] at hn hall ha hi
    have ih := nextR_at n c i (by omega) (by omega)
      (by simp only [List.getD_cons_succ] at ha; omega)
      (fun j h1 h2 => by
        have := hall (j + 1) (by omega) (by omega)
        simp only [List.getD_cons_succ] at this
        rw [this]; omega)
    simp only [nextR, ih, List.take_succ_cons, List.getD_cons_succ, List.length_cons, List.cons_append]
    congr 4
    omega

theorem next_eq_nextR (n t : Nat) (c : List Nat) (hlen : c.length = t) (ht : t ≤ n) :
    (Combinations.mk n t (some c)).next =
      match nextR n c with
      | none => (⟨n, t, some c⟩, none)
      | some c' => (⟨n, t, some c'⟩, some c') := by
  unfold Combinations.next
  simp only
  subst hlen
  rcases findI_spec n c.length c c.length with ⟨h1, h2, h3⟩ | ⟨h1, h2⟩
  · rw [nextR_at n c _ ht h1 h2 h3]
    rw [if_neg (by
      rintro (h | ⟨h, h'⟩)
      · omega
      · rw [h] at h2 h'; simp only [Nat.add_zero] at h2; exact h2 h')]
  · have hnone : nextR n c = none := (nextR_none n c ht).2 h2
    rw [hnone]
    rw [if_pos (by
      by_cases h : c.length = 0
      · exact Or.inl h
      · right; refine ⟨h1, ?_⟩; rw [h1, h2 0 (by omega)]; omega)]

/-- All strictly increasing `t`-lists with entries in `[lo, lo + m)`, in lexicographic order. -/
def combs : Nat → Nat → Nat → List (List Nat)
  | _, _, 0 => [[]]
  | 0, _, _ + 1 => []
  | m + 1, lo, t + 1 => (combs m (lo + 1) t).map (lo :: ·) ++ combs m (lo + 1) (t + 1)

theorem combs_length : ∀ m lo t, (combs m lo t).length = Nat.choose m t
  | _, _, 0 => by simp [combs]
  | 0, _, t + 1 => by simp [combs]
  | m + 1, lo, t + 1 => by simp [combs, combs_length m, Nat.choose_succ_succ']

/-- Strictly increasing, entries in `[lo, hi)`. -/
def Inc : Nat → Nat → List Nat → Prop
  | _, _, [] => True
  | lo, hi, a :: c => lo ≤ a ∧ a < hi ∧ Inc (a + 1) hi c

theorem Inc.mono {lo lo' hi : Nat} (h : lo' ≤ lo) : ∀ {c}, Inc lo hi c → Inc lo' hi c
  | [], _ => trivial
  | _ :: _, ⟨h1, h2, h3⟩ => ⟨by omega, h2, h3⟩

theorem mem_combs : ∀ m lo t c, c ∈ combs m lo t ↔ c.length = t ∧ Inc lo (lo + m) c
  | _, lo, 0, c => by
    simp only [combs, List.mem_singleton]
    constructor
    · rintro rfl; exact ⟨rfl, trivial⟩
    · rintro ⟨h, _⟩; exact List.length_eq_zero_iff.1 h
  | 0, lo, t + 1, c => by
    simp only [combs, List.not_mem_nil, false_iff]
    rintro ⟨h1, h2⟩
    cases c with
    | nil => simp at h1
    | cons a c => obtain ⟨h3, h4, _⟩ := h2; omega
  | m + 1, lo, t + 1, c => by
    simp only [combs, List.mem_append, List.mem_map, mem_combs m]
    have e : lo + 1 + m = lo + (m + 1) := by omega
    rw [e]
    constructor
    · rintro (⟨c', ⟨h1, h2⟩, rfl⟩ | ⟨h1, h2⟩)
      · exact ⟨by simp [h1], by omega, by omega, h2⟩
      · exact ⟨h1, h2.mono (by omega)⟩
    · rintro ⟨h1, h2⟩
      cases c with
      | nil => simp at h1
      | cons a c =>
        obtain ⟨h3, h4, h5⟩ := h2
        by_cases ha : a = lo
        · subst ha; left; exact ⟨c, ⟨by simpa using h1, h5⟩, rfl⟩
        · right; exact ⟨h1, by omega, h4, h5⟩

/-- Lexicographic order on lists of numbers. -/
def lexLt : List Nat → List Nat → Prop
  | a :: c, b :: d => a < b ∨ (a = b ∧ lexLt c d)
  | _, _ => False

theorem combs_sorted : ∀ m lo t, (combs m lo t).Pairwise lexLt
  | _, _, 0 => by simp [combs]
  | 0, _, t + 1 => by simp [combs]
  | m + 1, lo, t + 1 => by
    simp only [combs]
    rw [List.pairwise_append]
    refine ⟨?_, combs_sorted m (lo + 1) (t + 1), ?_⟩
    · rw [List.pairwise_map]
      exact (combs_sorted m (lo + 1) t).imp (fun h => Or.inr ⟨rfl, h⟩)
    · intro x hx y hy
      simp only [List.mem_map] at hx
      obtain ⟨x', _, rfl⟩ := hx
      rw [mem_combs] at hy
      cases y with
      | nil => simp at hy
      | cons b y => left; have := hy.2.1; omega

/-- head of the enumeration -/
theorem combs_head : ∀ m lo t, t ≤ m → ∃ r, combs m lo t = List.range' lo t :: r
  | m, lo, 0, _ => by simp [combs]
  | 0, lo, t + 1, h => by omega
  | m + 1, lo, t + 1, h => by
    obtain ⟨r, hr⟩ := combs_head m (lo + 1) t (by omega)
    simp [combs, hr, List.range'_succ]

/-- chain: `nextR` walks along the list and ends at its end. -/
def Walk (n : Nat) : List (List Nat) → Prop
  | [] => True
  | [c] => nextR n c = none
  | c :: d :: r => nextR n c = some d ∧ Walk n (d :: r)

theorem walk_map_cons (n a : Nat) : ∀ (l : List (List Nat)) (rest : List (List Nat)),
    (∀ c, c ∈ l → nextR n c ≠ none ∨ True) → Walk n l →
    (∀ c, c ∈ l → c.length + 1 ≤ n ∧ True) →
    (∀ c, c ∈ l → nextR n c = none → (if a = n - (c.length + 1) then none else some (List.range' (a + 1) (c.length + 1)))
      = rest.head?) →
    Walk n rest → l ≠ [] → Walk n (l.map (a :: ·) ++ rest)
  | [], _, _, _, _, _, _, h => absurd rfl h
  | [c], rest, _, hw, _, hend, hr, _ => by
    simp only [Walk] at hw
    have := hend c (by simp) hw
    cases rest with
    | nil => simp only [List.map_cons, List.map_nil, List.append_nil, Walk, nextR, hw]; exact this
    | cons d r =>
      simp only [List.map_cons, List.map_nil, List.cons_append, List.nil_append, Walk, nextR, hw]
      exact ⟨this, hr⟩
  | c :: d :: l, rest, _, hw, hl, hend, hr, _ => by
    simp only [Walk] at hw
    simp only [List.map_cons, List.cons_append, Walk, nextR, hw.1, true_and]
    have := walk_map_cons n a (d :: l) rest (fun _ _ => Or.inr trivial) hw.2
      (fun x hx => hl x (List.mem_cons_of_mem _ hx)) (fun x hx h => hend x (List.mem_cons_of_mem _ hx) h) hr (by simp)
    simpa using this

theorem combs_walk (n : Nat) : ∀ m lo t, lo + m = n → Walk n (combs m lo t)
  | _, _, 0, _ => by simp [combs, Walk, nextR]
  | 0, _, t + 1, _ => by simp [combs, Walk]
  | m + 1, lo, t + 1, h => by
    simp only [combs]
    by_cases htm : t ≤ m
    · obtain ⟨r, hr⟩ := combs_head m (lo + 1) t htm
      apply walk_map_cons
      · intros; exact Or.inr trivial
      · exact combs_walk n m (lo + 1) t (by omega)
      · intro c hc; rw [mem_combs] at hc; exact ⟨by omega, trivial⟩
      · intro c hc _
        rw [mem_combs] at hc
        rw [hc.1]
        by_cases hlt : t + 1 ≤ m
        · obtain ⟨r', hr'⟩ := combs_head m (lo + 1) (t + 1) hlt
          rw [hr', if_neg (by omega)]; rfl
        · have : combs m (lo + 1) (t + 1) = [] := by
            apply List.length_eq_zero_iff.1
            rw [combs_length, Nat.choose_eq_zero_of_lt (by omega)]
          rw [this, if_pos (by omega)]; rfl
      · exact combs_walk n m (lo + 1) (t + 1) (by omega)
      · rw [hr]; simp
    · have h1 : combs m (lo + 1) t = [] := by
        apply List.length_eq_zero_iff.1
        rw [combs_length, Nat.choose_eq_zero_of_lt (by omega)]
      rw [h1]
      exact combs_walk n m (lo + 1) (t + 1) (by omega)

theorem collect_walk (n t : Nat) (ht : t ≤ n) : ∀ (c : List Nat) (l : List (List Nat)) (k : Nat),
    Walk n (c :: l) → (∀ x ∈ c :: l, x.length = t) → l.length ≤ k →
    Combinations.collect k ⟨n, t, some c⟩ = l
  | c, [], k, hw, hl, _ => by
    cases k with
    | zero => rfl
    | succ k =>
      simp only [Walk] at hw
      simp only [Combinations.collect, next_eq_nextR n t c (hl c (by simp)) ht, hw]
  | c, d :: l, 0, _, _, hk => by simp at hk
  | c, d :: l, k + 1, hw, hl, hk => by
    simp only [Walk] at hw
    simp only [Combinations.collect, next_eq_nextR n t c (hl c (by simp)) ht, hw.1]
    rw [collect_walk n t ht d l k hw.2 (fun x hx => hl x (List.mem_cons_of_mem _ hx)) (by simp at hk; omega)]

theorem collect_combs (n t k : Nat) (ht : t ≤ n) (hk : Nat.choose n t < k) :
    Combinations.collect k ⟨n, t, none⟩ = combs n 0 t := by
  obtain ⟨r, hr⟩ := combs_head n 0 t ht
  have hlen := combs_length n 0 t
  rw [hr] at hlen
  cases k with
  | zero => omega
  | succ k =>
    have hw := combs_walk n n 0 t (by omega)
    rw [hr] at hw
    simp only [Combinations.collect, Combinations.next]
    rw [List.range_eq_range', hr, collect_walk n t ht (List.range' 0 t) r k hw]
    · intro x hx; rw [← hr, mem_combs] at hx; exact hx.1
    · simp only [List.length_cons] at hlen; omega

/-- Past the end `next` keeps returning `None`. -/
theorem next_fused (s : Combinations) (h : s.next.2 = none) : s.next.1 = s := by
  revert h
  unfold Combinations.next
  cases s.current with
  | none => simp
  | some cur =>
    simp only
    split
    · intro; rfl
    · simp

/-! ### Ranking -/

/-- position of `c` among the combinations of `[lo, n)` -/
def rank (n : Nat) : Nat → List Nat → Nat
  | _, [] => 0
  | lo, a :: c => whileIndex n c.length lo (a - lo) + rank n (a + 1) c

theorem getIndexLoop_eq (n k : Nat) (hn : 0 < n) : ∀ (c : List Nat) (offset lo index : Nat), Inc lo n c → offset + c.length = k →
    getIndexLoop n k c offset lo index = .ok (index + rank n lo c)
  | [], _, _, _, _, _ => by simp [getIndexLoop, rank]
  | a :: c, offset, lo, index, ⟨h1, h2, h3⟩, hk => by
    simp only [List.length_cons] at hk
    unfold getIndexLoop
    rw [if_neg (by omega), Nat.max_eq_right h1, getIndexLoop_eq n k hn c _ _ _ h3 (by omega), rank,
      show k - (offset + 1) = c.length by omega, Nat.add_assoc]

/-- combinadic dual -/
def dual (n : Nat) : List Nat → Nat
  | [] => 0
  | a :: c => Nat.choose (n - 1 - a) (c.length + 1) + dual n c

theorem while_tel (n k : Nat) : ∀ (f lo : Nat), lo + f < n →
    whileIndex n k lo f + Nat.choose (n - (lo + f)) (k + 1) = Nat.choose (n - lo) (k + 1)
  | 0, lo, _ => by simp [whileIndex]
  | f + 1, lo, h => by
    have ih := while_tel n k f (lo + 1) (by omega)
    rw [whileIndex, numberCombinations_eq, Nat.add_assoc, show lo + (f + 1) = lo + 1 + f by omega, ih,
      show n - lo = (n - 1 - lo) + 1 by omega, Nat.choose_succ_succ', show n - (lo + 1) = n - 1 - lo by omega]

theorem rank_dual (n : Nat) : ∀ (c : List Nat) (lo : Nat), Inc lo n c →
    rank n lo c + dual n c + 1 = Nat.choose (n - lo) c.length
  | [], lo, _ => by simp [rank, dual]
  | a :: c, lo, ⟨h1, h2, h3⟩ => by
    have ih := rank_dual n c (a + 1) h3
    have tel := while_tel n c.length (a - lo) lo (by omega)
    rw [show lo + (a - lo) = a by omega] at tel
    have e : n - a = (n - 1 - a) + 1 := by omega
    rw [e, Nat.choose_succ_succ'] at tel
    rw [show n - (a + 1) = n - 1 - a by omega] at ih
    simp only [rank, dual, List.length_cons]
    omega

theorem dual_lt (n a : Nat) (c : List Nat) (h : Inc a n c) (ha : a ≤ n) : dual n c < Nat.choose (n - a) c.length := by
  have := rank_dual n c a h; omega

theorem descend_eq (b x : Nat) (d : Nat) (h1 : Nat.choose d b ≤ x) (h2 : x < Nat.choose (d + 1) b) :
    ∀ a, d ≤ a → descend b x a = some d
  | 0, h => by
    have : d = 0 := by omega
    subst this
    simp [descend, numberCombinations_eq, h1]
  | a + 1, h => by
    unfold descend
    rw [numberCombinations_eq]
    by_cases hd : d = a + 1
    · subst hd; rw [if_neg (by omega)]
    · rw [if_pos, descend_eq b x d h1 h2 a (by omega)]
      have : Nat.choose (d + 1) b ≤ Nat.choose (a + 1) b := Nat.choose_le_choose b (by omega)
      omega

theorem atIndexLoop_eq (n : Nat) : ∀ (c : List Nat) (lo a : Nat), Inc lo n c → a = n - lo → 
    atIndexLoop n c.length a (dual n c) = some c
  | [], _, _, _, _ => by simp [atIndexLoop]
  | i :: c, lo, a, ⟨h1, h2, h3⟩, ha => by
    simp only [List.length_cons, atIndexLoop]
    rw [if_neg (by omega)]
    have hd : descend (c.length + 1) (dual n (i :: c)) (a - 1) = some (n - 1 - i) := by
      apply descend_eq
      · simp [dual]
      · have hl := dual_lt n (i + 1) c h3 (by omega)
        rw [show n - (i + 1) = n - 1 - i by omega] at hl
        simp only [dual]
        rw [Nat.choose_succ_succ']; omega
      · omega
    rw [hd]
    simp only
    rw [numberCombinations_eq]
    have : dual n (i :: c) - Nat.choose (n - 1 - i) (c.length + 1) = dual n c := by simp [dual]
    rw [this, atIndexLoop_eq n c (i + 1) (n - 1 - i) h3 (by omega)]
    simp; omega

theorem rank_lt_of_mem (n t : Nat) (c : List Nat) (hc : c ∈ combs n 0 t) : rank n 0 c < Nat.choose n t := by
  rw [mem_combs] at hc
  have := rank_dual n c 0 (by simpa using hc.2)
  rw [hc.1] at this; simp at this; omega

theorem whileIndex_lo (n k lo f) : whileIndex n k lo (f + 1) = Nat.choose (n - 1 - lo) k + whileIndex n k (lo + 1) f := by
  rw [whileIndex, numberCombinations_eq]

/-- rank is the position in the enumeration -/
theorem rank_getElem (n : Nat) : ∀ m lo t i (h : i < (combs m lo t).length), lo + m = n →
    rank n lo ((combs m lo t)[i]) = i
  | _, lo, 0, i, h, _ => by
    have : i = 0 := by simp [combs] at h; exact h
    subst this; simp [combs, rank]
  | 0, lo, t + 1, i, h, _ => by simp [combs] at h
  | m + 1, lo, t + 1, i, h, hn => by
    simp only [combs] at h ⊢
    rw [List.getElem_append]
    split
    · rename_i hi
      simp only [List.getElem_map, rank, Nat.sub_self, whileIndex, Nat.zero_add]
      rw [rank_getElem n m (lo + 1) t i (by simpa using hi) (by omega)]
    · rename_i hi
      have hi' : i - ((combs m (lo + 1) t).map (lo :: ·)).length < (combs m (lo + 1) (t + 1)).length := by
        simp only [List.length_append] at h; omega
      have ih := rank_getElem n m (lo + 1) (t + 1) (i - ((combs m (lo + 1) t).map (lo :: ·)).length) hi' (by omega)
      have hmem := (mem_combs m (lo + 1) (t + 1) _).1 (List.getElem_mem hi')
      generalize (combs m (lo + 1) (t + 1))[i - ((combs m (lo + 1) t).map (lo :: ·)).length] = c at *
      cases c with
      | nil => simp at hmem
      | cons a c =>
        obtain ⟨hl, h1, h2, h3⟩ := hmem
        simp only [List.length_cons] at hl
        simp only [rank] at ih ⊢
        rw [show a - lo = (a - (lo + 1)) + 1 by omega, whileIndex_lo]
        simp only [List.length_map, combs_length] at ih hi ⊢
        rw [show n - 1 - lo = m by omega, show c.length = t by omega] at *
        omega

end Spf.Comb
