import Verif.Model.Dst
import Verif.Spec.Chunks
import Mathlib.Data.List.Perm.Basic
import Mathlib.Tactic.Ring
import Mathlib.Data.List.Induction
/-! C97: iterating over flat slices. -/
namespace Spf.Props
open Spf.Dst Spf.Spec
variable {α : Type}

theorem deque_map {β γ : Type} (f : β → γ) : ∀ (cs : List Bool) (xs : List β),
    deque (xs.map f) cs = ((deque xs cs).1.map (Option.map f), (deque xs cs).2.map f)
  | [], xs => rfl
  | true :: cs, xs => by
    rw [deque, deque, ← List.map_tail, deque_map f cs]
    simp
  | false :: cs, xs => by
    rw [deque, deque, ← List.map_dropLast, deque_map f cs]
    simp

/-- What comes out of a queue and what is left in it are what was in it: nothing is returned twice, nothing is lost. -/
theorem deque_perm {β : Type} : ∀ (cs : List Bool) (xs : List β),
    ((deque xs cs).1.filterMap id ++ (deque xs cs).2).Perm xs
  | [], xs => List.Perm.refl _
  | true :: cs, xs => by
    rw [deque]
    cases xs with
    | nil => simpa using deque_perm cs ([] : List β)
    | cons x xs => simpa using deque_perm cs xs
  | false :: cs, xs => by
    rw [deque]
    cases xs using List.reverseRecOn with
    | nil => simpa using deque_perm cs ([] : List β)
    | append_singleton xs x =>
      simp only [List.getLast?_append, List.getLast?_singleton, Option.some_or, List.dropLast_concat, List.filterMap_cons, id,
        List.cons_append]
      exact ((deque_perm cs xs).cons x).trans (List.perm_append_comm (l₁ := [x]) (l₂ := xs))

theorem dropLast_range' (f m : Nat) : (List.range' f (m + 1)).dropLast = List.range' f m := by
  rw [List.range'_1_concat, List.dropLast_concat]

/-! ### Shared iterators -/

/-- The iterator after `f` items from the front and with `m` items left. -/
def itAt (data : List α) (s f m : Nat) : It α := ⟨data, s, f * s, ((f + m) * s : Nat) - (s : Int)⟩

theorem slice_some {data : List α} {a s : Nat} (h : a + s ≤ data.length) : slice data a s = some ((data.drop a).take s) := by
  rw [slice, if_pos h]

theorem itNext_at (data : List α) (s n f m : Nat) (hs : s ≠ 0) (hl : data.length = n * s) (hfm : f + m ≤ n) :
    itNext (itAt data s f m) = some (match m with
      | 0 => (none, itAt data s f 0)
      | m + 1 => (some (chunk s data f), itAt data s (f + 1) m)) := by
  cases m with
  | zero =>
    simp only
    rw [itNext]
    by_cases h : (itAt data s f 0).front ≥ (itAt data s f 0).data.length
    · rw [if_pos h]
    · rw [if_neg h, if_pos (by simp only [itAt, Nat.add_zero]; omega)]
  | succ m =>
    have h1 : f * s < n * s := Nat.mul_lt_mul_of_pos_right (by omega) (by omega)
    have h2 : (f + 1) * s ≤ n * s := Nat.mul_le_mul_right _ (by omega)
    have h3 : f * s < (f + (m + 1)) * s := Nat.mul_lt_mul_of_pos_right (by omega) (by omega)
    rw [Nat.add_mul, Nat.one_mul] at h2
    rw [itNext, if_neg (by simp only [itAt]; omega), if_neg (by simp only [itAt]; omega)]
    rw [show slice (itAt data s f (m + 1)).data (itAt data s f (m + 1)).front (itAt data s f (m + 1)).stride =
      some (chunk s data f) from slice_some (by simp only [itAt]; omega)]
    simp only [Option.map_some, itAt]
    rw [show f + 1 + m = f + (m + 1) by omega, Nat.add_mul f 1, Nat.one_mul]

theorem itNextBack_at (data : List α) (s n f m : Nat) (hs : s ≠ 0) (hl : data.length = n * s) (hfm : f + m ≤ n) :
    itNextBack (itAt data s f m) = some (match m with
      | 0 => (none, itAt data s f 0)
      | m + 1 => (some (chunk s data (f + m)), itAt data s f m)) := by
  cases m with
  | zero =>
    simp only
    rw [itNextBack]
    by_cases h : (itAt data s f 0).back < 0
    · rw [if_pos h]
    · rw [if_neg h, if_pos (by simp only [itAt, Nat.add_zero]; omega)]
  | succ m =>
    have e : (f + (m + 1)) * s = (f + m) * s + s := by rw [← Nat.add_assoc, Nat.add_mul _ 1, Nat.one_mul]
    have h2 : (f + (m + 1)) * s ≤ n * s := Nat.mul_le_mul_right _ (by omega)
    have h3 : f * s ≤ (f + m) * s := Nat.mul_le_mul_right _ (by omega)
    rw [itNextBack, if_neg (by simp only [itAt]; omega), if_neg (by simp only [itAt]; omega)]
    have ht : (itAt data s f (m + 1)).back.toNat = (f + m) * s := by simp only [itAt]; omega
    rw [ht, show slice (itAt data s f (m + 1)).data ((f + m) * s) (itAt data s f (m + 1)).stride =
      some (chunk s data (f + m)) from slice_some (by simp only [itAt]; omega)]
    simp only [Option.map_some, itAt]
    rw [e]
    congr 3
    omega

theorem itRun_at (data : List α) (s n : Nat) (hs : s ≠ 0) (hl : data.length = n * s) : ∀ (cs : List Bool) (f m : Nat),
    f + m ≤ n → ∃ f' m', f' + m' ≤ n ∧ (deque (List.range' f m) cs).2 = List.range' f' m' ∧
      itRun (itAt data s f m) cs = some ((deque (List.range' f m) cs).1.map (Option.map (chunk s data)), itAt data s f' m')
  | [], f, m, h => ⟨f, m, h, rfl, rfl⟩
  | true :: cs, f, m, h => by
    rw [itRun, if_pos rfl, itNext_at data s n f m hs hl h]
    cases m with
    | zero =>
      obtain ⟨f', m', h1, h2, h3⟩ := itRun_at data s n hs hl cs f 0 h
      simp only [List.range'_zero] at h2 h3
      refine ⟨f', m', h1, by simpa [deque] using h2, ?_⟩
      simp only [List.range'_zero, deque, List.head?_nil, List.tail_nil, h3, Option.map_some, List.map_cons, Option.map_none]
    | succ m =>
      obtain ⟨f', m', h1, h2, h3⟩ := itRun_at data s n hs hl cs (f + 1) m (by omega)
      refine ⟨f', m', h1, by simpa [deque, List.range'_succ] using h2, ?_⟩
      simp only [List.range'_succ, deque, List.head?_cons, List.tail_cons, h3, Option.map_some, List.map_cons]
  | false :: cs, f, m, h => by
    rw [itRun, if_neg (by decide), itNextBack_at data s n f m hs hl h]
    cases m with
    | zero =>
      obtain ⟨f', m', h1, h2, h3⟩ := itRun_at data s n hs hl cs f 0 h
      simp only [List.range'_zero] at h2 h3
      refine ⟨f', m', h1, by simpa [deque] using h2, ?_⟩
      simp only [List.range'_zero, deque, List.getLast?_nil, List.dropLast_nil, h3, Option.map_some, List.map_cons, Option.map_none]
    | succ m =>
      obtain ⟨f', m', h1, h2, h3⟩ := itRun_at data s n hs hl cs f m (by omega)
      refine ⟨f', m', h1, by simpa [deque, dropLast_range'] using h2, ?_⟩
      rw [deque, dropLast_range']
      simp only [h3, Option.map_some, List.map_cons]
      rw [List.range'_1_concat, List.getLast?_append]
      simp

theorem itNew_at (data : List α) (s n : Nat) (hs : s ≠ 0) (hl : data.length = n * s) :
    itNew data s = some (itAt data s 0 n) := by
  rw [itNew, if_neg hs, if_pos (by rw [hl]; exact Nat.mul_mod_left _ _)]
  simp [itAt, hl]

theorem chunks_eq (data : List α) (s n : Nat) (hs : s ≠ 0) (hl : data.length = n * s) :
    chunks s data = (List.range' 0 n).map (chunk s data) := by
  rw [chunks, hl, Nat.mul_div_cancel _ (Nat.pos_of_ne_zero hs), List.range_eq_range']

/-- C97: for every slice whose length is a multiple of the stride and every sequence of calls to `next` and
`next_back`, the iterator answers as a double-ended queue holding the pieces of the slice; it never panics. -/
theorem C97_iter (data : List α) (s : Nat) (hs : s ≠ 0) (hd : s ∣ data.length) (cs : List Bool) :
    ∃ it it', itNew data s = some it ∧ itRun it cs = some ((deque (chunks s data) cs).1, it') := by
  obtain ⟨n, hn⟩ := hd
  rw [Nat.mul_comm] at hn
  obtain ⟨f', m', _, _, h⟩ := itRun_at data s n hs hn cs 0 n (by omega)
  refine ⟨_, itAt data s f' m', itNew_at data s n hs hn, ?_⟩
  rw [h, chunks_eq data s n hs hn, deque_map]

/-- C97: any other length, or a zero stride, is refused. -/
theorem C97_iter_rejects (data : List α) (s : Nat) (h : s = 0 ∨ ¬ s ∣ data.length) : itNew data s = none := by
  rw [itNew]
  split
  · rfl
  · rename_i hs
    rw [if_neg]
    rcases h with h | h
    · exact absurd h hs
    · exact fun h' => h (Nat.dvd_of_mod_eq_zero h')

/-- C97: the pieces are disjoint and cover the slice: together, in order, they are the slice. -/
theorem C97_chunks_flatten (data : List α) (s : Nat) (hs : s ≠ 0) (hd : s ∣ data.length) :
    (chunks s data).flatten = data ∧ ∀ c ∈ chunks s data, c.length = s := by
  obtain ⟨n, hn⟩ := hd
  rw [Nat.mul_comm] at hn
  rw [chunks, hn, Nat.mul_div_cancel _ (Nat.pos_of_ne_zero hs)]
  constructor
  · have key : ∀ m, m ≤ n → ((List.range m).map (chunk s data)).flatten = data.take (m * s) := by
      intro m
      induction m with
      | zero => intro _; simp
      | succ m ih =>
        intro h
        rw [List.range_succ, List.map_append, List.flatten_append, ih (by omega)]
        simp only [List.map_cons, List.map_nil, List.flatten_cons, List.flatten_nil, List.append_nil, chunk]
        rw [Nat.add_mul, Nat.one_mul, List.take_add]
    rw [key n (Nat.le_refl _), ← hn, List.take_length]
  · intro c hc
    rw [List.mem_map] at hc
    obtain ⟨i, hi, rfl⟩ := hc
    rw [List.mem_range] at hi
    have h2 : (i + 1) * s ≤ n * s := Nat.mul_le_mul_right _ (by omega)
    rw [Nat.add_mul, Nat.one_mul] at h2
    rw [chunk, List.length_take, List.length_drop, hn]
    omega

/-- C97 violated: the number of remaining items reported by a shared iterator (`ExactSizeIterator::len`) does not
change as items are taken: after both pieces are gone it is still 2. -/
theorem C97_len_violated : ∃ it it', itNew [1, 2, 3, 4, 5, 6] 3 = some it ∧
    itRun it [true, true, true] = some ([some [1, 2, 3], some [4, 5, 6], none], it') ∧ itLen it' = 2 :=
  ⟨_, _, rfl, rfl, rfl⟩

/-! ### Mutable iterators -/

/-- The mutable iterator after `f` items from the front and with `m` items left. -/
def itMutAt (s f m : Nat) : ItMut := ⟨s, (f * s : Nat), ((f + m) * s : Nat) - (s : Int)⟩

theorem itMutNext_at (s f m : Nat) (hs : s ≠ 0) :
    itMutNext (itMutAt s f m) = match m with
      | 0 => (none, itMutAt s f 0)
      | m + 1 => (some (pieceRange s f), itMutAt s (f + 1) m) := by
  cases m with
  | zero =>
    simp only
    rw [itMutNext, if_pos (by simp only [itMutAt, Nat.add_zero]; omega)]
  | succ m =>
    have h3 : (f + 1) * s ≤ (f + (m + 1)) * s := Nat.mul_le_mul_right _ (by omega)
    rw [Nat.add_mul, Nat.one_mul] at h3
    rw [itMutNext, if_neg (by simp only [itMutAt]; omega)]
    simp only [itMutAt, pieceRange]
    rw [show f + 1 + m = f + (m + 1) by omega, Nat.add_mul f 1, Nat.one_mul]
    simp

theorem itMutNextBack_at (s f m : Nat) (hs : s ≠ 0) :
    itMutNextBack (itMutAt s f m) = match m with
      | 0 => (none, itMutAt s f 0)
      | m + 1 => (some (pieceRange s (f + m)), itMutAt s f m) := by
  cases m with
  | zero =>
    simp only
    rw [itMutNextBack, if_pos (by simp only [itMutAt, Nat.add_zero]; omega)]
  | succ m =>
    have e : (f + (m + 1)) * s = (f + m) * s + s := by rw [← Nat.add_assoc, Nat.add_mul _ 1, Nat.one_mul]
    have h3 : f * s ≤ (f + m) * s := Nat.mul_le_mul_right _ (by omega)
    rw [itMutNextBack, if_neg (by simp only [itMutAt]; omega)]
    simp only [itMutAt, pieceRange, e, Prod.mk.injEq, Option.some.injEq, ItMut.mk.injEq, true_and, and_true]
    omega

theorem itMutRun_at (s : Nat) (hs : s ≠ 0) : ∀ (cs : List Bool) (f m : Nat), ∃ f' m',
    (deque (List.range' f m) cs).2 = List.range' f' m' ∧
      itMutRun (itMutAt s f m) cs = ((deque (List.range' f m) cs).1.map (Option.map (pieceRange s)), itMutAt s f' m')
  | [], f, m => ⟨f, m, rfl, rfl⟩
  | true :: cs, f, m => by
    rw [itMutRun, if_pos rfl, itMutNext_at s f m hs]
    cases m with
    | zero =>
      obtain ⟨f', m', h2, h3⟩ := itMutRun_at s hs cs f 0
      simp only [List.range'_zero] at h2 h3
      refine ⟨f', m', by simpa [deque] using h2, ?_⟩
      simp only [List.range'_zero, deque, List.head?_nil, List.tail_nil, h3, List.map_cons, Option.map_none]
    | succ m =>
      obtain ⟨f', m', h2, h3⟩ := itMutRun_at s hs cs (f + 1) m
      refine ⟨f', m', by simpa [deque, List.range'_succ] using h2, ?_⟩
      simp only [List.range'_succ, deque, List.head?_cons, List.tail_cons, h3, Option.map_some, List.map_cons]
  | false :: cs, f, m => by
    rw [itMutRun, if_neg (by decide), itMutNextBack_at s f m hs]
    cases m with
    | zero =>
      obtain ⟨f', m', h2, h3⟩ := itMutRun_at s hs cs f 0
      simp only [List.range'_zero] at h2 h3
      refine ⟨f', m', by simpa [deque] using h2, ?_⟩
      simp only [List.range'_zero, deque, List.getLast?_nil, List.dropLast_nil, h3, List.map_cons, Option.map_none]
    | succ m =>
      obtain ⟨f', m', h2, h3⟩ := itMutRun_at s hs cs f m
      refine ⟨f', m', by simpa [deque, dropLast_range'] using h2, ?_⟩
      rw [deque, dropLast_range']
      simp only [h3, List.map_cons]
      rw [List.range'_1_concat, List.getLast?_append]
      simp

theorem itMutNew_at (checks : Bool) (s n : Nat) (hs : s ≠ 0) (h : n ≠ 0 ∨ checks = false) :
    itMutNew checks (n * s) s = some (itMutAt s 0 n) := by
  rw [itMutNew, if_neg hs, if_pos (Nat.mul_mod_left _ _), if_neg]
  · simp [itMutAt]
  · rintro ⟨h1, h2⟩
    rcases h with h | h
    · have : 1 * s ≤ n * s := Nat.mul_le_mul_right _ (by omega)
      omega
    · rw [h] at h1; cases h1

theorem pieces_apart (s : Nat) (hs : s ≠ 0) (n : Nat) : ((List.range n).map (pieceRange s)).Pairwise RangesApart := by
  rw [List.pairwise_map]
  apply List.Pairwise.imp_of_mem _ List.pairwise_lt_range
  intro i j _ _ hij
  left
  have : (i + 1) * s ≤ j * s := Nat.mul_le_mul_right _ hij
  rw [Nat.add_mul, Nat.one_mul] at this
  simp only [pieceRange]
  omega

theorem apart_symm {r t : Int × Nat} (h : RangesApart r t) : RangesApart t r := h.symm

theorem piece_inside (s n i : Nat) (h : i < n) : Inside (n * s) (pieceRange s i) := by
  have : (i + 1) * s ≤ n * s := Nat.mul_le_mul_right _ h
  rw [Nat.add_mul, Nat.one_mul] at this
  constructor
  · exact Int.natCast_nonneg _
  · simp only [pieceRange]
    omega

/-- C97: for every non-empty slice whose length is a multiple of the stride (and for the empty one without overflow
checks) and every sequence of calls, the mutable iterator answers as a double-ended queue of the ranges of the pieces.
All mutable references it hands out are inside the slice and pairwise disjoint, and the reported number of remaining
items is right. -/
theorem C97_iter_mut_partial (checks : Bool) (s n : Nat) (hs : s ≠ 0) (h : n ≠ 0 ∨ checks = false) (cs : List Bool) :
    ∃ it it', itMutNew checks (n * s) s = some it ∧
      itMutRun it cs = ((deque ((List.range n).map (pieceRange s)) cs).1, it') ∧
      (∀ r ∈ (itMutRun it cs).1.filterMap id, Inside (n * s) r) ∧
      ((itMutRun it cs).1.filterMap id).Pairwise RangesApart ∧
      itMutLen it' = (deque ((List.range n).map (pieceRange s)) cs).2.length := by
  obtain ⟨f', m', h2, h3⟩ := itMutRun_at s hs cs 0 n
  have hq : (deque ((List.range n).map (pieceRange s)) cs) =
      ((deque (List.range' 0 n) cs).1.map (Option.map (pieceRange s)), (deque (List.range' 0 n) cs).2.map (pieceRange s)) := by
    rw [List.range_eq_range', deque_map]
  have hperm := deque_perm cs ((List.range n).map (pieceRange s))
  have hr : itMutRun (itMutAt s 0 n) cs = ((deque ((List.range n).map (pieceRange s)) cs).1, itMutAt s f' m') := by
    rw [h3, hq]
  refine ⟨_, _, itMutNew_at checks s n hs h, hr, ?_, ?_, ?_⟩
  · intro r hrm
    rw [hr] at hrm
    have : r ∈ (List.range n).map (pieceRange s) := hperm.subset (List.mem_append_left _ hrm)
    obtain ⟨i, hi, rfl⟩ := List.mem_map.1 this
    exact piece_inside s n i (List.mem_range.1 hi)
  · rw [hr]
    have := (List.Perm.pairwise_iff (fun {_ _} h => apart_symm h) hperm).2 (pieces_apart s hs n)
    exact (List.pairwise_append.1 this).1
  · rw [hq]
    simp only [List.length_map, h2, List.length_range', itMutLen, itMutAt]
    have e : (((((f' + m') * s : Nat) : Int) - (s : Int)) - ((f' * s : Nat) : Int) + (s : Int)).toNat = m' * s := by
      rw [Nat.add_mul]; omega
    rw [e, Nat.mul_div_cancel _ (Nat.pos_of_ne_zero hs)]

/-- C97 violated: with overflow checks on, taking a mutable iterator over an empty entity panics, although the shared
one is simply empty. -/
theorem C97_empty_violated (s : Nat) (hs : s ≠ 0) : itMutNew true 0 s = none ∧
    (itNew ([] : List Nat) s).bind (fun it => (itRun it [true]).map Prod.fst) = some [none] := by
  constructor
  · rw [itMutNew, if_neg hs, if_pos (by simp), if_pos ⟨rfl, by omega⟩]
  · rw [itNew_at [] s 0 hs (by simp)]
    simp only [Option.bind_some]
    rw [itRun, if_pos rfl, itNext_at [] s 0 0 0 hs (by simp) (by omega)]
    rfl

example : itMutRun ⟨3, 0, 9⟩ [true, false, true, true, false] =
    ([some (0, 3), some (9, 3), some (3, 3), some (6, 3), none], ⟨3, 6 + 3, 6⟩) := rfl

/-! ### Parallel iterators -/

theorem drain_at (data : List α) (s n : Nat) (hs : s ≠ 0) (hl : data.length = n * s) : ∀ (m f fuel : Nat), f + m ≤ n →
    m < fuel → drain fuel (itAt data s f m) = some ((List.range' f m).map (chunk s data))
  | 0, f, fuel + 1, h, _ => by rw [drain, itNext_at data s n f 0 hs hl h]; rfl
  | m + 1, f, fuel + 1, h, hf => by
    rw [drain, itNext_at data s n f (m + 1) hs hl h]
    simp only
    rw [drain_at data s n hs hl m (f + 1) fuel (by omega) (by omega), List.range'_succ]
    rfl

theorem drainMut_at (s : Nat) (hs : s ≠ 0) : ∀ (m f fuel : Nat), m < fuel →
    drainMut fuel (itMutAt s f m) = some ((List.range' f m).map (pieceRange s))
  | 0, f, fuel + 1, _ => by rw [drainMut, itMutNext_at s f 0 hs]; rfl
  | m + 1, f, fuel + 1, hf => by
    rw [drainMut, itMutNext_at s f (m + 1) hs]
    simp only
    rw [drainMut_at s hs m (f + 1) fuel (by omega), List.range'_succ]
    rfl

theorem le_mul_of_ne {n s : Nat} (hs : s ≠ 0) : n ≤ n * s := Nat.le_mul_of_pos_right _ (Nat.pos_of_ne_zero hs)

/-- C97: all items of an entity, in order. -/
theorem C97_items (data : List α) (s : Nat) (hs : s ≠ 0) (hd : s ∣ data.length) : items data s = some (chunks s data) := by
  obtain ⟨n, hn⟩ := hd
  rw [Nat.mul_comm] at hn
  rw [items, itNew_at data s n hs hn]
  simp only [Option.bind_some]
  rw [drain_at data s n hs hn n 0 _ (by omega) (by have := @le_mul_of_ne n s hs; omega), chunks_eq data s n hs hn]

/-- The plans rayon can follow on a producer of `n` items: it splits inside the range. -/
def PlanFits : Plan → Nat → Prop
  | .leaf, _ => True
  | .split i l r, n => i ≤ n ∧ PlanFits l i ∧ PlanFits r (n - i)

theorem chunks_append (u v : List α) (s n : Nat) (hs : s ≠ 0) (hu : u.length = n * s) (hd : s ∣ v.length) :
    chunks s (u ++ v) = chunks s u ++ chunks s v := by
  obtain ⟨m, hm⟩ := hd
  rw [Nat.mul_comm] at hm
  rw [chunks_eq (u ++ v) s (n + m) hs (by rw [List.length_append, hu, hm, Nat.add_mul]), chunks_eq u s n hs hu,
    chunks_eq v s m hs hm, ← List.range'_append_1, List.map_append]
  congr 1
  · apply List.map_congr_left
    intro i hi
    rw [List.mem_range'_1] at hi
    have h2 : (i + 1) * s ≤ n * s := Nat.mul_le_mul_right _ (by omega)
    rw [Nat.add_mul, Nat.one_mul] at h2
    rw [chunk, chunk, List.drop_append_of_le_length (by omega), List.take_append_of_le_length (by rw [List.length_drop]; omega)]
  · rw [List.range'_eq_map_range, List.range'_eq_map_range, List.map_map, List.map_map]
    apply List.map_congr_left
    intro i _
    simp only [Function.comp, chunk, Nat.zero_add]
    rw [List.drop_append, Nat.add_mul, hu]
    rw [List.drop_eq_nil_of_le (by rw [hu]; omega)]
    simp

theorem parDrive_at : ∀ (pl : Plan) (data : List α) (off s n : Nat), s ≠ 0 → data.length = n * s → PlanFits pl n →
    parDrive pl ⟨data, off, s, n⟩ = some (chunks s data)
  | .leaf, data, off, s, n, hs, hl, _ => C97_items data s hs ⟨n, by rw [hl, Nat.mul_comm]⟩
  | .split i l r, data, off, s, n, hs, hl, h => by
    have hi : i * s ≤ n * s := Nat.mul_le_mul_right _ h.1
    have e1 : (data.take (i * s)).length = i * s := by rw [List.length_take]; omega
    have e2 : (data.drop (i * s)).length = (n - i) * s := by rw [List.length_drop, hl, Nat.sub_mul]
    have hsp : parSplit ⟨data, off, s, n⟩ i = some (⟨data.take (i * s), off, s, i⟩, ⟨data.drop (i * s), off + i * s, s, n - i⟩) := by
      rw [parSplit, if_pos ⟨by simp only; omega, h.1⟩]
    rw [parDrive, hsp]
    simp only [Option.bind_eq_bind, Option.bind_some]
    rw [parDrive_at l _ _ s i hs e1 h.2.1, parDrive_at r _ _ s (n - i) hs e2 h.2.2]
    simp only [Option.bind_some]
    rw [← chunks_append _ _ s i hs e1 ⟨n - i, by rw [e2, Nat.mul_comm]⟩, List.take_append_drop]

/-- C97: however the work of a parallel iterator is divided, every piece is visited exactly once, at its position. -/
theorem C97_parallel (data : List α) (s : Nat) (hs : s ≠ 0) (hd : s ∣ data.length) (pl : Plan)
    (hp : PlanFits pl (data.length / s)) :
    ∃ p, parNew data s = some p ∧ parDrive pl p = some (chunks s data) := by
  obtain ⟨n, hn⟩ := hd
  rw [Nat.mul_comm] at hn
  have hq : data.length / s = n := by rw [hn, Nat.mul_div_cancel _ (Nat.pos_of_ne_zero hs)]
  rw [hq] at hp
  refine ⟨⟨data, 0, s, n⟩, ?_, parDrive_at pl data 0 s n hs hn hp⟩
  rw [parNew, if_neg hs, if_pos (by rw [hn]; exact Nat.mul_mod_left _ _), hq]

/-- The plans that leave no piece of work empty, as rayon's do when there is work at all. -/
def PlanBusy : Plan → Nat → Prop
  | .leaf, n => n ≠ 0
  | .split i l r, n => i ≤ n ∧ PlanBusy l i ∧ PlanBusy r (n - i)

theorem parDriveMut_at (checks : Bool) : ∀ (pl : Plan) (data : List α) (f s n : Nat), s ≠ 0 → data.length = n * s →
    PlanBusy pl n → parDriveMut checks pl ⟨data, f * s, s, n⟩ = some ((List.range' f n).map (pieceRange s))
  | .leaf, data, f, s, n, hs, hl, h => by
    rw [parDriveMut]
    simp only [hl]
    rw [itMutNew_at checks s n hs (Or.inl h)]
    simp only [Option.bind_eq_bind, Option.bind_some]
    rw [drainMut_at s hs n 0 _ (by have := @le_mul_of_ne n s hs; omega)]
    simp only [Option.bind_some, List.map_map]
    rw [List.range'_eq_map_range, List.range'_eq_map_range, List.map_map, List.map_map]
    congr 1
    apply List.map_congr_left
    intro i _
    simp only [Function.comp, pieceRange, Nat.zero_add, Prod.mk.injEq, and_true]
    rw [Nat.add_mul]
    push_cast
    exact Int.add_comm _ _
  | .split i l r, data, f, s, n, hs, hl, h => by
    have hi : i * s ≤ n * s := Nat.mul_le_mul_right _ h.1
    have e1 : (data.take (i * s)).length = i * s := by rw [List.length_take]; omega
    have e2 : (data.drop (i * s)).length = (n - i) * s := by rw [List.length_drop, hl, Nat.sub_mul]
    have hsp : parSplit ⟨data, f * s, s, n⟩ i =
        some (⟨data.take (i * s), f * s, s, i⟩, ⟨data.drop (i * s), (f + i) * s, s, n - i⟩) := by
      rw [parSplit, if_pos ⟨by simp only; omega, h.1⟩, Nat.add_mul]
    rw [parDriveMut, hsp]
    simp only [Option.bind_eq_bind, Option.bind_some]
    rw [parDriveMut_at checks l _ f s i hs e1 h.2.1, parDriveMut_at checks r _ (f + i) s (n - i) hs e2 h.2.2]
    simp only [Option.bind_some]
    rw [← List.map_append, List.range'_append_1, Nat.add_sub_cancel' h.1]

/-- C97: however the work of a mutable parallel iterator is divided, the references handed to the threads are the
pieces, each exactly once; so they are inside the slice and pairwise disjoint. -/
theorem C97_parallel_mut (checks : Bool) (data : List α) (s : Nat) (hs : s ≠ 0) (hd : s ∣ data.length) (pl : Plan)
    (hp : PlanBusy pl (data.length / s)) :
    ∃ p rs, parNew data s = some p ∧ parDriveMut checks pl p = some rs ∧ rs.length = data.length / s ∧
      (∀ r ∈ rs, Inside data.length r) ∧ rs.Pairwise RangesApart ∧
      rs.map (fun r => (data.drop r.1.toNat).take r.2) = chunks s data := by
  obtain ⟨n, hn⟩ := hd
  rw [Nat.mul_comm] at hn
  have hq : data.length / s = n := by rw [hn, Nat.mul_div_cancel _ (Nat.pos_of_ne_zero hs)]
  rw [hq] at hp
  have h := parDriveMut_at checks pl data 0 s n hs hn hp
  rw [Nat.zero_mul] at h
  refine ⟨⟨data, 0, s, n⟩, _, ?_, h, by rw [hq]; simp, ?_, ?_, ?_⟩
  · rw [parNew, if_neg hs, if_pos (by rw [hn]; exact Nat.mul_mod_left _ _), hq]
  · intro r hr
    rw [← List.range_eq_range'] at hr
    obtain ⟨i, hi, rfl⟩ := List.mem_map.1 hr
    rw [hn]
    exact piece_inside s n i (List.mem_range.1 hi)
  · rw [← List.range_eq_range']
    exact pieces_apart s hs n
  · rw [chunks_eq data s n hs hn, List.map_map]
    apply List.map_congr_left
    intro i _
    simp only [Function.comp, pieceRange, chunk, Int.toNat_natCast]

example : PlanBusy (.split 1 .leaf (.split 2 .leaf .leaf)) 4 := by simp [PlanBusy]
example : PlanFits (.split 1 .leaf (.split 2 .leaf .leaf)) 4 := by simp [PlanFits]

end Spf.Props
