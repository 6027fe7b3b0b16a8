import Verif.Model.Scratch
import Mathlib.Data.List.Nodup
import Mathlib.Data.List.Perm.Basic
import Mathlib.Data.Nat.Log
/-! C61: scratch buffers do not alias, are large enough and aligned. -/
namespace Spf.Props
open Spf.Scratch

/-- Specification: two byte ranges share no byte. -/
def RangesDisjoint (a n b m : Nat) : Prop := ∀ x, ¬(a ≤ x ∧ x < a + n ∧ b ≤ x ∧ x < b + m)

/-- Specification of the system allocator: a new block of `len` bytes at `addr` is aligned and overlaps no block that is
currently allocated. -/
def SysOk (blocks : List Block) (addr len alignment : Nat) : Prop :=
  alignment ∣ addr ∧ ∀ b ∈ blocks, RangesDisjoint addr len b.addr b.len

/-- Histories of one thread: allocations of any number of elements of any type (alignments are powers of two) and
releases of live buffers, in any order. When a new block is needed, it comes from the system allocator; the blocks then
allocated are the remaining free list and those of the live buffers. -/
inductive Reach (simd : Nat) : State → Prop
  | init : Reach simd State.init
  | alloc {s s' : State} {b : Buf} {size align count addr : Nat} (hs : Reach simd s) (ha : ∃ k, align = 2 ^ k)
      (h : allocate simd s size align count addr = some (s', b))
      (hsys : (takeTop (max simd align) (count * size) s.stack).1 = none →
        SysOk ((takeTop (max simd align) (count * size) s.stack).2 ++ s.live.map (·.block)) addr (count * size)
          (max simd align)) : Reach simd s'
  | release {s : State} (hs : Reach simd s) (i : Nat) : Reach simd (release s i)

/-- The invariant behind C61. -/
structure Inv (s : State) : Prop where
  disj : (s.stack ++ s.live.map (·.block)).Pairwise fun a b => RangesDisjoint a.addr a.len b.addr b.len
  al : ∀ a ∈ s.stack ++ s.live.map (·.block), a.align ∣ a.addr ∧ ∃ k, a.align = 2 ^ k
  fit : ∀ b ∈ s.live, b.count * b.size ≤ b.block.len ∧ 0 < b.size ∧ b.align ∣ b.block.addr

theorem rd_symm {a n b m : Nat} (h : RangesDisjoint a n b m) : RangesDisjoint b m a n := fun x hx => h x (by omega)

theorem pow_dvd_of_le {a b : Nat} (ha : ∃ k, a = 2 ^ k) (hb : ∃ k, b = 2 ^ k) (h : a ≤ b) : a ∣ b := by
  obtain ⟨k, rfl⟩ := ha
  obtain ⟨l, rfl⟩ := hb
  exact Nat.pow_dvd_pow 2 ((Nat.pow_le_pow_iff_right (by omega)).1 h)

theorem inv_reach {simd : Nat} (hsimd : ∃ k, simd = 2 ^ k) {s : State} (h : Reach simd s) : Inv s := by
  induction h with
  | init => exact ⟨List.Pairwise.nil, by simp [State.init], by simp [State.init]⟩
  | @alloc s s' b size align count addr hs ha h hsys ih =>
    unfold allocate at h
    by_cases h0 : size = 0
    · rw [if_pos h0] at h; cases h
    rw [if_neg h0] at h
    by_cases h1 : count * size ≥ 2 ^ 64
    · rw [if_pos h1] at h; cases h
    rw [if_neg h1] at h
    have hpow : ∃ k, max simd align = 2 ^ k := by
      rcases le_total simd align with hl | hl
      · rw [max_eq_right hl]; exact ha
      · rw [max_eq_left hl]; exact hsimd
    have hdv : align ∣ max simd align := pow_dvd_of_le ha hpow (le_max_right _ _)
    obtain ⟨i1, i2, i3⟩ := ih
    cases hst : s.stack with
    | nil =>
      rw [hst] at h hsys
      simp only [takeTop] at h hsys
      cases h
      obtain ⟨y1, y2⟩ := hsys trivial
      rw [hst] at i1 i2
      simp only [List.nil_append] at i1 i2 y2
      refine ⟨?_, ?_, ?_⟩
      · simp only [List.nil_append, List.map_cons, List.pairwise_cons]
        exact ⟨fun c hc => y2 c hc, i1⟩
      · simp only [List.nil_append, List.map_cons, List.mem_cons]
        rintro c (rfl | hc)
        · exact ⟨y1, hpow⟩
        · exact i2 c hc
      · simp only [List.mem_cons]
        rintro c (rfl | hc)
        · exact ⟨le_refl _, Nat.pos_of_ne_zero h0, Nat.dvd_trans hdv y1⟩
        · exact i3 c hc
    | cons t rest =>
      rw [hst] at h hsys i1 i2
      rw [List.cons_append, List.pairwise_cons] at i1
      by_cases hbad : t.align < max simd align ∨ t.len < count * size
      · simp only [takeTop, if_pos hbad] at h hsys
        cases h
        obtain ⟨y1, y2⟩ := hsys trivial
        refine ⟨?_, ?_, ?_⟩
        · simp only [List.map_cons]
          rw [List.pairwise_append, List.pairwise_cons]
          obtain ⟨j1, j2, j3⟩ := List.pairwise_append.1 i1.2
          refine ⟨j1, ⟨fun c hc => y2 c (by simp only [List.mem_append]; exact Or.inr hc), j2⟩, ?_⟩
          intro x hx y hy
          rcases List.mem_cons.1 hy with rfl | hy
          · exact rd_symm (y2 x (by simp [hx]))
          · exact j3 x hx y hy
        · simp only [List.map_cons, List.mem_append, List.mem_cons]
          rintro c (hc | rfl | hc)
          · exact i2 c (by simp [hc])
          · exact ⟨y1, hpow⟩
          · exact i2 c (by simp only [List.cons_append, List.mem_cons, List.mem_append]; exact Or.inr (Or.inr hc))
        · simp only [List.mem_cons]
          rintro c (rfl | hc)
          · exact ⟨le_refl _, Nat.pos_of_ne_zero h0, Nat.dvd_trans hdv y1⟩
          · exact i3 c hc
      · simp only [takeTop, if_neg hbad] at h
        cases h
        have hal := i2 t (by simp)
        refine ⟨?_, ?_, ?_⟩
        · simp only [List.map_cons]
          rw [List.pairwise_append, List.pairwise_cons]
          obtain ⟨j1, j2, j3⟩ := List.pairwise_append.1 i1.2
          refine ⟨j1, ⟨fun c hc => i1.1 c (by simp only [List.mem_append]; exact Or.inr hc), j2⟩, ?_⟩
          intro x hx y hy
          rcases List.mem_cons.1 hy with rfl | hy
          · exact rd_symm (i1.1 x (by simp [hx]))
          · exact j3 x hx y hy
        · simp only [List.map_cons, List.mem_append, List.mem_cons]
          rintro c (hc | rfl | hc)
          · exact i2 c (by simp [hc])
          · exact hal
          · exact i2 c (by simp only [List.cons_append, List.mem_cons, List.mem_append]; exact Or.inr (Or.inr hc))
        · simp only [List.mem_cons]
          rintro c (rfl | hc)
          · refine ⟨by dsimp only; omega, Nat.pos_of_ne_zero h0, ?_⟩
            exact Nat.dvd_trans (Nat.dvd_trans hdv (pow_dvd_of_le hpow hal.2 (by omega))) hal.1
          · exact i3 c hc
  | @release s hs i ih =>
    unfold Scratch.release
    cases hi : s.live[i]? with
    | none => exact ih
    | some b =>
      obtain ⟨i1, i2, i3⟩ := ih
      obtain ⟨hlt, hb⟩ := List.getElem?_eq_some_iff.1 hi
      have hperm : List.Perm (s.live[i] :: s.live.eraseIdx i) s.live := List.getElem_cons_eraseIdx_perm hlt
      rw [hb] at hperm
      have hp2 : List.Perm (b.block :: s.stack ++ (s.live.eraseIdx i).map (·.block)) (s.stack ++ s.live.map (·.block)) := by
        have := (hperm.map (·.block)).append_left s.stack
        refine List.Perm.trans ?_ this
        rw [List.map_cons, List.cons_append]
        exact (List.perm_middle).symm
      refine ⟨?_, fun a ha => i2 a (hp2.mem_iff.1 ha), fun c hc => i3 c (List.mem_of_mem_eraseIdx hc)⟩
      exact (hp2.pairwise_iff (fun {x y} h => rd_symm h)).2 i1

/-- **C61.** In every reachable state, for every two different live buffers the bytes they cover (`count` elements of
`size` bytes from the address of their slice) are disjoint; every live buffer's slice has exactly the requested number
of elements, lies within its block and starts at a multiple of the element type's alignment; and no live buffer's block
is in the free list. -/
theorem C61_no_alias (simd : Nat) (hsimd : ∃ k, simd = 2 ^ k) (s : State) (h : Reach simd s) :
    (∀ (i j : Nat) (b c : Buf), i ≠ j → s.live[i]? = some b → s.live[j]? = some c →
      ∃ p q, b.view = some (p, b.count) ∧ c.view = some (q, c.count) ∧
        RangesDisjoint p (b.count * b.size) q (c.count * c.size)) ∧
    (∀ b ∈ s.live, ∃ p, b.view = some (p, b.count) ∧ b.align ∣ p ∧ p = b.block.addr ∧
      b.count * b.size ≤ b.block.len) ∧
    (∀ b ∈ s.live, ∀ f ∈ s.stack, RangesDisjoint b.block.addr b.block.len f.addr f.len) := by
  obtain ⟨i1, i2, i3⟩ := inv_reach hsimd h
  have hv : ∀ b ∈ s.live, b.view = some (b.block.addr, b.count) := by
    intro b hb
    obtain ⟨h1, h2, _⟩ := i3 b hb
    unfold Buf.view
    rw [if_pos]
    exact le_trans (Nat.le_mul_of_pos_right _ h2) h1
  obtain ⟨j1, j2, j3⟩ := List.pairwise_append.1 i1
  refine ⟨?_, ?_, ?_⟩
  · intro i j b c hij hb hc
    have mb := List.mem_of_getElem? hb
    have mc := List.mem_of_getElem? hc
    refine ⟨_, _, hv b mb, hv c mc, ?_⟩
    obtain ⟨li, hb'⟩ := List.getElem?_eq_some_iff.1 hb
    obtain ⟨lj, hc'⟩ := List.getElem?_eq_some_iff.1 hc
    have big : RangesDisjoint b.block.addr b.block.len c.block.addr c.block.len := by
      rw [List.pairwise_map, List.pairwise_iff_getElem] at j2
      rcases Nat.lt_or_gt_of_ne hij with hl | hl
      · have := j2 i j li lj hl; rwa [hb', hc'] at this
      · have := j2 j i lj li hl; rw [hb', hc'] at this; exact rd_symm this
    have f1 := (i3 b mb).1
    have f2 := (i3 c mc).1
    intro x hx
    exact big x (by omega)
  · intro b hb
    exact ⟨_, hv b hb, (i3 b hb).2.2, rfl, (i3 b hb).1⟩
  · intro b hb f hf
    exact rd_symm (j3 f hf b.block (List.mem_map.2 ⟨b, hb, rfl⟩))

/-- Allocation of a type of non-zero size never panics when the byte length fits in a word. -/
theorem C61_allocate_total (simd : Nat) (s : State) (size align count addr : Nat) (h : 0 < size)
    (h2 : count * size < 2 ^ 64) : ∃ s' b, allocate simd s size align count addr = some (s', b) ∧ b.count = count ∧
      s'.live = b :: s.live := by
  unfold allocate
  rw [if_neg (by omega), if_neg (by omega)]
  exact ⟨_, _, rfl, rfl, rfl⟩

/-- A concrete history: allocate 12 words, release them, allocate 4 words (reusing the block) and, while those are
alive, 16 more (a new block). -/
example : ∃ s, Reach 64 s ∧ s.live.length = 2 ∧ (∃ b ∈ s.live, b.block = ⟨128, 96, 64⟩ ∧ b.count = 4) := by
  refine ⟨_, .alloc (s := _) (size := 8) (align := 8) (count := 16) (addr := 256) (.alloc (size := 8) (align := 8)
    (count := 4) (addr := 0) (.release (.alloc (size := 8) (align := 8) (count := 12) (addr := 128) .init ⟨3, rfl⟩ rfl ?_) 0)
    ⟨3, rfl⟩ rfl ?_) ⟨3, rfl⟩ rfl ?_, ?_, ?_⟩
  · intro _; exact ⟨by decide, by simp [takeTop, State.init]⟩
  · intro h; exact absurd h (by decide)
  · intro _
    refine ⟨by decide, ?_⟩
    intro b hb
    have : b = ⟨128, 96, 64⟩ := by simpa [takeTop, Scratch.release, State.init] using hb
    subst this
    intro x hx; dsimp only at hx; omega
  · rfl
  · exact ⟨_, List.mem_cons_of_mem _ (List.mem_cons_self ..), rfl, rfl⟩

end Spf.Props
