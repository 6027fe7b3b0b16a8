import Verif.Model.SubAlloc
import Verif.Props.Memory
/-! C93: the sub-allocator that places several allocations in one page. -/
namespace Spf.Props
open Spf.Cpu

/-- The histories of a program that uses sub-allocations: any number of live `Allocation` objects (they are moved, not copied),
any memory operations in between, failed requests. `blocks` are the `(address, length)` pairs handed out so far, most recent
first. -/
inductive SubHist {C : Type} (m0 : Mem C) : List (Nat × Nat) → List Allocation → Mem C → Prop
  | start : SubHist m0 [] [] m0
  | op {bs as m} (o : MemOp C) : SubHist m0 bs as m → SubHist m0 bs as (o.run m)
  | first {bs as m m' len al a p} : SubHist m0 bs as m → Allocation.tryAllocate none m len al = (m', .ok (a, p)) →
      SubHist m0 ((p, len) :: bs) (a :: as) m'
  | next {bs l1 e l2 m m' len al a p} : SubHist m0 bs (l1 ++ e :: l2) m →
      Allocation.tryAllocate (some e) m len al = (m', .ok (a, p)) → SubHist m0 ((p, len) :: bs) (a :: (l1 ++ l2)) m'
  | failed {bs l1 e l2 m m' len al err} : SubHist m0 bs (l1 ++ e :: l2) m →
      Allocation.tryAllocate (some e) m len al = (m', .error err) → SubHist m0 bs (l1 ++ l2) m'

/-- Two blocks (address, length) have no byte in common. -/
def BlocksApart (a b : Nat × Nat) : Prop := a.1 + a.2 ≤ b.1 ∨ b.1 + b.2 ≤ a.1

/-- what is known of a live allocation -/
structure SubLive {C : Type} (m : Mem C) (bs : List (Nat × Nat)) (a : Allocation) : Prop where
  page : a.base % 4096 = 0
  low : 4096 ≤ a.base
  size : 0 < a.size
  mapped : ∀ q, a.base ≤ q → q < a.base + a.size → ∃ x, m.load q = .ok x
  apart : ∀ b ∈ bs, b.1 + b.2 ≤ a.base + a.nextFree ∨ a.base + a.size ≤ b.1

structure SubInv {C : Type} (bs : List (Nat × Nat)) (as : List Allocation) (m : Mem C) : Prop where
  mapped : ∀ b ∈ bs, ∀ q, b.1 ≤ q → q < b.1 + max b.2 1 → ∃ x, m.load q = .ok x
  apart : bs.Pairwise BlocksApart
  live : ∀ a ∈ as, SubLive m bs a
  regions : as.Pairwise fun a b => BlocksApart (a.base, a.size) (b.base, b.size)

theorem subfresh_ok {C : Type} {m m' : Mem C} {len p : Nat} {a : Allocation} (h : Allocation.fresh m len = (m', .ok (a, p))) :
    m.allocate len = (m', .ok p) ∧ a = ⟨(len + 4095) / 4096 * 4096, len, p⟩ := by
  rw [Allocation.fresh] at h
  cases hm : m.allocate len with
  | mk m1 r =>
    rw [hm] at h
    cases r with
    | error e => cases h
    | ok b =>
      simp only [Prod.mk.injEq, Except.ok.injEq] at h
      obtain ⟨rfl, rfl, rfl⟩ := h
      exact ⟨rfl, by simp [nextMultipleOf, pageSize]⟩

theorem subfresh_error {C : Type} {m m' : Mem C} {len : Nat} {e : Err} (h : Allocation.fresh m len = (m', .error e)) :
    m' = (MemOp.allocate len).run m := by
  rw [Allocation.fresh] at h
  rw [MemOp.run]
  cases hm : m.allocate len with
  | mk m1 r =>
    rw [hm] at h
    cases r with
    | error e => cases h; rfl
    | ok b => cases h

theorem subinv_mem {C : Type} {bs : List (Nat × Nat)} {as : List Allocation} {m m' : Mem C} (h : SubInv bs as m)
    (hm : ∀ q x, m.load q = .ok x → ∃ y, m'.load q = .ok y) : SubInv bs as m' :=
  ⟨fun b hb q h1 h2 => by obtain ⟨x, hx⟩ := h.mapped b hb q h1 h2; exact hm q x hx, h.apart,
   fun a ha => let l := h.live a ha
     ⟨l.page, l.low, l.size, fun q h1 h2 => by obtain ⟨x, hx⟩ := l.mapped q h1 h2; exact hm q x hx, l.apart⟩, h.regions⟩

theorem subinv_sub {C : Type} {bs : List (Nat × Nat)} {l1 l2 : List Allocation} {e : Allocation} {m : Mem C}
    (h : SubInv bs (l1 ++ e :: l2) m) : SubInv bs (l1 ++ l2) m :=
  ⟨h.mapped, h.apart, fun a ha => h.live a (by
    rcases List.mem_append.1 ha with ha | ha
    · exact List.mem_append_left _ ha
    · exact List.mem_append_right _ (List.mem_cons_of_mem _ ha)),
   h.regions.sublist (List.Sublist.append_left (List.sublist_cons_self _ _) _)⟩

theorem subinv_fresh {C : Type} {bs : List (Nat × Nat)} {as : List Allocation} {m m' : Mem C} {len p : Nat} {a : Allocation}
    (h : SubInv bs as m) (hf : Allocation.fresh m len = (m', .ok (a, p))) : SubInv ((p, len) :: bs) (a :: as) m' := by
  obtain ⟨hal, rfl⟩ := subfresh_ok hf
  have hpos := (allocate_ok hal).1
  obtain ⟨size, s1, s2, s3, s4, s5, s6, s7, s8, s9⟩ := C30_allocation m m' len p hal
  have hs : size = (len + 4095) / 4096 * 4096 := by omega
  rw [← hs]
  have h' : SubInv bs as m' := subinv_mem h (fun q x hx => ⟨x, by
    have := allocate_frame m len q x hx; rw [hal] at this; exact this⟩)
  -- a range that was mapped before is apart from the new region
  have key : ∀ r n, 0 < n → (∀ q, r ≤ q → q < r + n → ∃ x, m.load q = .ok x) → r + n ≤ p ∨ p + size ≤ r := by
    intro r n hn hr
    by_contra hc
    obtain ⟨x, hx⟩ := hr (max r p) (by omega) (by omega)
    rw [(s7 (max r p) (by omega) (by omega)).1] at hx
    cases hx
  have kb : ∀ b ∈ bs, b.1 + max b.2 1 ≤ p ∨ p + size ≤ b.1 := fun b hb => key b.1 (max b.2 1) (by omega) (h.mapped b hb)
  refine ⟨?_, ?_, ?_, ?_⟩
  · intro b hb q h1 h2
    rcases List.mem_cons.1 hb with rfl | hb
    · exact ⟨_, (s7 q h1 (by simp only at h1 h2; omega)).2⟩
    · exact h'.mapped b hb q h1 h2
  · refine List.pairwise_cons.2 ⟨?_, h.apart⟩
    intro b hb
    rw [BlocksApart]
    have := kb b hb
    simp only
    omega
  · intro c hc
    rcases List.mem_cons.1 hc with rfl | hc
    · refine ⟨s4, s5, by simp only; omega, fun q h1 h2 => ⟨_, (s7 q h1 h2).2⟩, ?_⟩
      intro b hb
      rcases List.mem_cons.1 hb with rfl | hb
      · left; exact le_rfl
      · have := kb b hb
        simp only
        omega
    · have l := h'.live c hc
      refine ⟨l.page, l.low, l.size, l.mapped, ?_⟩
      intro b hb
      rcases List.mem_cons.1 hb with rfl | hb
      · have := key c.base c.size l.size (h.live c hc).mapped
        simp only
        omega
      · exact l.apart b hb
  · refine List.pairwise_cons.2 ⟨?_, h.regions⟩
    intro c hc
    have l := h.live c hc
    have := key c.base c.size l.size l.mapped
    rw [BlocksApart]
    simp only
    omega

theorem le_nextMultipleOf {x n : Nat} (hn : n ≠ 0) : x ≤ nextMultipleOf x n ∧ nextMultipleOf x n % n = 0 := by
  rw [nextMultipleOf, if_neg hn]
  refine ⟨?_, Nat.mul_mod_left _ _⟩
  have := Nat.div_add_mod (x + (n - 1)) n
  have h2 := Nat.mod_lt (x + (n - 1)) (Nat.pos_of_ne_zero hn)
  rw [mul_comm] at this
  omega

/-- the outcome of a request on an existing allocation -/
theorem subnext_cases {C : Type} {m m' : Mem C} {e : Allocation} {len al : Nat} {r : Except Err (Allocation × Nat)}
    (h : Allocation.tryAllocate (some e) m len al = (m', r)) :
    (m' = m ∧ ∃ err, r = .error err) ∨ (Allocation.fresh m len = (m', r)) ∨
    (m' = m ∧ al ≠ 0 ∧ nextMultipleOf e.nextFree al + len < e.size ∧
      r = .ok ({ e with nextFree := e.base + nextMultipleOf e.nextFree al + len }, e.base + nextMultipleOf e.nextFree al)) := by
  rw [Allocation.tryAllocate] at h
  dsimp only at h
  split at h
  · cases h; left; exact ⟨rfl, _, rfl⟩
  · rename_i h0
    split at h
    · cases h; left; exact ⟨rfl, _, rfl⟩
    · split at h
      · right; left; exact h
      · rename_i h1 h2
        cases ht : tryOffset e.base (nextMultipleOf e.nextFree al) with
        | error err => rw [ht] at h; cases h; left; exact ⟨rfl, _, rfl⟩
        | ok ptr =>
          rw [ht] at h
          have hp := (tryOffset_ok.1 ht).1
          dsimp only at h
          split at h
          · cases h; left; exact ⟨rfl, _, rfl⟩
          · cases h
            subst hp
            right; right
            exact ⟨rfl, fun hh => h0 (Or.inl hh), by omega, rfl⟩

theorem subhist_inv {C : Type} {m0 : Mem C} {bs : List (Nat × Nat)} {as : List Allocation} {m : Mem C} (h : SubHist m0 bs as m) :
    SubInv bs as m := by
  induction h with
  | start => exact ⟨by simp, .nil, by simp, .nil⟩
  | op o _ ih => exact subinv_mem ih fun q x hx => run_mapped _ o q ⟨x, hx⟩
  | first _ hf ih => exact subinv_fresh ih hf
  | failed _ hf ih =>
    rcases subnext_cases hf with ⟨rfl, _⟩ | hf | ⟨rfl, _⟩
    · exact subinv_sub ih
    · rw [subfresh_error hf]
      exact subinv_mem (subinv_sub ih) fun q x hx => run_mapped _ _ q ⟨x, hx⟩
    · exact subinv_sub ih
  | @next bs l1 e l2 m m' len al a p _ hf ih =>
    rcases subnext_cases hf with ⟨_, _, he⟩ | hf | ⟨rfl, hal, hfit, hr⟩
    · cases he
    · exact subinv_fresh (subinv_sub ih) hf
    · simp only [Except.ok.injEq, Prod.mk.injEq] at hr
      obtain ⟨rfl, rfl⟩ := hr
      have le := ih.live e (by simp)
      have hp := (le_nextMultipleOf (x := e.nextFree) hal).1
      generalize nextMultipleOf e.nextFree al = pd at hfit hp
      have hsub := subinv_sub ih
      have hother : ∀ c ∈ l1 ++ l2, BlocksApart (e.base, e.size) (c.base, c.size) := by
        intro c hc
        have hr := ih.regions
        rw [List.pairwise_append] at hr
        rcases List.mem_append.1 hc with hc | hc
        · have := hr.2.2 c hc e (by simp)
          rw [BlocksApart] at this ⊢; exact this.symm
        · exact (List.pairwise_cons.1 hr.2.1).1 c hc
      refine ⟨?_, ?_, ?_, ?_⟩
      · intro b hb q h1 h2
        rcases List.mem_cons.1 hb with rfl | hb
        · simp only at h1 h2
          exact le.mapped q (by omega) (by omega)
        · exact ih.mapped b hb q h1 h2
      · refine List.pairwise_cons.2 ⟨?_, ih.apart⟩
        intro b hb
        have := le.apart b hb
        rw [BlocksApart]; simp only; omega
      · intro c hc
        rcases List.mem_cons.1 hc with rfl | hc
        · refine ⟨le.page, le.low, le.size, le.mapped, ?_⟩
          intro b hb
          simp only
          rcases List.mem_cons.1 hb with rfl | hb
          · left; simp only; omega
          · have := le.apart b hb
            omega
        · have lc := hsub.live c hc
          refine ⟨lc.page, lc.low, lc.size, lc.mapped, ?_⟩
          intro b hb
          rcases List.mem_cons.1 hb with rfl | hb
          · have := hother c hc
            rw [BlocksApart] at this
            simp only at this ⊢
            omega
          · exact lc.apart b hb
      · refine List.pairwise_cons.2 ⟨?_, hsub.regions⟩
        intro c hc
        exact hother c hc

/-- **C93, disjoint and mapped.** In every history, the blocks handed out are pairwise disjoint and every byte of each of them
is mapped. -/
theorem C93_disjoint {C : Type} (m0 m : Mem C) (bs : List (Nat × Nat)) (as : List Allocation) (h : SubHist m0 bs as m) :
    bs.Pairwise (fun a b => a.1 + a.2 ≤ b.1 ∨ b.1 + b.2 ≤ a.1) ∧
      ∀ b ∈ bs, ∀ q, b.1 ≤ q → q < b.1 + b.2 → ∃ x, m.load q = .ok x :=
  ⟨(subhist_inv h).apart, fun b hb q h1 h2 => (subhist_inv h).mapped b hb q h1 (by omega)⟩

/-- **C93, aligned.** In every history, a block requested with an alignment that divides the page size is aligned. -/
theorem C93_aligned {C : Type} (m0 m m' : Mem C) (bs : List (Nat × Nat)) (as : List Allocation) (h : SubHist m0 bs as m)
    (e : Option Allocation) (he : ∀ a, e = some a → a ∈ as) (len al p : Nat) (a : Allocation) (hal : al ∣ 4096)
    (hr : Allocation.tryAllocate e m len al = (m', .ok (a, p))) : p % al = 0 := by
  have page : ∀ {m m' : Mem C} {a : Allocation}, Allocation.fresh m len = (m', .ok (a, p)) → p % al = 0 := by
    intro m m' a hf
    obtain ⟨size, _, _, _, s4, _⟩ := C30_allocation _ _ _ _ (subfresh_ok hf).1
    exact Nat.mod_eq_zero_of_dvd (hal.trans (Nat.dvd_of_mod_eq_zero s4))
  cases e with
  | none => exact page hr
  | some e =>
    rcases subnext_cases hr with ⟨_, _, he⟩ | hf | ⟨_, hal0, _, hr⟩
    · cases he
    · exact page hf
    · simp only [Except.ok.injEq, Prod.mk.injEq] at hr
      obtain ⟨_, rfl⟩ := hr
      have := ((subhist_inv h).live e (he e rfl)).page
      have h1 := Nat.dvd_of_mod_eq_zero (le_nextMultipleOf (x := e.nextFree) hal0).2
      exact Nat.mod_eq_zero_of_dvd (Nat.dvd_add (hal.trans (Nat.dvd_of_mod_eq_zero this)) h1)

/-- **C93, coalescing (partial).** The second request is served from the pages of the first, without touching the memory,
whenever the padded start and the length leave at least one byte of the last page unused. Missing: exact fits
(`C93_exact_fit_violated`) and every later request (`C93_third_violated`). -/
theorem C93_coalesce_partial {C : Type} (m m1 : Mem C) (len1 len2 al1 al2 p1 : Nat) (a1 : Allocation)
    (h1 : Allocation.tryAllocate none m len1 al1 = (m1, .ok (a1, p1))) (hal : al2 ≠ 0)
    (hfit : (len1 + (al2 - 1)) / al2 * al2 + len2 < (len1 + 4095) / 4096 * 4096) :
    ∃ a2, Allocation.tryAllocate (some a1) m1 len2 al2 = (m1, .ok (a2, p1 + (len1 + (al2 - 1)) / al2 * al2)) := by
  obtain ⟨hm, rfl⟩ := subfresh_ok h1
  obtain ⟨h0, base, num, rfl, hnum, hb1, hb2, _⟩ := allocate_ok hm
  have e1 : nextMultipleOf len1 al2 = (len1 + (al2 - 1)) / al2 * al2 := by rw [nextMultipleOf, if_neg hal]
  rw [Allocation.tryAllocate]
  dsimp only
  rw [e1]
  generalize (len1 + (al2 - 1)) / al2 * al2 = pd at *
  have hlt : base * 4096 + pd + len2 < 2 ^ 32 := by omega
  rw [if_neg (by simp only [addrSpace]; omega), if_neg (by simp only [addrSpace]; omega), if_neg (by omega)]
  have hp : base * 4096 + pd < addrSpace := lt_of_le_of_lt (Nat.le_add_right _ _) hlt
  rw [tryOffset, if_pos hp]
  simp only
  rw [if_neg (by simp only [addrSpace]; omega)]
  exact ⟨_, rfl⟩

/-- the memory in which exactly the pages from `a` to `b - 1` are mapped and zero -/
def pagesMem (a b : Nat) : Mem Bool := ⟨fun i => if a ≤ i ∧ i < b then some freshPage else none, 0⟩

theorem emptyMem_fresh : Allocation.tryAllocate none emptyMem 16 8 = (pagesMem 1 2, .ok (⟨4096, 16, 4096⟩, 4096)) := by
  have h : allocLoop emptyMem 1 totalPages 1 = some 1 := allocLoop_first emptyMem 1 (2 ^ 20 - 1) 1 (by decide) rfl
  have e1 : (16 + (pageSize - 1)) / pageSize = 1 := by decide
  have e2 : nextMultipleOf 16 pageSize = 4096 := by decide
  have e3 : 1 <<< 12 = 4096 := by decide
  rw [Allocation.tryAllocate, Allocation.fresh, Mem.allocate, if_neg (by decide)]
  dsimp only
  rw [if_neg (by decide), e1, h, e2]
  dsimp only
  rw [e3]
  rfl

/-- a history with two blocks in one page -/
example : ∃ m as, SubHist emptyMem [(4112, 16), (4096, 16)] as m := by
  exact ⟨_, _, .next (l1 := []) (l2 := []) (al := 8) (.first .start emptyMem_fresh) (by rfl)⟩

/-- **C93, violated: the third request.** After a second block has been placed in a page, the next request never fits: the free
position is recorded as an absolute address. Whenever the allocation object is not larger than its own address (as every
one-page allocation is), the third request goes to newly allocated pages (or fails), however small it is. In an empty memory,
three requests for 16 bytes use two pages. -/
theorem C93_third_violated : (∀ {C : Type} (m m1 m2 m3 : Mem C) (len1 len2 len3 al1 al2 al3 p1 p2 : Nat) (a1 a2 : Allocation)
      (r : Except Err (Allocation × Nat)),
      Allocation.tryAllocate none m len1 al1 = (m1, .ok (a1, p1)) → a1.size ≤ p1 →
      Allocation.tryAllocate (some a1) m1 len2 al2 = (m2, .ok (a2, p2)) → m2 = m1 → p1 ≤ p2 → p2 < p1 + a1.size → a2.base = p1 →
      Allocation.tryAllocate (some a2) m2 len3 al3 = (m3, r) →
      (m3 = m2 ∧ ∃ e, r = .error e) ∨ Allocation.fresh m2 len3 = (m3, r)) ∧
    ∃ m1 m2 a1 a2 a3, Allocation.tryAllocate none emptyMem 16 8 = (m1, .ok (a1, 4096)) ∧
      Allocation.tryAllocate (some a1) m1 16 8 = (m1, .ok (a2, 4112)) ∧
      Allocation.tryAllocate (some a2) m1 16 8 = (m2, .ok (a3, 8192)) := by
  constructor
  · intro C m m1 m2 m3 len1 len2 len3 al1 al2 al3 p1 p2 a1 a2 r h1 hs h2 hm hp hp' hb h3
    rcases subnext_cases h3 with h | h | ⟨_, hal, hfit, _⟩
    · exact Or.inl h
    · exact Or.inr h
    · exfalso
      have hl := (le_nextMultipleOf (x := a2.nextFree) hal).1
      rcases subnext_cases h2 with ⟨_, _, he⟩ | hf | ⟨_, _, _, hr⟩
      · cases he
      · have h4 := (subfresh_ok hf).2
        obtain ⟨_, s1, _, _, _, _, _, s7, _⟩ := C30_allocation _ _ _ _ (subfresh_ok hf).1
        have h0 := (allocate_ok (subfresh_ok hf).1).1
        have := s7 p2 le_rfl (by omega)
        rw [hm] at this
        rw [this.1] at this
        cases this.2
      · simp only [Except.ok.injEq, Prod.mk.injEq] at hr
        obtain ⟨rfl, rfl⟩ := hr
        simp only at *
        have := (subfresh_ok h1).2
        subst this
        simp only at *
        omega
  · refine ⟨pagesMem 1 2, ((pagesMem 1 2).allocate 16).1, _, ⟨4096, 4128, 4096⟩, ⟨4096, 16, 8192⟩, emptyMem_fresh, rfl, ?_⟩
    have hl : ∀ f, allocLoop (pagesMem 1 2) 1 (f + 2) 1 = some 2 := by
      intro f
      rw [allocLoop, if_pos (by decide)]
      rw [show firstUsed (pagesMem 1 2) 1 1 = some 1 from rfl]
      simp only
      rw [allocLoop, if_pos (by decide)]
      rfl
    have e1 : (16 + (pageSize - 1)) / pageSize = 1 := by decide
    have e2 : nextMultipleOf 16 pageSize = 4096 := by decide
    have e3 : 2 <<< 12 = 8192 := by decide
    have e4 : totalPages = (2 ^ 20 - 2) + 2 := by decide
    have h : ((pagesMem 1 2).allocate 16).2 = .ok 8192 := by
      rw [Mem.allocate, if_neg (by decide)]
      dsimp only
      rw [if_neg (by decide), e1, e4, hl]
      dsimp only
      rw [e3]
    rw [Allocation.tryAllocate]
    dsimp only
    rw [if_neg (by decide), if_neg (by decide), if_pos (by decide), Allocation.fresh]
    rw [show (pagesMem 1 2).allocate 16 = (((pagesMem 1 2).allocate 16).1, .ok 8192) from by rw [← h]]
    dsimp only
    rw [e2]

/-- **C93, violated: exact fit.** A request that would fill the page exactly goes to new pages. -/
theorem C93_exact_fit_violated {C : Type} (m m1 m2 : Mem C) (len1 len2 al1 al2 p1 : Nat) (a1 : Allocation)
    (r : Except Err (Allocation × Nat)) (h1 : Allocation.tryAllocate none m len1 al1 = (m1, .ok (a1, p1))) (hal : al2 ≠ 0)
    (hfit : (len1 + (al2 - 1)) / al2 * al2 + len2 = (len1 + 4095) / 4096 * 4096)
    (h2 : Allocation.tryAllocate (some a1) m1 len2 al2 = (m2, r)) :
    (m2 = m1 ∧ ∃ e, r = .error e) ∨ Allocation.fresh m1 len2 = (m2, r) := by
  obtain ⟨hm, rfl⟩ := subfresh_ok h1
  rcases subnext_cases h2 with h | h | ⟨_, _, hf, _⟩
  · exact Or.inl h
  · exact Or.inr h
  · simp only [nextMultipleOf, if_neg hal] at hf
    omega

end Spf.Props
