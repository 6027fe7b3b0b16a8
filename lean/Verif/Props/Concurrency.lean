import Verif.Model.Concurrency
/-! C25 (shared cell) and C26 (spinlock). -/
namespace Spf.Props
open Spf.Conc

/-! ### Specification: histories -/

/-- A history of accesses to one cell, oldest first, with the outcome each call saw. -/
abbrev CellHist := List (CellOp × Outcome)

/-- `CellRun c h c'`: the accesses `h`, in this order, take the cell from `c` to `c'`. -/
inductive CellRun : Cell → CellHist → Cell → Prop
  | nil {c} : CellRun c [] c
  | cons {c c' c'' op r h} : c.step op = some (c', r) → CellRun c' h c'' → CellRun c ((op, r) :: h) c''

/-- Shared borrows granted and not yet dropped. -/
def liveShared (h : CellHist) : Int := h.count (.borrow, .granted) - h.count (.dropRef, .granted)
/-- Mutable borrows granted and not yet dropped. -/
def liveMut (h : CellHist) : Int := h.count (.borrowMut, .granted) - h.count (.dropMut, .granted)
/-- Calls of `borrow` that have seen too many references and have not panicked yet. -/
def midCall (h : CellHist) : Int := h.count (.borrow, .pending) - h.count (.giveUp, .panicked)

/-- No `borrow` is called while a mutable borrow is alive (it would panic). -/
def NoFailedBorrow (h : CellHist) : Prop := (CellOp.borrow, Outcome.panicked) ∉ h

theorem ghost {c c' : Cell} {h : CellHist} (r : CellRun c h c') :
    (c'.refs : Int) = c.refs + liveShared h ∧ (c'.muts : Int) = c.muts + liveMut h ∧
    (c'.undo : Int) = c.undo + midCall h := by
  induction r with
  | nil => simp [liveShared, liveMut, midCall]
  | @cons c c1 c2 op res h hs _ ih =>
    obtain ⟨i1, i2, i3⟩ := ih
    rw [i1, i2, i3]
    unfold liveShared liveMut midCall
    cases op with
    | borrow =>
      have h0 := Option.some.inj hs
      simp only [Cell.borrow] at h0
      split at h0
      · cases h0; simp
      · split at h0 <;> cases h0 <;> simp <;> omega
    | giveUp =>
      simp only [Cell.step, Cell.giveUp] at hs
      split at hs
      · cases hs
      · simp only [Option.map_some, Option.some.injEq, Prod.mk.injEq] at hs; obtain ⟨rfl, rfl⟩ := hs; simp; omega
    | borrowMut =>
      have h0 := Option.some.inj hs
      simp only [Cell.borrowMut] at h0
      split at h0 <;> cases h0 <;> simp; omega
    | dropRef =>
      simp only [Cell.step, Cell.dropRef] at hs
      split at hs
      · cases hs
      · simp only [Option.map_some, Option.some.injEq, Prod.mk.injEq] at hs; obtain ⟨rfl, rfl⟩ := hs; simp; omega
    | dropMut =>
      simp only [Cell.step, Cell.dropMut] at hs
      split at hs
      · cases hs
      · simp only [Option.map_some, Option.some.injEq, Prod.mk.injEq] at hs; obtain ⟨rfl, rfl⟩ := hs; simp; omega

/-- What the counter means. -/
structure CellInv (c : Cell) : Prop where
  excl : (c.muts = 1 ∧ c.state = 0 ∧ c.refs = 0 ∧ c.undo = 0) ∨
    (c.muts = 0 ∧ c.state = 1 + c.refs + c.undo ∧ 1 + c.refs ≤ 2 ^ 63)

/-- Every prefix of the history has fewer than `2^63 - 1` calls in mid-panic: there are not that many threads. -/
def FewThreads (h : CellHist) : Prop := ∀ p, p <+: h → midCall p < 2 ^ 63 - 1

theorem cell_inv {c c' : Cell} {h : CellHist} (r : CellRun c h c') (hc : CellInv c)
    (hf : ∀ p, p <+: h → c.undo + midCall p < 2 ^ 63 - 1) (hp : NoFailedBorrow h) : CellInv c' := by
  induction r with
  | nil => exact hc
  | @cons c c1 c2 op res h hs r ih =>
    have g := (ghost (.cons hs .nil)).2.2
    apply ih
    · obtain ⟨he⟩ := hc
      have hb : c.undo < 2 ^ 63 - 1 := by have := hf [] List.nil_prefix; simp [midCall] at this; omega
      refine ⟨?_⟩
      cases op with
      | borrow =>
        have h0 := Option.some.inj hs
        simp only [Cell.borrow] at h0
        by_cases hz : c.state = 0
        · rw [if_pos hz] at h0; cases h0; exact absurd (List.mem_cons_self ..) hp
        · rw [if_neg hz] at h0
          by_cases hy : c.state ≥ (word - 1) / 2
          · rw [if_pos hy] at h0
            simp only [Prod.mk.injEq] at h0
            obtain ⟨rfl, rfl⟩ := h0
            simp only [word] at hy ⊢; omega
          · rw [if_neg hy] at h0
            simp only [Prod.mk.injEq] at h0
            obtain ⟨rfl, rfl⟩ := h0
            simp only [word] at hy ⊢; omega
      | giveUp =>
        simp only [Cell.step, Cell.giveUp, word] at hs
        split at hs
        · cases hs
        · simp only [Option.map_some, Option.some.injEq, Prod.mk.injEq] at hs; obtain ⟨rfl, rfl⟩ := hs; simp only; omega
      | borrowMut =>
        have h0 := Option.some.inj hs
        simp only [Cell.borrowMut] at h0
        split at h0
        · cases h0
          have : c.muts = 0 ∧ c.refs = 0 ∧ c.undo = 0 := by omega
          exact Or.inl ⟨by simp [this.1], rfl, this.2.1, this.2.2⟩
        · cases h0; exact he
      | dropRef =>
        simp only [Cell.step, Cell.dropRef, word] at hs
        split at hs
        · cases hs
        · simp only [Option.map_some, Option.some.injEq, Prod.mk.injEq] at hs; obtain ⟨rfl, rfl⟩ := hs; simp only; omega
      | dropMut =>
        simp only [Cell.step, Cell.dropMut] at hs
        split at hs
        · cases hs
        · simp only [Option.map_some, Option.some.injEq, Prod.mk.injEq] at hs; obtain ⟨rfl, rfl⟩ := hs; simp only; omega
    · intro p hpre
      have := hf ((op, res) :: p) (by simpa using hpre)
      have e : midCall ((op, res) :: p) = midCall [(op, res)] + midCall p := by
        simp only [midCall, List.count_cons, List.count_nil]; omega
      omega
    · intro hm; exact hp (List.mem_cons_of_mem _ hm)

/-- **C25 (partial: histories in which no `borrow` is attempted while a mutable borrow is alive, fewer than `2^63 - 1`
threads).** There is never more than one mutable borrow, and while there is one there is no shared borrow. -/
theorem C25_partial (h : CellHist) (c : Cell) (r : CellRun Cell.new h c) (hp : NoFailedBorrow h) (hf : FewThreads h) :
    liveMut h ≤ 1 ∧ (liveMut h = 1 → liveShared h = 0) := by
  have := cell_inv r ⟨Or.inr (by decide)⟩ (by intro p hpre; have := hf p hpre; simpa [Cell.new] using this) hp
  obtain ⟨g1, g2, _⟩ := ghost r
  obtain ⟨he⟩ := this
  simp only [Cell.new] at g1 g2
  omega

/-- In such a history the calls panic only when they should: a mutable borrow is granted exactly when nothing is
borrowed (and no call is in mid-panic), and a shared borrow is never refused as long as fewer than `2^63 - 2` are alive. -/
theorem C25_granted_partial (h : CellHist) (c : Cell) (r : CellRun Cell.new h c) (hp : NoFailedBorrow h)
    (hf : FewThreads h) :
    (c.borrowMut.2 = .granted ↔ liveMut h = 0 ∧ liveShared h = 0 ∧ midCall h = 0) ∧
    (liveMut h = 0 → liveShared h + midCall h < 2 ^ 63 - 2 → c.borrow.2 = .granted) ∧
    (liveMut h = 1 → c.borrow.2 = .panicked) := by
  have := cell_inv r ⟨Or.inr (by decide)⟩ (by intro p hpre; have := hf p hpre; simpa [Cell.new] using this) hp
  obtain ⟨g1, g2, g3⟩ := ghost r
  obtain ⟨he⟩ := this
  simp only [Cell.new] at g1 g2 g3
  refine ⟨?_, ?_, ?_⟩
  · unfold Cell.borrowMut
    split
    · simp; omega
    · simp; omega
  · intro a b
    unfold Cell.borrow word
    rw [if_neg (by omega), if_neg (by omega)]
  · intro a
    unfold Cell.borrow
    rw [if_pos (by omega)]

/-- A non-trivial history that meets the hypotheses: two readers, a failed `borrow_mut`, both dropped, then a writer. -/
example : ∃ h c, CellRun Cell.new h c ∧ NoFailedBorrow h ∧ FewThreads h ∧ liveMut h = 1 ∧ h.length = 6 := by
  refine ⟨[(.borrow, .granted), (.borrow, .granted), (.borrowMut, .panicked), (.dropRef, .granted), (.dropRef, .granted),
    (.borrowMut, .granted)], ⟨0, 0, 1, 0⟩, .cons (c' := ⟨2, 1, 0, 0⟩) (by decide) (.cons (c' := ⟨3, 2, 0, 0⟩) (by decide)
    (.cons (c' := ⟨3, 2, 0, 0⟩) (by decide) (.cons (c' := ⟨2, 1, 0, 0⟩) (by decide) (.cons (c' := ⟨1, 0, 0, 0⟩) (by decide)
    (.cons (by decide) .nil))))), by unfold NoFailedBorrow; decide, ?_, by decide, rfl⟩
  intro p hp
  have : p.count (CellOp.borrow, Outcome.pending) ≤ 0 := by
    have := hp.sublist.count_le (CellOp.borrow, Outcome.pending)
    simpa using this
  unfold midCall
  omega

/-- **C25 is violated.** A `borrow` that panics because the cell is mutably borrowed leaves the counter at one, so the
next `borrow` is granted beside the live mutable borrow. -/
theorem C25_violated : ∃ h c, CellRun Cell.new h c ∧ liveMut h = 1 ∧ liveShared h = 1 :=
  ⟨[(.borrowMut, .granted), (.borrow, .panicked), (.borrow, .granted)], _, .cons rfl (.cons rfl (.cons rfl .nil)),
    by decide, by decide⟩

/-- And `borrow_mut` then hands out a second mutable borrow; repeated, any number of them. -/
theorem C25_two_writers_violated (n : Nat) : ∃ h c, CellRun Cell.new h c ∧ liveMut h = n := by
  have step : ∀ k : Nat, ∃ h, CellRun ⟨1, 0, k, 0⟩ h ⟨1, 0, k + n, 0⟩ ∧ liveMut h = n := by
    induction n with
    | zero => intro k; exact ⟨[], .nil, rfl⟩
    | succ n ih =>
      intro k
      obtain ⟨h, h1, h2⟩ := ih (k + 1)
      refine ⟨(.borrowMut, .granted) :: (.borrow, .panicked) :: h, .cons rfl (.cons rfl ?_), ?_⟩
      · rw [show k + (n + 1) = k + 1 + n by omega]; exact h1
      · unfold liveMut at h2 ⊢; simp; omega
  obtain ⟨h, h1, h2⟩ := step 0
  exact ⟨h, _, h1, h2⟩

/-! ### The spinlock -/

/-- A history of accesses to one lock, with the answers of `tryLock`. -/
abbrev LockHist := List (LockOp × Bool)

/-- `LockRun l h l'`: the accesses `h`, in this order, take the lock from `l` to `l'`. -/
inductive LockRun : Lock → LockHist → Lock → Prop
  | nil {l} : LockRun l [] l
  | cons {l l' l'' op r h} : l.step op = some (l', r) → LockRun l' h l'' → LockRun l ((op, r) :: h) l''

/-- Handles acquired and neither dropped nor kept. -/
def holders (h : LockHist) : Int :=
  h.count (.tryLock, true) - h.count (.drop, false) - h.count (.keepLocked, false)

/-- Some holder has marked the lock as permanently locked. -/
def Retired (h : LockHist) : Prop := (LockOp.keepLocked, false) ∈ h

theorem lock_inv {l l' : Lock} {h : LockHist} {ret : Prop} (r : LockRun l h l')
    (i1 : l.handles ≤ 1) (i2 : l.locked = true ↔ l.handles = 1 ∨ ret) (i3 : ret → l.handles = 0) :
    l'.handles ≤ 1 ∧ (l'.locked = true ↔ l'.handles = 1 ∨ ret ∨ Retired h) ∧ (ret ∨ Retired h → l'.handles = 0) ∧
    (l'.handles : Int) = l.handles + holders h := by
  induction r generalizing ret with
  | nil => simp [Retired, holders]; exact ⟨i1, i2, i3⟩
  | @cons l l1 l2 op res h hs r ih =>
    cases op with
    | tryLock =>
      have h0 := Option.some.inj hs
      simp only [Lock.tryLock] at h0
      split at h0
      · rename_i hl
        cases h0
        have hn : ¬(l.handles = 1 ∨ ret) := by rw [← i2, hl]; simp
        obtain ⟨a, b, c, d⟩ := @ih ret (by simp; omega) (by simp; left; omega) (by intro hr; exact absurd (Or.inr hr) hn)
        refine ⟨a, ?_, ?_, ?_⟩
        · rw [b]; simp [Retired]
        · intro hr; apply c; simpa [Retired] using hr
        · rw [d]; simp [holders]; omega
      · cases h0
        obtain ⟨a, b, c, d⟩ := @ih ret i1 i2 i3
        refine ⟨a, ?_, ?_, ?_⟩
        · rw [b]; simp [Retired]
        · intro hr; apply c; simpa [Retired] using hr
        · rw [d]; simp [holders]
    | drop =>
      simp only [Lock.step, Lock.drop] at hs
      split at hs
      · cases hs
      · rename_i hz
        cases hs
        have hnr : ¬ret := fun hr => hz (i3 hr)
        obtain ⟨a, b, c, d⟩ := @ih ret (by simp; omega) (by simp [hnr]; omega) (fun hr => absurd hr hnr)
        refine ⟨a, ?_, ?_, ?_⟩
        · rw [b]; simp [Retired]
        · intro hr; apply c; simpa [Retired] using hr
        · rw [d]; simp [holders]; omega
    | keepLocked =>
      simp only [Lock.step, Lock.keepLocked] at hs
      split at hs
      · cases hs
      · rename_i hz
        cases hs
        have hl : l.locked = true := i2.2 (Or.inl (by omega))
        obtain ⟨a, b, c, d⟩ := @ih True (by simp; omega) (by simp [hl]) (by simp; omega)
        refine ⟨a, ?_, ?_, ?_⟩
        · rw [b]; simp [Retired]
        · intro _; exact c (Or.inl trivial)
        · rw [d]; simp [holders]; omega

/-- **C26.** In every history there is at most one holder; `try_lock` succeeds exactly when there is no holder and the
lock was never marked as permanently locked; once it is, there is never a holder again. -/
theorem C26_spinlock (h : LockHist) (l : Lock) (r : LockRun Lock.new h l) :
    holders h ≤ 1 ∧ (l.tryLock.2 = true ↔ holders h = 0 ∧ ¬Retired h) ∧ (Retired h → holders h = 0) := by
  obtain ⟨a, b, c, d⟩ := lock_inv (ret := False) r (by decide) (by decide) (fun h => h.elim)
  simp only [false_or] at b c
  simp only [Lock.new] at d
  refine ⟨by omega, ?_, fun hr => by have := c hr; omega⟩
  unfold Lock.tryLock
  by_cases hl : l.locked = false
  · rw [if_pos hl]
    have hn : ¬(l.handles = 1 ∨ Retired h) := by rw [← b, hl]; simp
    simp only [true_iff]
    exact ⟨by omega, fun hr => hn (Or.inr hr)⟩
  · rw [if_neg hl]
    have hn := b.1 (by simpa using hl)
    simp only [Bool.false_eq_true, false_iff, not_and, Classical.not_not]
    intro h0
    rcases hn with hn | hn
    · omega
    · exact hn

/-- **C26 (permanently locked).** Whatever happens after a holder keeps the lock locked, no `try_lock` succeeds. -/
theorem C26_retired (h1 h2 : LockHist) (l : Lock) (r : LockRun Lock.new (h1 ++ (.keepLocked, false) :: h2) l) :
    (LockOp.tryLock, true) ∉ h2 := by
  have split : ∀ (h1 h2 : LockHist) (l l' : Lock), LockRun l (h1 ++ h2) l' → ∃ m, LockRun l h1 m ∧ LockRun m h2 l' := by
    intro h1
    induction h1 with
    | nil => intro h2 l l' r; exact ⟨l, .nil, r⟩
    | cons e h1 ih =>
      intro h2 l l' r
      cases r with
      | cons hs r =>
        obtain ⟨m, m1, m2⟩ := ih h2 _ _ r
        exact ⟨m, .cons hs m1, m2⟩
  intro hm
  obtain ⟨p, q, rfl⟩ := List.append_of_mem hm
  rw [← List.cons_append, ← List.append_assoc] at r
  obtain ⟨m, m1, m2⟩ := split _ _ _ _ r
  have hx := (C26_spinlock _ _ m1).2.1
  cases m2 with
  | cons hs _ =>
    have h0 := Option.some.inj hs
    have : m.tryLock.2 = true := by rw [h0]
    exact (hx.1 this).2 (by simp [Retired])

/-- A history meeting the hypotheses: acquired, dropped, acquired again, refused to another thread, kept, refused. -/
example : ∃ l, LockRun Lock.new ([(.tryLock, true), (.drop, false), (.tryLock, true), (.tryLock, false)] ++
    (.keepLocked, false) :: [(.tryLock, false)]) l :=
  ⟨_, .cons rfl (.cons rfl (.cons rfl (.cons rfl (.cons rfl (.cons rfl .nil)))))⟩

end Spf.Props
