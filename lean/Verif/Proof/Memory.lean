import Verif.Model.Memory

/-! Lemmas about the memory model. -/

namespace Spf.Cpu
variable {C : Type}

theorem pageOff_eq (p : Nat) : pageOff p = p % 4096 := by
  have := Nat.and_two_pow_sub_one_eq_mod p 12
  simpa [pageOff] using this

theorem pageId_eq {p : Nat} (hp : p < 2 ^ 32) : pageId p = p / 4096 := by
  have h1 : (p &&& 0xFFFFF000) >>> 12 = (p >>> 12) &&& (0xFFFFF000 >>> 12) := Nat.shiftRight_and_distrib
  have h2 : (0xFFFFF000 : Nat) >>> 12 = 2 ^ 20 - 1 := by decide
  rw [pageId, h1, h2, Nat.and_two_pow_sub_one_eq_mod, Nat.shiftRight_eq_div_pow]
  apply Nat.mod_eq_of_lt
  omega

/-- what a load sees, in arithmetic terms -/
theorem load_eq {p : Nat} (hp : p < 2 ^ 32) (m : Mem C) :
    m.load p = match m.pages (p / 4096) with | some pg => .ok (pg (p % 4096)) | none => .error (.accessViolation p) := by
  rw [Mem.load, pageId_eq hp, pageOff_eq]; cases m.pages (p / 4096) <;> rfl

theorem load_isOk {p : Nat} (m : Mem C) : (∃ b, m.load p = .ok b) ↔ (m.pages (pageId p)).isSome = true := by
  rw [Mem.load]; cases m.pages (pageId p) <;> simp

theorem load_error {p : Nat} (m : Mem C) : (∀ b, m.load p ≠ .ok b) ↔ m.load p = .error (.accessViolation p) := by
  rw [Mem.load]; cases m.pages (pageId p) <;> simp

theorem store_ok {m m' : Mem C} {p : Nat} {b : Byte C} (h : m.store p b = (m', .ok ())) : m'.load p = .ok b := by
  rw [Mem.store] at h
  split at h
  · cases h; simp [Mem.load]
  · cases h

theorem store_mapped {m : Mem C} {p : Nat} {b x : Byte C} (h : m.load p = .ok x) : ∃ m', m.store p b = (m', .ok ()) := by
  rw [Mem.load] at h; rw [Mem.store]
  cases hp : m.pages (pageId p) with
  | none => rw [hp] at h; cases h
  | some pg => exact ⟨_, rfl⟩

theorem store_unmapped {m : Mem C} {p : Nat} {b : Byte C} (h : m.load p = .error (.accessViolation p)) :
    m.store p b = (m, .error (.accessViolation p)) := by
  rw [Mem.load] at h; rw [Mem.store]
  cases hp : m.pages (pageId p) with
  | none => rfl
  | some pg => rw [hp] at h; cases h

theorem addr_ne {p q : Nat} (hp : p < 2 ^ 32) (hq : q < 2 ^ 32) (h : p ≠ q) : ¬ (pageId q = pageId p ∧ pageOff q = pageOff p) := by
  rw [pageId_eq hp, pageId_eq hq, pageOff_eq, pageOff_eq]; omega

theorem store_frame (m : Mem C) {p q : Nat} (b : Byte C) (hp : p < 2 ^ 32) (hq : q < 2 ^ 32) (h : p ≠ q) :
    (m.store p b).1.load q = m.load q := by
  have hne := addr_ne hp hq h
  rw [Mem.store]
  cases hpg : m.pages (pageId p) with
  | none => rfl
  | some pg =>
    simp only [Mem.load]
    by_cases h1 : pageId q = pageId p
    · rw [if_pos h1]
      have h2 : pageOff q ≠ pageOff p := fun e => hne ⟨h1, e⟩
      simp [h1, hpg, if_neg h2]
    · rw [if_neg h1]

theorem store_sp (m : Mem C) (p : Nat) (b : Byte C) : (m.store p b).1.sp = m.sp := by
  rw [Mem.store]; split <;> rfl

/-- a store neither maps nor unmaps -/
theorem store_pages_isSome (m : Mem C) (p : Nat) (b : Byte C) (i : Nat) :
    ((m.store p b).1.pages i).isSome = (m.pages i).isSome := by
  rw [Mem.store]
  cases hpg : m.pages (pageId p) with
  | none => rfl
  | some pg =>
    by_cases h : i = pageId p
    · subst h; simp [hpg]
    · simp [h]

theorem allocateAt_load {m : Mem C} {p len q : Nat} {b : Byte C} (h : m.load q = .ok b) : (m.allocateAt p len).1.load q = .ok b := by
  rw [Mem.allocateAt]
  split
  · exact h
  · split
    · exact h
    · rw [Mem.load] at h ⊢
      cases hq : m.pages (pageId q) with
      | none => rw [hq] at h; cases h
      | some pg => rw [hq] at h; dsimp only; split <;> simp_all

/-! ### the allocator -/

theorem firstUsed_none {m : Mem C} {base num : Nat} : firstUsed m base num = none ↔ ∀ i, base ≤ i → i < base + num → m.pages i = none := by
  rw [firstUsed, List.find?_eq_none]
  constructor
  · intro h i h1 h2
    have := h i (by simp [List.mem_range'_1]; omega)
    cases hm : m.pages i with
    | none => rfl
    | some _ => rw [hm] at this; simp at this
  · intro h i hi
    simp [List.mem_range'_1] at hi
    rw [h i hi.1 hi.2]; simp

theorem firstUsed_some {m : Mem C} {base num i : Nat} (h : firstUsed m base num = some i) :
    base ≤ i ∧ i < base + num ∧ (m.pages i).isSome = true := by
  have h1 := List.mem_of_find?_eq_some h
  have h2 := List.find?_some h
  simp [List.mem_range'_1] at h1
  exact ⟨h1.1, h1.2, h2⟩

theorem allocLoop_some {m : Mem C} {num : Nat} : ∀ fuel base r, allocLoop m num fuel base = some r →
    base ≤ r ∧ r + num < totalPages ∧ ∀ i, r ≤ i → i < r + num → m.pages i = none := by
  intro fuel
  induction fuel with
  | zero => intro base r h; cases h
  | succ f ih =>
    intro base r h
    rw [allocLoop] at h
    by_cases hb : base + num < totalPages
    · rw [if_pos hb] at h
      cases hf : firstUsed m base num with
      | none => rw [hf] at h; cases h; exact ⟨Nat.le_refl _, hb, firstUsed_none.mp hf⟩
      | some i =>
        rw [hf] at h
        have := firstUsed_some hf
        have h2 := ih _ _ h
        exact ⟨by omega, h2.2⟩
    · rw [if_neg hb] at h; cases h

theorem allocLoop_none {m : Mem C} {num : Nat} : ∀ fuel base, totalPages ≤ base + fuel → allocLoop m num fuel base = none →
    ∀ r, base ≤ r → r + num < totalPages → ∃ i, r ≤ i ∧ i < r + num ∧ (m.pages i).isSome = true := by
  intro fuel
  induction fuel with
  | zero => intro base hf _ r h1 h2; omega
  | succ f ih =>
    intro base hf h r h1 h2
    rw [allocLoop] at h
    have hb : base + num < totalPages := by omega
    rw [if_pos hb] at h
    cases hu : firstUsed m base num with
    | none => rw [hu] at h; cases h
    | some i =>
      rw [hu] at h
      have hi := firstUsed_some hu
      by_cases hr : r ≤ i
      · exact ⟨i, hr, by omega, hi.2.2⟩
      · exact ih (i + 1) (by omega) h r (by omega) h2

theorem shl12 (b : Nat) : b <<< 12 = b * 4096 := by rw [Nat.shiftLeft_eq]

theorem allocate_ok {m m' : Mem C} {len p : Nat} (h : m.allocate len = (m', .ok p)) :
    0 < len ∧ ∃ base num, p = base * 4096 ∧ num = (len + 4095) / 4096 ∧ 1 ≤ base ∧ base + num < 2 ^ 20 ∧
      (∀ i, base ≤ i → i < base + num → m.pages i = none) ∧ m'.sp = m.sp ∧
      m'.pages = fun i => if base ≤ i ∧ i < base + num then some freshPage else m.pages i := by
  rw [Mem.allocate] at h
  by_cases h0 : len = 0
  · rw [if_pos h0] at h; cases h
  rw [if_neg h0] at h
  dsimp only at h
  split at h
  · cases h
  · split at h
    · rename_i base hl
      cases h
      have := allocLoop_some _ _ _ hl
      refine ⟨by omega, base, (len + 4095) / 4096, shl12 _, rfl, this.1, ?_, ?_, rfl, rfl⟩
      · exact this.2.1
      · exact this.2.2
    · cases h

theorem allocate_frame (m : Mem C) (len q : Nat) (b : Byte C) (h : m.load q = .ok b) : (m.allocate len).1.load q = .ok b := by
  cases hr : m.allocate len with
  | mk m' r =>
    cases r with
    | error e =>
      rw [Mem.allocate] at hr
      split at hr
      · cases hr; exact h
      · dsimp only at hr
        split at hr
        · cases hr; exact h
        · split at hr
          · cases hr
          · cases hr; exact h
    | ok p =>
      obtain ⟨_, base, num, _, _, _, _, hfree, _, hp⟩ := allocate_ok hr
      dsimp only
      rw [Mem.load] at h ⊢
      rw [hp]; dsimp only
      by_cases hc : base ≤ pageId q ∧ pageId q < base + num
      · rw [hfree _ hc.1 hc.2] at h; cases h
      · rw [if_neg hc]; exact h

theorem allocate_sp (m : Mem C) (len : Nat) : (m.allocate len).1.sp = m.sp := by
  rw [Mem.allocate]
  split
  · rfl
  · dsimp only; split
    · rfl
    · split <;> rfl

/-! ### sequences of bytes -/

theorem tryOffset_ok {p v q : Nat} : tryOffset p v = .ok q ↔ q = p + v ∧ p + v < 2 ^ 32 := by
  rw [tryOffset]
  by_cases h : p + v < addrSpace
  · rw [if_pos h]
    constructor
    · intro e; cases e; exact ⟨rfl, h⟩
    · rintro ⟨rfl, _⟩; rfl
  · rw [if_neg h]
    constructor
    · intro e; cases e
    · rintro ⟨_, e⟩; exact absurd e h

theorem storeAll_frame (p : Nat) : ∀ (bs : List (Byte C)) (i : Nat) (m : Mem C) (q : Nat), q < 2 ^ 32 →
    (q < p + i ∨ p + i + bs.length ≤ q) → (m.storeAll p bs i).1.load q = m.load q := by
  intro bs
  induction bs with
  | nil => intro i m q _ _; rfl
  | cons b bs ih =>
    intro i m q hq hr
    rw [Mem.storeAll]
    cases ht : tryOffset p i with
    | error e => rfl
    | ok a =>
      obtain ⟨rfl, ha⟩ := tryOffset_ok.mp ht
      dsimp only
      have hf := store_frame m b ha hq (by simp at hr; omega)
      cases hs : m.store (p + i) b with
      | mk m1 r =>
        rw [hs] at hf
        cases r with
        | error e => exact hf
        | ok u =>
          dsimp only at hf ⊢
          rw [ih (i + 1) m1 q hq (by simp at hr; omega)]; exact hf

theorem storeAll_isSome (p : Nat) : ∀ (bs : List (Byte C)) (i : Nat) (m : Mem C) (k : Nat),
    ((m.storeAll p bs i).1.pages k).isSome = (m.pages k).isSome := by
  intro bs
  induction bs with
  | nil => intro i m k; rfl
  | cons b bs ih =>
    intro i m k
    rw [Mem.storeAll]
    cases ht : tryOffset p i with
    | error e => rfl
    | ok a =>
      dsimp only
      have hf := store_pages_isSome m a b k
      cases hs : m.store a b with
      | mk m1 r =>
        rw [hs] at hf
        cases r with
        | error e => exact hf
        | ok u => dsimp only at hf ⊢; rw [ih]; exact hf

theorem storeAll_sp (p : Nat) : ∀ (bs : List (Byte C)) (i : Nat) (m : Mem C), (m.storeAll p bs i).1.sp = m.sp := by
  intro bs
  induction bs with
  | nil => intro i m; rfl
  | cons b bs ih =>
    intro i m
    rw [Mem.storeAll]
    cases ht : tryOffset p i with
    | error e => rfl
    | ok a =>
      dsimp only
      have hf := store_sp m a b
      cases hs : m.store a b with
      | mk m1 r =>
        rw [hs] at hf
        cases r with
        | error e => exact hf
        | ok u => dsimp only at hf ⊢; rw [ih]; exact hf

theorem storeAll_ok (p : Nat) : ∀ (bs : List (Byte C)) (i : Nat) (m m' : Mem C), m.storeAll p bs i = (m', .ok ()) →
    (bs ≠ [] → p + i + bs.length ≤ 2 ^ 32) ∧ ∀ (k : Nat) (hk : k < bs.length), m'.load (p + i + k) = .ok bs[k] := by
  intro bs
  induction bs with
  | nil => intro i m m' _; exact ⟨by simp, fun k hk => absurd hk (by simp)⟩
  | cons b bs ih =>
    intro i m m' h
    rw [Mem.storeAll] at h
    cases ht : tryOffset p i with
    | error e => rw [ht] at h; cases h
    | ok a =>
      obtain ⟨rfl, ha⟩ := tryOffset_ok.mp ht
      rw [ht] at h; dsimp only at h
      cases hs : m.store (p + i) b with
      | mk m1 r =>
        rw [hs] at h
        cases r with
        | error e => cases h
        | ok u =>
          dsimp only at h
          obtain ⟨h1, h2⟩ := ih _ _ _ h
          constructor
          · intro _
            by_cases hb : bs = []
            · subst hb; simp; omega
            · have := h1 hb; simp; omega
          · intro k hk
            cases k with
            | zero =>
              have hf := storeAll_frame p bs (i + 1) m1 (p + i) ha (by omega)
              rw [h] at hf
              simp only [Nat.add_zero, List.getElem_cons_zero]
              dsimp only at hf
              rw [hf]; exact store_ok hs
            | succ k =>
              have := h2 k (by simpa using hk)
              simp only [List.getElem_cons_succ]
              rw [← this]; congr 1; omega

theorem loadAll_of (p : Nat) (m : Mem C) : ∀ (bs : List (Byte C)) (i : Nat), (bs ≠ [] → p + i + bs.length ≤ 2 ^ 32) →
    (∀ (k : Nat) (hk : k < bs.length), m.load (p + i + k) = .ok bs[k]) → m.loadAll p bs.length i = .ok bs := by
  intro bs
  induction bs with
  | nil => intro i _ _; rfl
  | cons b bs ih =>
    intro i hl h
    have hl' := hl (by simp)
    simp only [List.length_cons] at hl'
    simp only [List.length_cons]
    rw [Mem.loadAll, (tryOffset_ok (p := p) (v := i)).mpr ⟨rfl, by omega⟩]
    dsimp only
    have h0 := h 0 (by simp)
    simp only [Nat.add_zero, List.getElem_cons_zero] at h0
    rw [h0]; dsimp only
    rw [ih (i + 1) (fun _ => by omega) (fun k hk => by
      have := h (k + 1) (by simpa using hk)
      simp only [List.getElem_cons_succ] at this
      rw [← this]; congr 1; omega)]

theorem storeAll_succeeds (p : Nat) : ∀ (bs : List (Byte C)) (i : Nat) (m : Mem C), (bs ≠ [] → p + i + bs.length ≤ 2 ^ 32) →
    (∀ k, k < bs.length → ∃ b, m.load (p + i + k) = .ok b) → ∃ m', m.storeAll p bs i = (m', .ok ()) := by
  intro bs
  induction bs with
  | nil => intro i m _ _; exact ⟨m, rfl⟩
  | cons b bs ih =>
    intro i m hl h
    have hl' := hl (by simp)
    simp only [List.length_cons] at hl'
    rw [Mem.storeAll, (tryOffset_ok (p := p) (v := i)).mpr ⟨rfl, by omega⟩]
    dsimp only
    obtain ⟨x, hx⟩ := h 0 (by simp)
    obtain ⟨m1, h1⟩ := store_mapped (b := b) hx
    rw [Nat.add_zero] at h1
    rw [h1]; dsimp only
    apply ih (i + 1) m1 (fun _ => by omega)
    intro k hk
    have := h (k + 1) (by simpa using hk)
    rw [load_isOk] at this ⊢
    have hs := store_pages_isSome m (p + i) b (pageId (p + (i + 1) + k))
    rw [h1] at hs
    dsimp only at hs
    rw [hs, ← this]; congr 3; omega

theorem checkRange_ok {m : Mem C} {p len : Nat} : m.checkRange p len = .ok () ↔
    p + len < 2 ^ 32 ∧ ∀ i, p / 4096 ≤ i → i ≤ (p + len) / 4096 → (m.pages i).isSome = true := by
  rw [Mem.checkRange]
  by_cases h : p + len ≥ addrSpace
  · rw [if_pos h]
    constructor
    · intro e; cases e
    · rintro ⟨e, _⟩; exact absurd e (by simp only [addrSpace] at h; omega)
  rw [if_neg h]
  have hlt : p + len < 2 ^ 32 := by simp only [addrSpace] at h; omega
  have hd : p / pageSize ≤ (p + len) / pageSize := Nat.div_le_div_right (by omega)
  by_cases hc : ((List.range' (p / pageSize) ((p + len) / pageSize + 1 - p / pageSize)).all fun i => (m.pages i).isSome) = true
  · rw [if_pos hc]
    simp only [List.all_eq_true, List.mem_range'_1] at hc
    refine ⟨fun _ => ⟨hlt, fun i h1 h2 => hc i ⟨h1, ?_⟩⟩, fun _ => rfl⟩
    simp only [pageSize] at hd ⊢; omega
  · rw [if_neg hc]
    constructor
    · intro e; cases e
    · rintro ⟨_, e⟩
      exfalso; apply hc
      simp only [List.all_eq_true, List.mem_range'_1]
      intro i hi
      apply e i hi.1
      simp only [pageSize] at hd hi ⊢; omega

end Spf.Cpu
