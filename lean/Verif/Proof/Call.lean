import Verif.Proof.Args
import Mathlib.Tactic.IntervalCases
/-! Lemmas about the stack, call frames and program loading. -/
namespace Spf.Cpu
variable {C : Type}

theorem trySignedOffset_neg {p n q : Nat} : trySignedOffset p (-(n : Int)) = .ok q ↔ n ≤ p ∧ q = p - n ∧ p - n < 2 ^ 32 := by
  rw [trySignedOffset]
  by_cases h : 0 ≤ (p : Int) + -(n : Int) ∧ (p : Int) + -(n : Int) < 2 ^ 32
  · rw [if_pos h]
    constructor
    · intro e; cases e; omega
    · rintro ⟨h1, rfl, h2⟩; congr 1; omega
  · rw [if_neg h]
    constructor
    · intro e; cases e
    · rintro ⟨h1, rfl, h2⟩; omega

theorem pushPadding_ok : ∀ (n : Nat) (m m' : Mem C), m.sp < 2 ^ 32 → pushPadding n m = (m', .ok ()) →
    n ≤ m.sp ∧ m'.sp = m.sp - n ∧ (∀ k, (m'.pages k).isSome = (m.pages k).isSome) ∧
    ∀ q, q < 2 ^ 32 → (q + n ≤ m.sp ∨ m.sp < q) → m'.load q = m.load q := by
  intro n
  induction n with
  | zero => intro m m' _ h; cases h; exact ⟨Nat.zero_le _, rfl, fun _ => rfl, fun _ _ _ => rfl⟩
  | succ n ih =>
    intro m m' hsp h
    rw [pushPadding] at h
    have h1 := store_sp m m.sp (.plain 0)
    have h2 := store_pages_isSome m m.sp (.plain 0)
    have h3 := fun q hq hne => store_frame m (p := m.sp) (q := q) (.plain 0) hsp hq hne
    cases hs : m.store m.sp (.plain 0) with
    | mk m1 r =>
      rw [hs] at h h1 h2 h3
      cases r with
      | error e => cases h
      | ok u =>
        dsimp only at h h1 h2 h3
        cases ht : trySignedOffset m1.sp (-1) with
        | error e => rw [ht] at h; cases h
        | ok sp =>
          rw [ht] at h; dsimp only at h
          obtain ⟨a, b, c⟩ := (trySignedOffset_neg (p := m1.sp) (n := 1)).mp ht
          obtain ⟨i1, i2, i3, i4⟩ := ih _ _ (by dsimp only; omega) h
          dsimp only at i1 i2 i3 i4
          refine ⟨by omega, by omega, fun k => (i3 k).trans (h2 k), ?_⟩
          intro q hq hr
          have := i4 q hq (by omega)
          rw [this]
          exact h3 q hq (by omega)

/-- what a successful push does -/
theorem pushArg_ok {m m' : Mem C} {a : Arg C} {p : Nat} (hsp : m.sp < 2 ^ 32) (h : m.pushArg a = (m', .ok p)) :
    let pad := (a.alignment - m.sp % a.alignment) % a.alignment
    0 < a.alignment ∧ pad + a.bytes.length ≤ m.sp ∧ p = m.sp - (pad + a.bytes.length) ∧ m'.sp = p ∧
      (∀ (k : Nat) (hk : k < a.bytes.length), m'.load (p + k) = .ok a.bytes[k]) ∧
      (∀ k, (m'.pages k).isSome = (m.pages k).isSome) ∧
      ∀ q, q < 2 ^ 32 → (q < p ∨ m.sp < q ∨ (pad = 0 ∧ m.sp ≤ q)) → m'.load q = m.load q := by
  intro pad
  rw [Mem.pushArg] at h
  split at h
  · cases h
  split at h
  · cases h
  rename_i h0 ha
  dsimp only at h
  cases hp : pushPadding ((a.alignment - m.sp % a.alignment) % a.alignment) m with
  | mk m1 r =>
    rw [hp] at h
    cases r with
    | error e => cases h
    | ok u =>
      dsimp only at h
      obtain ⟨p1, p2, p3, p4⟩ := pushPadding_ok _ _ _ hsp hp
      cases ht : trySignedOffset m1.sp (-(a.bytes.length : Int)) with
      | error e => rw [ht] at h; cases h
      | ok sp =>
        rw [ht] at h; dsimp only at h
        obtain ⟨t1, t2, t3⟩ := trySignedOffset_neg.mp ht
        have s1 := storeAll_sp sp a.bytes 0 { m1 with sp := sp }
        have s2 := storeAll_isSome sp a.bytes 0 { m1 with sp := sp }
        have s3 := storeAll_frame sp a.bytes 0 { m1 with sp := sp }
        cases hs : Mem.storeAll { m1 with sp := sp } sp a.bytes 0 with
        | mk m2 r =>
          rw [hs] at h s1 s2 s3
          cases r with
          | error e => cases h
          | ok u =>
            cases h
            dsimp only at s1 s2 s3
            have s4 := (storeAll_ok _ a.bytes 0 _ _ hs).2
            have hpad : pad = (a.alignment - m.sp % a.alignment) % a.alignment := rfl
            rw [← hpad] at p1 p2 p4
            refine ⟨by omega, by omega, by omega, s1, ?_, fun k => (s2 k).trans (p3 k), ?_⟩
            · intro k hk; have := s4 k hk; simpa using this
            · intro q hq hr
              rw [s3 q hq (by omega)]
              show m1.load q = m.load q
              apply p4 q hq; omega

theorem pushArg_succeeds {m : Mem C} {a : Arg C} (h0 : 0 < m.sp) (hsp : m.sp < 2 ^ 32) (ha : 0 < a.alignment) (hal : m.sp % a.alignment = 0)
    (hfit : a.bytes.length ≤ m.sp) (hmap : ∀ q, m.sp - a.bytes.length ≤ q → q < m.sp → ∃ x, m.load q = .ok x) :
    ∃ m', m.pushArg a = (m', .ok (m.sp - a.bytes.length)) := by
  have hpad : (a.alignment - m.sp % a.alignment) % a.alignment = 0 := by rw [hal]; simp
  rw [Mem.pushArg, if_neg (by omega), if_neg (by omega)]
  dsimp only
  rw [hpad]
  dsimp only [pushPadding]
  rw [(trySignedOffset_neg (q := m.sp - a.bytes.length)).mpr ⟨hfit, rfl, by omega⟩]
  dsimp only
  obtain ⟨m', hm⟩ := storeAll_succeeds (m.sp - a.bytes.length) a.bytes 0 { m with sp := m.sp - a.bytes.length } (fun _ => by omega)
    (fun k hk => hmap _ (by omega) (by omega))
  rw [hm]
  exact ⟨m', rfl⟩

/-! ### the argument loop -/

theorem storeArg_ok : ∀ (bs : List (Byte C)) (m : Mem C) (p : Nat), p + bs.length < 2 ^ 32 →
    (∀ k, k < bs.length → ∃ x, m.load (p + k) = .ok x) →
    ∃ m', storeArg bs m p = (m', .ok (p + bs.length)) ∧ m'.sp = m.sp ∧ (∀ k, (m'.pages k).isSome = (m.pages k).isSome) ∧
      (∀ (k : Nat) (hk : k < bs.length), m'.load (p + k) = .ok bs[k]) ∧
      ∀ q, q < 2 ^ 32 → (q < p ∨ p + bs.length ≤ q) → m'.load q = m.load q := by
  intro bs
  induction bs with
  | nil => intro m p _ _; exact ⟨m, rfl, rfl, fun _ => rfl, fun k hk => absurd hk (by simp), fun _ _ _ => rfl⟩
  | cons b bs ih =>
    intro m p hl hm
    simp only [List.length_cons] at hl hm
    obtain ⟨x, hx⟩ := hm 0 (by omega)
    obtain ⟨m1, h1⟩ := store_mapped (b := b) hx
    rw [Nat.add_zero] at h1
    have f1 := store_sp m p b
    have f2 := store_pages_isSome m p b
    have f3 := fun q hq hne => store_frame m (p := p) (q := q) b (by omega) hq hne
    rw [h1] at f1 f2 f3
    dsimp only at f1 f2 f3
    obtain ⟨m', i1, i2, i3, i4, i5⟩ := ih m1 (p + 1) (by omega) (by
      intro k hk
      have := hm (k + 1) (by omega)
      rw [load_isOk] at this ⊢
      rw [f2, ← this]; congr 3; omega)
    refine ⟨m', ?_, i2.trans f1, fun k => (i3 k).trans (f2 k), ?_, ?_⟩
    · rw [storeArg, h1]; dsimp only
      rw [tryOffset_ok.mpr ⟨rfl, by omega⟩]; dsimp only
      rw [i1, List.length_cons]; congr 2; omega
    · intro k hk
      cases k with
      | zero => rw [i5 (p + 0) (by omega) (by omega)]; exact store_ok h1
      | succ k =>
        have := i4 k (by simpa using hk)
        rw [List.getElem_cons_succ, ← this]; congr 1; omega
    · intro q hq hr
      simp only [List.length_cons] at hr
      rw [i5 q hq (by omega)]
      exact f3 q hq (by omega)

/-- offsets of the arguments within a 16-aligned frame -/
def argOffsets : List (Arg C) → Nat → List Nat
  | [], _ => []
  | a :: as, off => nextMultipleOf off a.alignment :: argOffsets as (nextMultipleOf off a.alignment + a.bytes.length)

theorem alignPtr_frame {sp off al : Nat} (hsp : sp % 16 = 0) (ha : 0 < al) (hd : al ∣ 16) (hlt : sp + nextMultipleOf off al < 2 ^ 32) :
    alignPtr (sp + off) al = .ok (sp + nextMultipleOf off al) := by
  rw [alignPtr, if_neg (by omega)]
  dsimp only
  have hsal : sp % al = 0 := Nat.mod_eq_zero_of_dvd (Nat.dvd_trans hd (Nat.dvd_of_mod_eq_zero hsp))
  have e : sp + off + (al - (sp + off) % al) % al = sp + nextMultipleOf off al := by
    have hle := Nat.le_of_dvd (by omega) hd
    rw [nextMultipleOf, if_neg (by omega)]
    interval_cases al <;> first | omega | (exfalso; revert hd; decide)
  rw [e, if_pos (show _ < addrSpace from hlt)]

theorem argOffset_mono : ∀ (as : List (Arg C)) (off : Nat), (∀ a ∈ as, 0 < a.alignment) → off ≤ argOffset as off := by
  intro as
  induction as with
  | nil => intro off _; exact Nat.le_refl _
  | cons a as ih =>
    intro off h
    have h1 := (nextMultipleOf_ge (x := off) (h a (by simp))).1
    have h2 := ih (nextMultipleOf off a.alignment + a.bytes.length) (fun b hb => h b (by simp [hb]))
    rw [argOffset]; omega

theorem argOffsets_length : ∀ (as : List (Arg C)) (off : Nat), (argOffsets as off).length = as.length := by
  intro as
  induction as with
  | nil => intro off; rfl
  | cons a as ih => intro off; simp [argOffsets, ih]

theorem argOffsets_bounds : ∀ (as : List (Arg C)) (off : Nat), (∀ a ∈ as, 0 < a.alignment) →
    ∀ (i : Nat) (hi : i < as.length) (hi' : i < (argOffsets as off).length),
      off ≤ (argOffsets as off)[i] ∧ (argOffsets as off)[i] % as[i].alignment = 0 ∧
        (argOffsets as off)[i] + as[i].bytes.length ≤ argOffset as off := by
  intro as
  induction as with
  | nil => intro off _ i hi; simp at hi
  | cons a as ih =>
    intro off h i hi hi'
    have h1 := (nextMultipleOf_ge (x := off) (h a (by simp))).1
    cases i with
    | zero =>
      simp only [argOffsets, List.getElem_cons_zero, argOffset]
      exact ⟨h1, nextMultipleOf_mod, argOffset_mono as _ (fun b hb => h b (by simp [hb]))⟩
    | succ i =>
      have := ih (nextMultipleOf off a.alignment + a.bytes.length) (fun b hb => h b (by simp [hb])) i (by simpa using hi)
        (by rw [argOffsets_length]; simpa using hi)
      simp only [argOffsets, List.getElem_cons_succ, argOffset]
      exact ⟨by omega, this.2.1, this.2.2⟩

theorem argOffsets_order : ∀ (as : List (Arg C)) (off : Nat), (∀ a ∈ as, 0 < a.alignment) →
    ∀ (i j : Nat) (hi : i < as.length) (hi' : i < (argOffsets as off).length) (hj' : j < (argOffsets as off).length), i < j →
      (argOffsets as off)[i] + as[i].bytes.length ≤ (argOffsets as off)[j] := by
  intro as
  induction as with
  | nil => intro off _ i j hi; simp at hi
  | cons a as ih =>
    intro off h i j hi hi' hj' hij
    have hpos : ∀ b ∈ as, 0 < b.alignment := fun b hb => h b (by simp [hb])
    cases j with
    | zero => omega
    | succ j =>
      have hj : j < as.length := by rw [argOffsets_length] at hj'; simpa using hj'
      cases i with
      | zero =>
        have := (argOffsets_bounds as (nextMultipleOf off a.alignment + a.bytes.length) hpos j hj (by rw [argOffsets_length]; exact hj)).1
        simpa only [argOffsets, List.getElem_cons_zero, List.getElem_cons_succ] using this
      | succ i =>
        have := ih (nextMultipleOf off a.alignment + a.bytes.length) hpos i j (by simpa using hi)
          (by rw [argOffsets_length]; simpa using hi) (by rw [argOffsets_length]; exact hj) (by omega)
        simpa only [argOffsets, List.getElem_cons_succ] using this

theorem storeArgs_ok (sp : Nat) (hsp : sp % 16 = 0) : ∀ (as : List (Arg C)) (off : Nat) (m : Mem C),
    (∀ a ∈ as, 0 < a.alignment ∧ a.alignment ∣ 16) → sp + argOffset as off < 2 ^ 32 →
    (∀ q, sp ≤ q → q < sp + argOffset as off → ∃ x, m.load q = .ok x) →
    ∃ m', storeArgs as m (sp + off) = (m', .ok (sp + argOffset as off)) ∧ m'.sp = m.sp ∧ (∀ k, (m'.pages k).isSome = (m.pages k).isSome) ∧
      (∀ (i : Nat) (hi : i < as.length) (hi' : i < (argOffsets as off).length) (k : Nat) (hk : k < as[i].bytes.length),
        m'.load (sp + (argOffsets as off)[i] + k) = .ok as[i].bytes[k]) ∧
      ∀ q, q < 2 ^ 32 → (q < sp + off ∨ sp + argOffset as off ≤ q) → m'.load q = m.load q := by
  intro as
  induction as with
  | nil =>
    intro off m _ _ _
    exact ⟨m, rfl, rfl, fun _ => rfl, fun i hi => absurd hi (by simp), fun _ _ _ => rfl⟩
  | cons a as ih =>
    intro off m ha hl hm
    have hpos : ∀ b ∈ as, 0 < b.alignment := fun b hb => (ha b (by simp [hb])).1
    have h1 := (nextMultipleOf_ge (x := off) (ha a (by simp)).1).1
    have h2 := argOffset_mono as (nextMultipleOf off a.alignment + a.bytes.length) hpos
    rw [argOffset] at hl hm
    obtain ⟨m1, s1, s2, s3, s4, s5⟩ := storeArg_ok a.bytes m (sp + nextMultipleOf off a.alignment) (by omega)
      (fun k hk => hm _ (by omega) (by omega))
    obtain ⟨m', t1, t2, t3, t4, t5⟩ := ih (nextMultipleOf off a.alignment + a.bytes.length) m1 (fun b hb => ha b (by simp [hb])) hl
      (fun q q1 q2 => by have := hm q q1 q2; rw [load_isOk] at this ⊢; rw [s3]; exact this)
    refine ⟨m', ?_, t2.trans s2, fun k => (t3 k).trans (s3 k), ?_, ?_⟩
    · rw [storeArgs, alignPtr_frame hsp (ha a (by simp)).1 (ha a (by simp)).2 (by omega)]
      dsimp only
      rw [s1]; dsimp only
      rw [Nat.add_assoc, t1]; rfl
    · intro i hi hi' k hk
      cases i with
      | zero =>
        simp only [argOffsets, List.getElem_cons_zero] at hk ⊢
        rw [t5 _ (by omega) (by omega)]
        exact s4 k hk
      | succ i =>
        have := t4 i (by simpa using hi) (by rw [argOffsets_length]; simpa using hi) k (by simpa using hk)
        simpa only [argOffsets, List.getElem_cons_succ] using this
    · intro q hq hr
      rw [argOffset] at hr
      rw [t5 q hq (by omega)]
      exact s5 q hq (by omega)

theorem storeArg_isSome : ∀ (bs : List (Byte C)) (m : Mem C) (p j : Nat), ((storeArg bs m p).1.pages j).isSome = (m.pages j).isSome := by
  intro bs
  induction bs with
  | nil => intro m p j; rfl
  | cons b bs ih =>
    intro m p j
    rw [storeArg]
    have h := store_pages_isSome m p b j
    cases hs : m.store p b with
    | mk m1 r =>
      rw [hs] at h
      cases r with
      | error e => exact h
      | ok u =>
        dsimp only
        cases tryOffset p 1 with
        | error e => exact h
        | ok q => exact (ih m1 q j).trans h

theorem storeArgs_isSome : ∀ (as : List (Arg C)) (m : Mem C) (p j : Nat), ((storeArgs as m p).1.pages j).isSome = (m.pages j).isSome := by
  intro as
  induction as with
  | nil => intro m p j; rfl
  | cons a as ih =>
    intro m p j
    rw [storeArgs]
    cases alignPtr p a.alignment with
    | error e => rfl
    | ok q =>
      dsimp only
      have h := storeArg_isSome a.bytes m q j
      cases hs : storeArg a.bytes m q with
      | mk m1 r =>
        rw [hs] at h
        cases r with
        | error e => exact h
        | ok q => exact (ih m1 q j).trans h

theorem setUpCall_isSome {m m' : Mem C} {c : CallData C} {r : Nat} (hsp : m.sp < 2 ^ 32) (h : setUpCall m c = (m', .ok r)) (j : Nat) :
    (m'.pages j).isSome = (m.pages j).isSome := by
  rw [setUpCall] at h
  cases hp : m.pushArg ⟨16, List.replicate c.allocSize (.plain 0)⟩ with
  | mk m1 r1 =>
    rw [hp] at h
    cases r1 with
    | error e => cases h
    | ok p =>
      dsimp only at h
      have h1 := (pushArg_ok hsp hp).2.2.2.2.2.1 j
      have h2 := storeArgs_isSome c.args m1 m1.sp j
      cases hs : storeArgs c.args m1 m1.sp with
      | mk m2 r2 =>
        rw [hs] at h h2
        have h3 : (m2.pages j).isSome = (m.pages j).isSome := h2.trans h1
        cases r2 with
        | error e => cases h
        | ok q =>
          dsimp only at h
          split at h
          · cases ha : alignPtr q c.retAlign with
            | error e => rw [ha] at h; cases h
            | ok q' => rw [ha] at h; cases h; exact h3
          · cases h; exact h3

/-! ### program loading -/

theorem copyFile_ok (file : List (BitVec 8)) : ∀ (n f a : Nat) (m m' : Mem C), a + n ≤ 2 ^ 32 → copyFile file n f a m = (m', .ok ()) →
    m'.sp = m.sp ∧ (∀ k, (m'.pages k).isSome = (m.pages k).isSome) ∧
    (∀ k, k < n → ∃ b, file[f + k]? = some b ∧ m'.load (a + k) = .ok (.plain b)) ∧
    ∀ q, q < 2 ^ 32 → (q < a ∨ a + n ≤ q) → m'.load q = m.load q := by
  intro n
  induction n with
  | zero => intro f a m m' _ h; cases h; exact ⟨rfl, fun _ => rfl, fun k hk => absurd hk (by omega), fun _ _ _ => rfl⟩
  | succ n ih =>
    intro f a m m' hl h
    rw [copyFile] at h
    cases hf : file[f]? with
    | none => rw [hf] at h; cases h
    | some b =>
      rw [hf] at h; dsimp only at h
      have f1 := store_sp m a (.plain b)
      have f2 := store_pages_isSome m a (.plain b)
      have f3 := fun q hq hne => store_frame m (p := a) (q := q) (.plain b) (by omega) hq hne
      cases hs : m.store a (.plain b) with
      | mk m1 r =>
        rw [hs] at h f1 f2 f3
        cases r with
        | error e => cases h
        | ok u =>
          dsimp only at h f1 f2 f3
          obtain ⟨i1, i2, i3, i4⟩ := ih _ _ _ _ (by omega) h
          refine ⟨i1.trans f1, fun k => (i2 k).trans (f2 k), ?_, ?_⟩
          · intro k hk
            cases k with
            | zero => exact ⟨b, hf, by rw [Nat.add_zero, i4 a (by omega) (by omega)]; exact store_ok hs⟩
            | succ k =>
              obtain ⟨c, c1, c2⟩ := i3 k (by omega)
              exact ⟨c, by rw [← c1]; congr 1; omega, by rw [← c2]; congr 1; omega⟩
          · intro q hq hr
            rw [i4 q hq (by omega)]; exact f3 q hq (by omega)

theorem allocateAt_ok {m m' : Mem C} {p len : Nat} (h : m.allocateAt p len = (m', .ok ())) :
    0 < len ∧ p + len < 2 ^ 32 ∧
    (∀ q, p ≤ q → q ≤ p + len → ∃ x, m'.load q = .ok x) ∧
    (∀ q x, m.load q = .ok x → m'.load q = .ok x) ∧
    (∀ q x, m.load q = .error (.accessViolation q) → m'.load q = .ok x → x = .plain 0) ∧ m'.sp = m.sp := by
  rw [Mem.allocateAt] at h
  split at h
  · cases h
  rename_i h0
  cases ht : tryOffset p len with
  | error e => rw [ht] at h; cases h
  | ok e =>
    obtain ⟨rfl, hlt⟩ := tryOffset_ok.mp ht
    rw [ht] at h
    cases h
    refine ⟨by omega, hlt, ?_, ?_, ?_, rfl⟩
    · intro q h1 h2
      rw [load_isOk, pageId_eq (by omega)]
      dsimp only
      rw [pageId_eq (by omega), pageId_eq hlt, if_pos (by omega)]; rfl
    · intro q x hx
      have := allocateAt_load (p := p) (len := len) hx
      rw [Mem.allocateAt, if_neg h0, ht] at this
      exact this
    · intro q x hx hx'
      rw [Mem.load] at hx hx'
      dsimp only at hx'
      cases hpg : m.pages (pageId q) with
      | some pg => rw [hpg] at hx; cases hx
      | none =>
        rw [hpg] at hx'
        split at hx'
        · rename_i pg e
          split at e
          · cases e; cases hx'; rfl
          · cases e
        · cases hx'

/-- an address holding zero or nothing -/
def Clear (m : Mem C) (q : Nat) : Prop := ∀ x, m.load q = .ok x → x = .plain 0

theorem load_cases (m : Mem C) (q : Nat) : (∃ x, m.load q = .ok x) ∨ m.load q = .error (.accessViolation q) := by
  rw [Mem.load]; cases m.pages (pageId q) with
  | none => exact Or.inr rfl
  | some pg => exact Or.inl ⟨_, rfl⟩

theorem allocateAt_clear {m m' : Mem C} {p len q : Nat} (h : m.allocateAt p len = (m', .ok ())) (hc : Clear m q) : Clear m' q := by
  obtain ⟨_, _, _, h4, h5, _⟩ := allocateAt_ok h
  intro x hx
  rcases load_cases m q with ⟨y, hy⟩ | hy
  · have := h4 q y hy; rw [hx] at this; cases this; exact hc _ hy
  · exact h5 q x hy hx

theorem loadSegment_ok {file : List (BitVec 8)} {s : Segment} {m m' : Mem C} (h : loadSegment file s m = (m', .ok ())) :
    (∀ q x, q < 2 ^ 32 → (q < s.vaddr ∨ s.vaddr + s.memsz ≤ q) → m.load q = .ok x → m'.load q = .ok x) ∧
    (∀ q, q < 2 ^ 32 → (q < s.vaddr ∨ s.vaddr + s.memsz ≤ q) → Clear m q → Clear m' q) ∧
    (0 < s.memsz → s.vaddr + s.memsz < 2 ^ 32) ∧
    (∀ k, k < s.memsz → (k < s.filesz → ∃ b, file[s.offset + k]? = some b ∧ m'.load (s.vaddr + k) = .ok (.plain b)) ∧
      (s.filesz ≤ k → Clear m (s.vaddr + k) → m'.load (s.vaddr + k) = .ok (.plain 0))) := by
  rw [loadSegment] at h
  by_cases h0 : s.memsz = 0
  · rw [if_pos h0] at h; cases h
    exact ⟨fun _ _ _ _ hx => hx, fun _ _ _ hx => hx, fun e => by omega, fun k hk => by omega⟩
  rw [if_neg h0] at h
  split at h
  · cases h
  cases ht : tryOffset s.vaddr s.memsz with
  | error e => rw [ht] at h; cases h
  | ok e1 =>
    rw [ht] at h; dsimp only at h
    obtain ⟨_, hlt⟩ := tryOffset_ok.mp ht
    cases ht2 : tryOffset s.offset s.filesz with
    | error e => rw [ht2] at h; cases h
    | ok e2 =>
      rw [ht2] at h; dsimp only at h
      cases ha : m.allocateAt s.vaddr s.memsz with
      | mk m1 r =>
        rw [ha] at h
        cases r with
        | error e => cases h
        | ok u =>
          dsimp only at h
          obtain ⟨_, _, a3, a4, a5, _⟩ := allocateAt_ok ha
          obtain ⟨_, _, c3, c4⟩ := copyFile_ok file _ _ _ _ _ (by omega) h
          refine ⟨?_, ?_, fun _ => hlt, ?_⟩
          · intro q x hq hr hx
            rw [c4 q hq (by omega)]; exact a4 q x hx
          · intro q hq hr hc x hx
            rw [c4 q hq (by omega)] at hx
            exact allocateAt_clear ha hc x hx
          · intro k hk
            refine ⟨fun hf => c3 k (by omega), fun hf hc => ?_⟩
            rw [c4 _ (by omega) (by omega)]
            obtain ⟨x, hx⟩ := a3 (s.vaddr + k) (by omega) (by omega)
            rw [hx, allocateAt_clear ha hc x hx]

theorem loadSegments_append (file : List (BitVec 8)) : ∀ (xs ys : List Segment) (m m' : Mem C), loadSegments file (xs ++ ys) m = (m', .ok ()) →
    ∃ m1, loadSegments file xs m = (m1, .ok ()) ∧ loadSegments file ys m1 = (m', .ok ()) := by
  intro xs
  induction xs with
  | nil => intro ys m m' h; exact ⟨m, rfl, h⟩
  | cons x xs ih =>
    intro ys m m' h
    rw [List.cons_append, loadSegments] at h
    rw [loadSegments]
    cases hs : loadSegment file x m with
    | mk m1 r =>
      rw [hs] at h
      cases r with
      | error e => cases h
      | ok u => exact ih ys m1 m' h

theorem loadSegments_keep (file : List (BitVec 8)) (q : Nat) (hq : q < 2 ^ 32) : ∀ (xs : List Segment) (m m' : Mem C),
    loadSegments file xs m = (m', .ok ()) → (∀ t ∈ xs, q < t.vaddr ∨ t.vaddr + t.memsz ≤ q) →
    (∀ x, m.load q = .ok x → m'.load q = .ok x) ∧ (Clear m q → Clear m' q) := by
  intro xs
  induction xs with
  | nil => intro m m' h _; cases h; exact ⟨fun _ h => h, fun h => h⟩
  | cons t xs ih =>
    intro m m' h ht
    rw [loadSegments] at h
    cases hs : loadSegment file t m with
    | mk m1 r =>
      rw [hs] at h
      cases r with
      | error e => cases h
      | ok u =>
        dsimp only at h
        obtain ⟨l1, l2, _, _⟩ := loadSegment_ok hs
        obtain ⟨i1, i2⟩ := ih m1 m' h (fun t' h' => ht t' (by simp [h']))
        have := ht t (by simp)
        exact ⟨fun x hx => i1 x (l1 q x hq this hx), fun hc => i2 (l2 q hq this hc)⟩

theorem new_clear {start size : Nat} {m : Mem C} (h : Mem.new start size = .ok m) (q : Nat) : Clear m q := by
  rw [Mem.new] at h
  cases ht : tryOffset start size with
  | error e => rw [ht] at h; cases h
  | ok sp =>
    rw [ht] at h; dsimp only at h
    cases ha : (⟨fun _ => none, sp⟩ : Mem C).allocateAt start size with
    | mk m1 r =>
      rw [ha] at h
      cases r with
      | error e => cases h
      | ok u => cases h; exact allocateAt_clear ha (by intro x hx; cases hx)

end Spf.Cpu
