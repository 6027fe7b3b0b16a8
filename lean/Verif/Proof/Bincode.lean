import Verif.Model.Bincode
import Mathlib.Tactic.Linarith

namespace Spf.Bincode

theorem leVal_lt (bs : List Byte) : leVal bs < 256 ^ bs.length := by
  induction bs with
  | nil => simp [leVal]
  | cons b bs ih =>
    have := b.isLt
    simp only [leVal, List.length_cons, pow_succ]
    omega

theorem length_leBytes (n v : Nat) : (leBytes n v).length = n := by
  induction n generalizing v with
  | zero => rfl
  | succ n ih => simp [leBytes, ih]

theorem leVal_leBytes (n v : Nat) (h : v < 256 ^ n) : leVal (leBytes n v) = v := by
  induction n generalizing v with
  | zero => simp [leBytes, leVal] at *; omega
  | succ n ih =>
    have h2 : v / 256 < 256 ^ n := by rw [pow_succ] at h; omega
    simp only [leBytes, leVal, ih _ h2, BitVec.toNat_ofNat]
    omega

theorem leBytes_leVal (bs : List Byte) : leBytes bs.length (leVal bs) = bs := by
  induction bs with
  | nil => rfl
  | cons b bs ih =>
    have hb := b.isLt
    simp only [leVal, List.length_cons, leBytes]
    congr 1
    · apply BitVec.eq_of_toNat_eq; simp only [BitVec.toNat_ofNat]; omega
    · rw [show (b.toNat + 256 * leVal bs) / 256 = leVal bs by omega]; exact ih

/-- `d` reads exactly the serializations of the values satisfying `P`. -/
def Codec {α : Type} (d : Dec α) (ser : α → List Byte) (P : α → Prop) : Prop :=
  ∀ s v s', d s = some (v, s') ↔
    P v ∧ s.bytes = ser v ++ s'.bytes ∧ s.limit = (ser v).length + s'.limit

theorem readInt_codec (n : Nat) : Codec (readInt n) (leBytes n) (fun v => v < 256 ^ n) := by
  intro s v s'
  simp only [readInt, readBytes]
  by_cases h : n ≤ s.limit ∧ n ≤ s.bytes.length
  · rw [if_pos h]
    simp only [Option.some.injEq, Prod.mk.injEq]
    have hl : (s.bytes.take n).length = n := by simp [h.2]
    constructor
    · rintro ⟨rfl, rfl⟩
      refine ⟨?_, ?_, ?_⟩
      · have := leVal_lt (s.bytes.take n); rwa [hl] at this
      · have := leBytes_leVal (s.bytes.take n)
        rw [hl] at this
        rw [this]; simp
      · simp only [length_leBytes]; omega
    · rintro ⟨hv, hb, hlim⟩
      have hln := length_leBytes n v
      constructor
      · rw [hb, List.take_left' hln]; exact leVal_leBytes n v hv
      · cases s'
        simp only [St.mk.injEq] at *
        refine ⟨?_, by omega⟩
        rw [hb, List.drop_left' hln]
  · rw [if_neg h]
    simp only [reduceCtorEq, false_iff]
    rintro ⟨_, hb, hlim⟩
    apply h
    have hln := length_leBytes n v
    refine ⟨by omega, ?_⟩
    rw [hb, List.length_append]; omega

theorem readMany_codec {α : Type} {d : Dec α} {ser P} (hd : Codec d ser P) (n : Nat) :
    Codec (readMany d n) (fun v => v.flatMap ser) (fun v => v.length = n ∧ ∀ x ∈ v, P x) := by
  induction n with
  | zero =>
    intro s v s'
    simp only [readMany, Option.some.injEq, Prod.mk.injEq, List.length_eq_zero_iff]
    constructor
    · rintro ⟨rfl, rfl⟩; simp
    · rintro ⟨⟨rfl, _⟩, hb, hl⟩
      cases s; cases s'; simp_all
  | succ n ih =>
    intro s v s'
    simp only [readMany]
    constructor
    · intro h
      cases h1 : d s with
      | none => rw [h1] at h; simp at h
      | some r =>
        obtain ⟨x, s1⟩ := r
        rw [h1] at h
        cases h2 : readMany d n s1 with
        | none => simp only [h2] at h; simp at h
        | some r =>
          obtain ⟨xs, s2⟩ := r
          simp only [h2, Option.some.injEq, Prod.mk.injEq] at h
          obtain ⟨rfl, rfl⟩ := h
          obtain ⟨p1, b1, l1⟩ := (hd _ _ _).1 h1
          obtain ⟨⟨p2, q2⟩, b2, l2⟩ := (ih _ _ _).1 h2
          refine ⟨⟨by simp [p2], ?_⟩, ?_, ?_⟩
          · simp only [List.mem_cons, forall_eq_or_imp]; exact ⟨p1, q2⟩
          · simp [b1, b2]
          · simp only [List.flatMap_cons, List.length_append] at l2 ⊢; omega
    · rintro ⟨⟨hn, hP⟩, hb, hl⟩
      cases v with
      | nil => simp at hn
      | cons x xs =>
        simp only [List.flatMap_cons, List.length_append, List.append_assoc] at hb hl
        have h1 := (hd s x ⟨xs.flatMap ser ++ s'.bytes, (xs.flatMap ser).length + s'.limit⟩).2
          ⟨hP x (by simp), hb, by simp only; omega⟩
        have h2 := (ih ⟨xs.flatMap ser ++ s'.bytes, (xs.flatMap ser).length + s'.limit⟩ xs s').2
          ⟨⟨by simpa using hn, fun y hy => hP y (by simp [hy])⟩, rfl, rfl⟩
        rw [h1]
        simp only [h2]

theorem readSeq_codec {α : Type} {d : Dec α} {ser P} (hd : Codec d ser P) :
    Codec (readSeq d) (serSeq ser) (fun v => v.length < 2 ^ 64 ∧ ∀ x ∈ v, P x) := by
  intro s v s'
  simp only [readSeq, serSeq]
  constructor
  · intro h
    cases h1 : readInt 8 s with
    | none => rw [h1] at h; simp at h
    | some r =>
      obtain ⟨n, s1⟩ := r
      rw [h1] at h
      obtain ⟨p1, b1, l1⟩ := (readInt_codec 8 _ _ _).1 h1
      obtain ⟨⟨p2, q2⟩, b2, l2⟩ := (readMany_codec hd n _ _ _).1 h
      subst p2
      refine ⟨⟨by norm_num at p1 ⊢; exact p1, q2⟩, by rw [b1, b2, List.append_assoc], ?_⟩
      simp only [List.length_append] at l2 ⊢; omega
  · rintro ⟨⟨hn, hP⟩, hb, hl⟩
    simp only [List.length_append, List.append_assoc] at hb hl
    have h1 := (readInt_codec 8 s v.length
      ⟨v.flatMap ser ++ s'.bytes, (v.flatMap ser).length + s'.limit⟩).2
      ⟨by norm_num at hn ⊢; exact hn, hb, by simp only; omega⟩
    rw [h1]
    exact (readMany_codec hd _ ⟨_, _⟩ v s').2 ⟨⟨rfl, hP⟩, rfl, rfl⟩

/-- Values of an entity whose elements are `w` words. -/
def Words (w : Nat) (v : Data) : Prop :=
  v.length < 2 ^ 64 ∧ ∀ e ∈ v, e.length = w ∧ ∀ x ∈ e, x < 256 ^ 8

theorem readData_codec (w : Nat) : Codec (readData w) serData (Words w) :=
  readSeq_codec (readMany_codec (readInt_codec 8) w)

theorem length_flatMap_const {α : Type} (f : α → List Byte) (c : Nat) (l : List α)
    (h : ∀ x ∈ l, (f x).length = c) : (l.flatMap f).length = l.length * c := by
  induction l with
  | nil => simp
  | cons x xs ih =>
    simp only [List.flatMap_cons, List.length_append, List.length_cons,
      h x (by simp), ih (fun y hy => h y (by simp [hy])), Nat.add_mul]
    omega

theorem length_serData {w : Nat} {v : Data} (h : Words w v) :
    (serData v).length = 8 + v.length * (w * 8) := by
  simp only [serData, serSeq, List.length_append, length_leBytes]
  congr 1
  apply length_flatMap_const
  intro e he
  rw [length_flatMap_const (leBytes 8) 8 e (fun _ _ => length_leBytes _ _), (h.2 e he).1]

/-- Values of a struct. -/
def AreWords : List (Nat × Nat) → List Data → Prop
  | [], [] => True
  | (w, _) :: fs, v :: vs => Words w v ∧ AreWords fs vs
  | _, _ => False

theorem readFields_codec (fs : List (Nat × Nat)) :
    Codec (readFields fs) serFields (AreWords fs) := by
  induction fs with
  | nil =>
    intro s v s'
    simp only [readFields, Option.some.injEq, Prod.mk.injEq]
    constructor
    · rintro ⟨rfl, rfl⟩; simp [AreWords, serFields]
    · rintro ⟨h, hb, hl⟩
      cases v with
      | nil => cases s; cases s'; simp_all [serFields]
      | cons => simp [AreWords] at h
  | cons f fs ih =>
    obtain ⟨w, n⟩ := f
    intro s v s'
    simp only [readFields]
    constructor
    · intro h
      cases h1 : readData w s with
      | none => rw [h1] at h; simp at h
      | some r =>
        obtain ⟨x, s1⟩ := r
        rw [h1] at h
        cases h2 : readFields fs s1 with
        | none => simp only [h2] at h; simp at h
        | some r =>
          obtain ⟨xs, s2⟩ := r
          simp only [h2, Option.some.injEq, Prod.mk.injEq] at h
          obtain ⟨rfl, rfl⟩ := h
          obtain ⟨p1, b1, l1⟩ := (readData_codec w _ _ _).1 h1
          obtain ⟨p2, b2, l2⟩ := (ih _ _ _).1 h2
          simp only [serFields] at b2 l2
          refine ⟨⟨p1, p2⟩, ?_, ?_⟩
          · simp [serFields, b1, b2]
          · simp only [serFields, List.flatMap_cons, List.length_append]; omega
    · rintro ⟨hP, hb, hl⟩
      cases v with
      | nil => simp [AreWords] at hP
      | cons x xs =>
        obtain ⟨p1, p2⟩ := hP
        simp only [serFields, List.flatMap_cons, List.length_append, List.append_assoc] at hb hl
        have h1 := (readData_codec w s x
          ⟨serFields xs ++ s'.bytes, (serFields xs).length + s'.limit⟩).2
          ⟨p1, hb, by simp only [serFields]; omega⟩
        have h2 := (ih ⟨serFields xs ++ s'.bytes, (serFields xs).length + s'.limit⟩ xs s').2
          ⟨p2, rfl, rfl⟩
        rw [h1]
        simp only [h2]

theorem readPacked_codec (k : CtKind) :
    Codec (readPacked k) serPacked (fun x => x.1 < 2 ^ 32 ∧ Words (ctWords k) x.2) := by
  intro s v s'
  simp only [readPacked]
  constructor
  · intro h
    cases h1 : readInt 4 s with
    | none => rw [h1] at h; simp at h
    | some r =>
      obtain ⟨x, s1⟩ := r
      rw [h1] at h
      cases h2 : readData (ctWords k) s1 with
      | none => simp only [h2] at h; simp at h
      | some r =>
        obtain ⟨xs, s2⟩ := r
        simp only [h2, Option.some.injEq, Prod.mk.injEq] at h
        obtain ⟨rfl, rfl⟩ := h
        obtain ⟨p1, b1, l1⟩ := (readInt_codec 4 _ _ _).1 h1
        obtain ⟨p2, b2, l2⟩ := (readData_codec _ _ _ _).1 h2
        refine ⟨⟨by norm_num at p1 ⊢; exact p1, p2⟩, ?_, ?_⟩
        · simp [serPacked, b1, b2]
        · simp only [serPacked, List.length_append]; omega
  · rintro ⟨⟨p1, p2⟩, hb, hl⟩
    obtain ⟨n, x⟩ := v
    simp only [serPacked, List.length_append, List.append_assoc] at hb hl
    have h1 := (readInt_codec 4 s n
      ⟨serData x ++ s'.bytes, (serData x).length + s'.limit⟩).2
      ⟨by norm_num at p1 ⊢; exact p1, hb, by simp only; omega⟩
    have h2 := (readData_codec (ctWords k)
      ⟨serData x ++ s'.bytes, (serData x).length + s'.limit⟩ x s').2 ⟨p2, rfl, rfl⟩
    rw [h1]
    simp only [h2]

theorem deserializeWith_iff {α : Type} {d : Dec α} {ser P} (hd : Codec d ser P) (limit : Nat)
    (valid : α → Bool) (data : List Byte) (v : α) :
    deserializeWith limit d valid data = some v ↔
      P v ∧ valid v = true ∧ (ser v).length ≤ limit ∧ ∃ rest, data = ser v ++ rest := by
  simp only [deserializeWith]
  constructor
  · intro h
    cases h1 : d ⟨data, limit⟩ with
    | none => rw [h1] at h; simp at h
    | some r =>
      obtain ⟨x, s1⟩ := r
      rw [h1] at h
      obtain ⟨p1, b1, l1⟩ := (hd _ _ _).1 h1
      by_cases hv : valid x = true
      · simp only [hv, if_true, Option.some.injEq] at h
        subst h
        exact ⟨p1, hv, by simp only at l1; omega, s1.bytes, b1⟩
      · simp [hv] at h
  · rintro ⟨p, hv, hl, rest, rfl⟩
    have h1 := (hd ⟨ser v ++ rest, limit⟩ v ⟨rest, limit - (ser v).length⟩).2
      ⟨p, rfl, by simp only; omega⟩
    simp [h1, hv]

end Spf.Bincode
