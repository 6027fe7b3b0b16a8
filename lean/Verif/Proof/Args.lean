import Verif.Model.Args
import Verif.Proof.Memory

/-! Lemmas about typed values and call frames. -/

namespace Spf.Cpu
variable {C : Type}

/-- The types for which `ToArg` is usable: integers of at least one byte, encrypted integers of a positive whole number of
bytes. -/
def Ty.ok : Ty → Prop
  | .prim n => 0 < n
  | .enc N => 0 < N ∧ N % 8 = 0
  | .arr _ t => t.ok
  | .unit => True

/-- The values of the right shape. -/
def Ty.wf : (t : Ty) → t.Val C → Prop
  | .prim _, _ => True
  | .enc N, bits => List.length (α := C) bits = N
  | .arr n t, xs => List.length (α := t.Val C) xs = n ∧ ∀ x ∈ (xs : List (t.Val C)), t.wf x
  | .unit, _ => True

theorem nextMultipleOf_eq {x n : Nat} (hn : 0 < n) (h : x % n = 0) : nextMultipleOf x n = x := by
  rw [nextMultipleOf, if_neg (by omega)]
  obtain ⟨k, rfl⟩ := Nat.dvd_of_mod_eq_zero h
  have : (n * k + (n - 1)) / n = k := by
    rw [Nat.mul_add_div hn, Nat.div_eq_of_lt (by omega)]; rfl
  rw [this, Nat.mul_comm]

theorem nextMultipleOf_mod {x n : Nat} : nextMultipleOf x n % n = 0 := by
  rw [nextMultipleOf]; split
  · simp
  · simp

theorem nextMultipleOf_ge {x n : Nat} (hn : 0 < n) : x ≤ nextMultipleOf x n ∧ nextMultipleOf x n < x + n := by
  rw [nextMultipleOf, if_neg (by omega)]
  have h1 := Nat.div_add_mod (x + (n - 1)) n
  have h2 := Nat.mod_lt (x + (n - 1)) hn
  rw [Nat.mul_comm] at h1
  omega

theorem Ty.align_pos : ∀ t : Ty, t.ok → 0 < t.alignment
  | .prim n, h => h
  | .enc N, h => by obtain ⟨a, b⟩ := h; show 0 < N / 8; omega
  | .arr _ t, h => Ty.align_pos t h
  | .unit, _ => Nat.one_pos

theorem Ty.size_mod : ∀ t : Ty, t.ok → t.size % t.alignment = 0
  | .prim n, _ => Nat.mod_self n
  | .enc N, _ => Nat.mod_self _
  | .arr n t, h => by
    show nextMultipleOf t.size t.alignment * n % t.alignment = 0
    rw [nextMultipleOf_eq (Ty.align_pos t h) (Ty.size_mod t h)]
    rw [Nat.mul_mod, Ty.size_mod t h]; simp
  | .unit, _ => rfl

theorem Ty.elem_size (t : Ty) (h : t.ok) : nextMultipleOf t.size t.alignment = t.size :=
  nextMultipleOf_eq (Ty.align_pos t h) (Ty.size_mod t h)

theorem padTo_full {n : Nat} {bs : List (Byte C)} (h : bs.length = n) : padTo n bs = bs := by
  subst h
  cases bs with
  | nil => rfl
  | cons b bs => simp [padTo]

theorem chunks_nil {α : Type} (n fuel : Nat) : chunks n fuel ([] : List α) = [] := by cases fuel <;> simp [chunks]

theorem chunks_flatMap {α β : Type} (n : Nat) (hn : 0 < n) (f : α → List β) : ∀ (xs : List α) (fuel : Nat), (∀ x ∈ xs, (f x).length = n) →
    xs.length ≤ fuel → chunks n fuel (xs.flatMap f) = xs.map f := by
  intro xs
  induction xs with
  | nil => intro fuel _ _; simp [chunks_nil]
  | cons x xs ih =>
    intro fuel h hf
    cases fuel with
    | zero => simp at hf
    | succ fuel =>
      have hx := h x (by simp)
      have hne : ¬ (f x ++ xs.flatMap f = []) := by
        intro e
        have := congrArg List.length e
        rw [List.length_append, hx] at this; simp at this; omega
      rw [List.flatMap_cons, chunks, if_neg hne, List.map_cons]
      rw [List.take_left' hx, List.drop_left' hx]
      rw [ih fuel (fun y hy => h y (by simp [hy])) (by simpa using hf)]

theorem chunks_flatten {α : Type} (n : Nat) (hn : 0 < n) : ∀ (fuel : Nat) (l : List α), l.length ≤ fuel → (chunks n fuel l).flatten = l := by
  intro fuel
  induction fuel with
  | zero => intro l h; cases l <;> simp_all [chunks]
  | succ f ih =>
    intro l h
    rw [chunks]
    split
    · simp_all
    · rename_i hl
      rw [List.flatten_cons, ih _ (by simp; cases l <;> simp_all; omega), List.take_append_drop]

theorem chunks_length {α : Type} (n : Nat) (hn : 0 < n) : ∀ (fuel k : Nat) (l : List α), l.length = n * k → l.length ≤ fuel → (chunks n fuel l).length = k := by
  intro fuel
  induction fuel with
  | zero =>
    intro k l h hf
    have hl : l = [] := by simpa using hf
    subst hl
    rw [List.length_nil] at h
    rcases Nat.mul_eq_zero.mp h.symm with h | h
    · omega
    · subst h; rfl
  | succ f ih =>
    intro k l h hf
    rw [chunks]
    split
    · rename_i hl; subst hl
      rw [List.length_nil] at h
      rcases Nat.mul_eq_zero.mp h.symm with h | h
      · omega
      · subst h; rfl
    · rename_i hl
      cases k with
      | zero => simp at h; exact absurd h hl
      | succ k =>
        rw [Nat.mul_succ] at h
        rw [List.length_cons, ih k _ (by simp; omega) (by simp; omega)]

theorem leBytes_length (n v : Nat) : (leBytes n v).length = n := by simp [leBytes]

theorem sum_const {α : Type} (f : α → Nat) (c : Nat) : ∀ l : List α, (∀ x ∈ l, f x = c) → (l.map f).sum = l.length * c := by
  intro l
  induction l with
  | nil => intro _; simp
  | cons a l ih =>
    intro h
    rw [List.map_cons, List.sum_cons, h a (by simp), ih (fun x hx => h x (by simp [hx])), List.length_cons, Nat.succ_mul]; omega

theorem Ty.toBytes_length : ∀ (t : Ty) (v : t.Val C), t.ok → t.wf v → (t.toBytes v).length = t.size
  | .prim n, v, _, _ => by simp [Ty.toBytes, leBytes_length, Ty.size]
  | .enc N, bits, h, hw => by
    obtain ⟨h0, h8⟩ := h
    have hw' : List.length (α := C) bits = N := hw
    show (List.map Byte.cipher (chunks 8 (List.length (α := C) bits) bits)).length = N / 8
    rw [List.length_map]
    exact chunks_length 8 (by omega) _ (N / 8) _ (by rw [hw']; omega) (Nat.le_refl _)
  | .arr n t, xs, h, hw => by
    obtain ⟨hl, he⟩ := hw
    show (if t.size = 0 then [] else _).length = nextMultipleOf t.size t.alignment * n
    rw [Ty.elem_size t h]
    split
    · rename_i h0; simp [h0]
    · rw [List.length_flatMap, sum_const _ t.size, hl, Nat.mul_comm]
      intro x hx
      have := Ty.toBytes_length t x h (he x hx)
      rw [padTo_full this, this]
  | .unit, _, _, _ => rfl

theorem fromLe_bits (n : Nat) : ∀ (bs : List (BitVec 8)) (i : Nat) (acc : BitVec (8 * n)),
    ∃ r, fromLe (C := C) n (bs.map .plain) i acc = .ok r ∧
      ∀ k, k < 8 * n → r.getLsbD k = (acc.getLsbD k || (decide (8 * i ≤ k) && (bs.getD (k / 8 - i) 0).getLsbD (k % 8))) := by
  intro bs
  induction bs with
  | nil => intro i acc; exact ⟨acc, rfl, by intro k _; simp⟩
  | cons b bs ih =>
    intro i acc
    obtain ⟨r, h1, h2⟩ := ih (i + 1) (acc ||| (b.setWidth (8 * n)) <<< (8 * i))
    refine ⟨r, h1, ?_⟩
    intro k hk
    rw [h2 k hk]
    simp only [BitVec.getLsbD_or, BitVec.getLsbD_shiftLeft, BitVec.getLsbD_setWidth, hk, decide_true, Bool.true_and]
    by_cases hi : 8 * i ≤ k
    · by_cases hi2 : 8 * (i + 1) ≤ k
      · have e : k / 8 - i = (k / 8 - (i + 1)) + 1 := by omega
        have e2 : b.getLsbD (k - 8 * i) = false := BitVec.getLsbD_of_ge _ _ (by omega)
        rw [e2, e]
        simp [hi, hi2]
      · have e : k / 8 - i = 0 := by omega
        have e2 : k - 8 * i = k % 8 := by omega
        have e3 : k - 8 * i < 8 * n := by omega
        rw [e]
        simp only [hi, hi2, e3, decide_true, decide_false, Bool.false_and, Bool.or_false, Bool.true_and, List.getD_cons_zero, e2]
        have : ¬ k < 8 * i := by omega
        simp [this]
        have h4 : k % 8 < 8 * n := by omega
        simp [h4]
    · have hi2 : ¬ 8 * (i + 1) ≤ k := by omega
      have : k < 8 * i := by omega
      simp [hi, hi2, this]

theorem prim_roundtrip (n : Nat) (v : BitVec (8 * n)) : fromLe (C := C) n ((leBytes n v.toNat).map .plain) 0 0 = .ok v := by
  obtain ⟨r, h1, h2⟩ := fromLe_bits (C := C) n (leBytes n v.toNat) 0 0
  rw [h1]; congr 1
  apply BitVec.eq_of_getLsbD_eq
  intro k hk
  rw [h2 k hk]
  have hkn : k / 8 < n := by omega
  simp only [leBytes, Nat.sub_zero, Nat.mul_zero, Nat.zero_le, decide_true, Bool.true_and, BitVec.getLsbD_zero, Bool.false_or]
  rw [show (List.map (fun i => BitVec.ofNat 8 (v.toNat >>> (8 * i))) (List.range n)).getD (k / 8) 0 = BitVec.ofNat 8 (v.toNat >>> (8 * (k / 8))) by
    simp [List.getD_eq_getElem?_getD, hkn]]
  rw [BitVec.getLsbD_ofNat, Nat.testBit_shiftRight]
  have : 8 * (k / 8) + k % 8 = k := by omega
  rw [this]
  have h8 : k % 8 < 8 := by omega
  simp only [h8, decide_true, Bool.true_and]
  have hz : BitVec.getLsbD (0 : BitVec (8 * n)) k = false := BitVec.getLsbD_zero
  rw [hz, Bool.false_or]
  rfl

theorem cipherBits_map : ∀ l : List (List C), cipherBits (l.map Byte.cipher) = .ok l.flatten := by
  intro l
  induction l with
  | nil => rfl
  | cons a l ih => rw [List.map_cons, cipherBits, ih]; rfl

theorem collectOk_map {α β : Type} (f : α → Except Err β) (g : β → α) : ∀ l : List β, (∀ x ∈ l, f (g x) = .ok x) → collectOk f (l.map g) = .ok l := by
  intro l
  induction l with
  | nil => intro _; rfl
  | cons a l ih => intro h; rw [List.map_cons, collectOk, h a (by simp), ih (fun x hx => h x (by simp [hx]))]

theorem toBytes_zero (t : Ty) (v : t.Val C) (h : t.ok) (hw : t.wf v) (h0 : t.size = 0) : t.toBytes v = [] := by
  have := Ty.toBytes_length t v h hw
  rw [h0] at this; simpa using this

theorem Ty.roundtrip : ∀ (t : Ty) (v : t.Val C), t.ok → t.wf v → t.fromBytes (t.toBytes v) = .ok v
  | .prim n, v, _, _ => by
    show (if _ then _ else _) = _
    rw [if_neg (by rw [Ty.toBytes_length (.prim n) v ‹_› trivial]; simp [Ty.size])]
    exact prim_roundtrip n v
  | .enc N, bits, h, hw => by
    have hl := Ty.toBytes_length (.enc N) bits h hw
    show (if _ then _ else _) = _
    rw [if_neg (by rw [hl]; simp [Ty.size])]
    show cipherBits (List.map Byte.cipher _) = _
    rw [cipherBits_map, chunks_flatten 8 (by omega) _ _ (Nat.le_refl _)]
  | .arr n t, xs, h, hw => by
    obtain ⟨hl, he⟩ := hw
    by_cases h0 : t.size = 0
    · show (if t.size = 0 then _ else _) = _
      rw [if_pos h0]
      have hb : (Ty.arr n t).toBytes (C := C) xs = [] := by show (if t.size = 0 then [] else _) = []; rw [if_pos h0]
      rw [if_neg (by simp [hb])]
      -- every element decodes from the empty list
      have key : ∀ (l : List (t.Val C)), (∀ x ∈ l, t.wf x) → collectOk (fun _ : Unit => t.fromBytes (C := C) []) (List.replicate l.length ()) = .ok l := by
        intro l
        induction l with
        | nil => intro _; rfl
        | cons a l ih =>
          intro hh
          rw [List.length_cons, List.replicate_succ, collectOk]
          have hz := toBytes_zero t a h (hh a (by simp)) h0
          have := Ty.roundtrip t a h (hh a (by simp))
          rw [hz] at this
          rw [ih (fun x hx => hh x (by simp [hx])), this]
      have := key xs he
      rw [hl] at this; exact this
    · have hb : (Ty.arr n t).toBytes (C := C) xs = (xs : List (t.Val C)).flatMap t.toBytes := by
        show (if t.size = 0 then [] else _) = _
        rw [if_neg h0]
        rw [List.flatMap_def, List.flatMap_def]
        congr 1
        apply List.map_congr_left
        intro x hx
        rw [Ty.elem_size t h, padTo_full (Ty.toBytes_length t x h (he x hx))]
      show (if t.size = 0 then _ else _) = _
      rw [if_neg h0, hb, Ty.elem_size t h]
      have hlen : ((xs : List (t.Val C)).flatMap t.toBytes).length = List.length (α := t.Val C) xs * t.size := by
        rw [List.length_flatMap, sum_const _ t.size]
        intro x hx; exact Ty.toBytes_length t x h (he x hx)
      rw [chunks_flatMap t.size (by omega) _ _ _ (fun x hx => Ty.toBytes_length t x h (he x hx))
        (by rw [hlen]; exact Nat.le_mul_of_pos_right _ (by omega))]
      rw [collectOk_map _ _ _ (fun x hx => Ty.roundtrip t x h (he x hx))]
      dsimp only
      rw [if_neg (by simpa using hl)]
  | .unit, _, _, _ => rfl

end Spf.Cpu
